import Verif.Spec.Matching
import Verif.Proofs.Pfaffian
import Mathlib.GroupTheory.Perm.Centralizer
import Mathlib.GroupTheory.Perm.Cycle.Type
import Mathlib.LinearAlgebra.Matrix.Symmetric

/-! # Perfect matchings, fixed-point-free involutions, and their fibres in the symmetric group -/

namespace FF

open Equiv Matrix

/-- Fixed-point-free involutions. -/
def IsFpf {n : ℕ} (τ : Perm (Fin n)) : Prop := τ * τ = 1 ∧ ∀ v, τ v ≠ v

instance {n : ℕ} : DecidablePred (IsFpf (n := n)) := fun τ => by unfold IsFpf; infer_instance

theorem IsFpf.apply {n : ℕ} {τ : Perm (Fin n)} (h : IsFpf τ) (v : Fin n) : τ (τ v) = v := by
  have := congrArg (fun p : Perm (Fin n) => p v) h.1
  simpa using this

/-- The standard involution `2i ↔ 2i+1`. -/
def tau0 (m : ℕ) : Perm (Fin (2 * m)) := flip fun _ => true

theorem tau0_ev {m : ℕ} (i : Fin m) : tau0 m (ev i) = od i := by simp [tau0, flip_ev]
theorem tau0_od {m : ℕ} (i : Fin m) : tau0 m (od i) = ev i := by simp [tau0, flip_od]

theorem ev_or_od {m : ℕ} (v : Fin (2 * m)) : (∃ i, v = ev i) ∨ ∃ i, v = od i := by
  obtain ⟨⟨i, b⟩, rfl⟩ := (pairEquiv m).surjective v
  fin_cases b
  · exact Or.inl ⟨i, pairEquiv_zero i⟩
  · exact Or.inr ⟨i, pairEquiv_one i⟩

theorem tau0_fpf (m : ℕ) : IsFpf (tau0 m) := by
  constructor
  · ext v
    rcases ev_or_od v with ⟨i, rfl⟩ | ⟨i, rfl⟩ <;> simp [tau0_ev, tau0_od]
  · intro v
    rcases ev_or_od v with ⟨i, rfl⟩ | ⟨i, rfl⟩
    · simpa [tau0_ev] using od_ne_ev i i
    · simpa [tau0_od] using ev_ne_od i i

theorem IsFpf.conj {n : ℕ} {τ : Perm (Fin n)} (h : IsFpf τ) (σ : Perm (Fin n)) :
    IsFpf (σ * τ * σ⁻¹) := by
  constructor
  · have : σ * τ * σ⁻¹ * (σ * τ * σ⁻¹) = σ * (τ * τ) * σ⁻¹ := by group
    rw [this, h.1]; simp
  · intro v hv
    have h2 := h.2 (σ⁻¹ v)
    apply h2
    have := congrArg (fun w => σ⁻¹ w) hv
    simpa using this

theorem IsFpf.cycleType {m : ℕ} {τ : Perm (Fin (2 * m))} (h : IsFpf τ) :
    τ.cycleType = Multiset.replicate m 2 := by
  have h2 : ∀ k ∈ τ.cycleType, k = 2 := by
    intro k hk
    have hd : k ∣ orderOf τ := Perm.dvd_of_mem_cycleType hk
    have ho : orderOf τ ∣ 2 := orderOf_dvd_of_pow_eq_one (by rw [pow_two]; exact h.1)
    have := Nat.le_of_dvd (by norm_num) (hd.trans ho)
    have := Perm.two_le_of_mem_cycleType hk
    omega
  have hrep := Multiset.eq_replicate_card.2 h2
  have hs : τ.support = Finset.univ := by
    ext v; simp [h.2 v]
  have hsum := τ.sum_cycleType
  rw [hs, Finset.card_univ, Fintype.card_fin, hrep, Multiset.sum_replicate] at hsum
  have : Multiset.card τ.cycleType = m := by simp at hsum; omega
  rw [hrep, this]

theorem card_fibre {m : ℕ} {τ : Perm (Fin (2 * m))} (h : IsFpf τ) :
    (Finset.univ.filter fun σ : Perm (Fin (2 * m)) => σ * tau0 m * σ⁻¹ = τ).card
      = 2 ^ m * m.factorial := by
  have hc : Nat.card (Subgroup.centralizer {tau0 m}) = 2 ^ m * m.factorial := by
    rw [Perm.nat_card_centralizer, (tau0_fpf m).cycleType]
    by_cases hm : m = 0
    · subst hm; simp
    · simp [Multiset.toFinset_replicate, hm, Nat.mul_comm]
  have hconj : IsConj (tau0 m) τ := by
    rw [Perm.isConj_iff_cycleType_eq, (tau0_fpf m).cycleType, h.cycleType]
  obtain ⟨g, hg⟩ := isConj_iff.1 hconj
  rw [← hc, ← Fintype.card_subtype, ← Nat.card_eq_fintype_card]
  refine Nat.card_congr ⟨fun σ => ⟨g⁻¹ * σ.1, ?_⟩, fun c => ⟨g * c.1, ?_⟩, ?_, ?_⟩
  · rw [Subgroup.mem_centralizer_singleton_iff]
    have h1 := σ.2.trans hg.symm
    have h2 : σ.1 * tau0 m = g * tau0 m * g⁻¹ * σ.1 := by rw [← h1]; group
    rw [mul_assoc, h2]; group
  · have h1 := (Subgroup.mem_centralizer_singleton_iff).1 c.2
    rw [← hg]
    have : g * c.1 * tau0 m * (g * c.1)⁻¹ = g * (c.1 * tau0 m) * (c.1)⁻¹ * g⁻¹ := by group
    rw [this, h1]; group
  · intro σ; simp
  · intro c; simp

theorem sum_conj {K : Type} [CommRing K] {m : ℕ} (F : Perm (Fin (2 * m)) → K) :
    ∑ σ : Perm (Fin (2 * m)), F (σ * tau0 m * σ⁻¹)
      = (2 ^ m * (m.factorial : K)) * ∑ τ ∈ Finset.univ.filter IsFpf, F τ := by
  rw [← Finset.sum_fiberwise_of_maps_to (s := Finset.univ)
    (t := Finset.univ.filter (IsFpf (n := 2 * m)))
    (g := fun σ => σ * tau0 m * σ⁻¹) (fun σ _ => by simpa using (tau0_fpf m).conj σ),
    Finset.mul_sum]
  refine Finset.sum_congr rfl fun τ hτ => ?_
  simp only [Finset.mem_filter, Finset.mem_univ, true_and] at hτ
  rw [Finset.sum_congr rfl (g := fun _ => F τ) (fun σ hσ => by
    simp only [Finset.mem_filter, Finset.mem_univ, true_and] at hσ; rw [hσ])]
  rw [Finset.sum_const, nsmul_eq_mul]
  congr 1
  have := card_fibre hτ
  rw [show (2 ^ m * (m.factorial : K)) = ((2 ^ m * m.factorial : ℕ) : K) by push_cast; rfl, ← this]

/-- Permute the slots. -/
def lift {m : ℕ} (π : Perm (Fin m)) : Perm (Fin (2 * m)) :=
  (pairEquiv m).permCongr (Equiv.prodCongrLeft fun _ => π)

theorem lift_ev {m : ℕ} (π : Perm (Fin m)) (i : Fin m) : lift π (ev i) = ev (π i) := by
  rw [← pairEquiv_zero, ← pairEquiv_zero, lift]; simp

theorem lift_od {m : ℕ} (π : Perm (Fin m)) (i : Fin m) : lift π (od i) = od (π i) := by
  rw [← pairEquiv_one, ← pairEquiv_one, lift]; simp

theorem sign_lift {m : ℕ} (π : Perm (Fin m)) : Perm.sign (lift π) = 1 := by
  rw [lift, Perm.sign_permCongr, Perm.sign_prodCongrLeft]; simp

theorem centralizer_decomp {m : ℕ} {c : Perm (Fin (2 * m))} (hc : c * tau0 m = tau0 m * c) :
    ∃ (π : Perm (Fin m)) (f : Fin m → Bool), c = lift π * flip f := by
  have hc' : ∀ v, c (tau0 m v) = tau0 m (c v) := fun v =>
    congrArg (fun p : Perm (Fin (2 * m)) => p v) hc
  have h1 : ∀ i : Fin m, ∃ (k : Fin m) (b : Bool), c (ev i) = (if b then od k else ev k) ∧
      c (od i) = if b then ev k else od k := by
    intro i
    rcases ev_or_od (c (ev i)) with ⟨k, hk⟩ | ⟨k, hk⟩
    · refine ⟨k, false, by simpa using hk, ?_⟩
      rw [← tau0_ev, hc', hk, tau0_ev]; simp
    · refine ⟨k, true, by simpa using hk, ?_⟩
      rw [← tau0_ev, hc', hk, tau0_od]; simp
  choose s b hs using h1
  have hinj : Function.Injective s := by
    intro i j hij
    have hi := hs i
    have hj := hs j
    rw [hij] at hi
    cases hbi : b i <;> cases hbj : b j <;> simp only [hbi, hbj] at hi hj
    · exact ev_inj.1 (c.injective (hi.1.trans hj.1.symm))
    · exact absurd (c.injective (hi.1.trans hj.2.symm)) (ev_ne_od i j)
    · exact absurd (c.injective (hi.1.trans hj.2.symm)) (ev_ne_od i j)
    · exact ev_inj.1 (c.injective (hi.1.trans hj.1.symm))
  refine ⟨Equiv.ofBijective s (Finite.injective_iff_bijective.1 hinj), b, ?_⟩
  ext v
  rcases ev_or_od v with ⟨i, rfl⟩ | ⟨i, rfl⟩
  · rw [(hs i).1, Perm.mul_apply, flip_ev]
    split <;> simp [lift_ev, lift_od]
  · rw [(hs i).2, Perm.mul_apply, flip_od]
    split <;> simp [lift_ev, lift_od]

variable {K : Type} [Field K]

/-- The term of the Pfaffian sum belonging to a permutation. -/
noncomputable def pfTerm {m : ℕ} (A : Matrix (Fin (2 * m)) (Fin (2 * m)) K)
    (σ : Perm (Fin (2 * m))) : K :=
  ((Perm.sign σ : ℤ) : K) * ∏ i : Fin m, A (σ (ev i)) (σ (od i))

theorem pfTerm_mul {m : ℕ} {A : Matrix (Fin (2 * m)) (Fin (2 * m)) K} (hA : ∀ i j, A i j = - A j i)
    (σ : Perm (Fin (2 * m))) {c : Perm (Fin (2 * m))} (hc : c * tau0 m = tau0 m * c) :
    pfTerm A (σ * c) = pfTerm A σ := by
  obtain ⟨π, f, rfl⟩ := centralizer_decomp hc
  unfold pfTerm
  rw [Perm.sign_mul, Perm.sign_mul, sign_lift, sign_flip]
  have h1 : ∀ i : Fin m, A ((σ * (lift π * flip f)) (ev i)) ((σ * (lift π * flip f)) (od i))
      = (if f i then -1 else 1) * A (σ (ev (π i))) (σ (od (π i))) := by
    intro i
    simp only [Perm.mul_apply, flip_ev, flip_od]
    split
    · rw [lift_od, lift_ev, hA]; simp
    · rw [lift_od, lift_ev]; simp
  rw [Finset.prod_congr rfl fun i _ => h1 i, Finset.prod_mul_distrib,
    Equiv.prod_comp π (fun i => A (σ (ev i)) (σ (od i)))]
  push_cast
  have h2 : (∏ i : Fin m, ((if f i = true then -1 else 1 : ℤˣ) : ℤ) : ℤ)
      = ∏ i : Fin m, (if f i = true then (-1) else 1 : ℤ) :=
    Finset.prod_congr rfl fun i _ => by split <;> simp
  rw [one_mul]
  have h3 : (((∏ x : Fin m, if f x = true then (-1 : ℤˣ) else 1 : ℤˣ) : ℤ) : K)
      = ∏ i : Fin m, (if f i = true then (-1) else 1 : K) := by
    push_cast
    refine Finset.prod_congr rfl fun i _ => by split <;> simp
  have h4 : (∏ i : Fin m, (if f i = true then (-1) else 1 : K)) *
      (∏ i : Fin m, (if f i = true then (-1) else 1 : K)) = 1 := by
    rw [← Finset.prod_mul_distrib]
    exact Finset.prod_eq_one fun i _ => by split <;> simp
  simp only [Units.coe_prod, Int.cast_prod] at h3 ⊢
  rw [h3]
  linear_combination ((Perm.sign σ : ℤ) : K) * (∏ i : Fin m, A (σ (ev i)) (σ (od i))) * h4

theorem stdJ_skew {m : ℕ} (i j) : (stdJ m : Matrix _ _ K) i j = - stdJ m j i := by
  simp only [stdJ, ← Finset.sum_neg_distrib]
  refine Finset.sum_congr rfl fun k _ => ?_
  simp only [and_comm, neg_sub]

theorem stdJ_ne_zero {m : ℕ} {x y : Fin (2 * m)} (h : (stdJ m : Matrix _ _ K) x y ≠ 0) :
    y = tau0 m x := by
  rcases ev_or_od x with ⟨i, rfl⟩ | ⟨i, rfl⟩ <;> rcases ev_or_od y with ⟨j, rfl⟩ | ⟨j, rfl⟩
  · exact absurd (stdJ_ev_ev i j) h
  · rw [stdJ_ev_od] at h; rw [tau0_ev]; by_contra hne; exact h (by rw [if_neg]; rintro rfl; exact hne rfl)
  · rw [stdJ_od_ev] at h; rw [tau0_od]; by_contra hne; exact h (by rw [if_neg]; rintro rfl; exact hne rfl)
  · exact absurd (stdJ_od_od i j) h

theorem pfSum_stdJ (m : ℕ) : pfSum (stdJ m : Matrix _ _ K) = 2 ^ m * (m.factorial : K) := by
  classical
  have h1 : ∀ σ : Perm (Fin (2 * m)), ((Perm.sign σ : ℤ) : K) *
      ∏ i : Fin m, (stdJ m : Matrix _ _ K) (σ (ev i)) (σ (od i))
      = if σ * tau0 m * σ⁻¹ = tau0 m then 1 else 0 := by
    intro σ
    change pfTerm (stdJ m) σ = _
    split
    · rename_i h
      have hc : σ * tau0 m = tau0 m * σ := by
        exact mul_inv_eq_iff_eq_mul.1 h
      have := pfTerm_mul (A := (stdJ m : Matrix _ _ K)) stdJ_skew 1 hc
      rw [one_mul] at this
      rw [this]
      simp [pfTerm, stdJ_ev_od]
    · rename_i h
      by_contra hne
      apply h
      have hne' : ∀ i : Fin m, (stdJ m : Matrix _ _ K) (σ (ev i)) (σ (od i)) ≠ 0 := by
        intro i hi
        apply hne
        unfold pfTerm
        rw [Finset.prod_eq_zero (Finset.mem_univ i) hi, mul_zero]
      rw [mul_inv_eq_iff_eq_mul]
      ext v
      simp only [Perm.mul_apply]
      rcases ev_or_od v with ⟨i, rfl⟩ | ⟨i, rfl⟩
      · rw [tau0_ev, stdJ_ne_zero (hne' i)]
      · rw [tau0_od, stdJ_ne_zero (hne' i), (tau0_fpf m).apply]
  unfold pfSum
  rw [Finset.sum_congr rfl fun σ _ => h1 σ, Finset.sum_boole, card_fibre (tau0_fpf m)]
  push_cast; rfl

theorem fact_ne [CharZero K] (m : ℕ) : (2 ^ m * (m.factorial : K)) ≠ 0 :=
  mul_ne_zero (pow_ne_zero _ two_ne_zero) (Nat.cast_ne_zero.2 (Nat.factorial_ne_zero m))

theorem pfVal_stdJ [CharZero K] (m : ℕ) : pfVal (stdJ m : Matrix _ _ K) = 1 := by
  rw [pfVal_eq, pfSum_stdJ, div_self (fact_ne m)]

theorem pfVal_congr {m : ℕ} (A B : Matrix (Fin (2 * m)) (Fin (2 * m)) K) :
    pfVal (B * A * Bᵀ) = B.det * pfVal A := by
  rw [pfVal_eq, pfSum_congr, pfVal_eq, mul_div_assoc]

theorem det_stdJ [CharZero K] (m : ℕ) : (stdJ m : Matrix (Fin (2 * m)) (Fin (2 * m)) K).det = 1 := by
  have h : (stdJ m : Matrix (Fin (2 * m)) (Fin (2 * m)) K)
      = (Matrix.blockDiagonal fun _ : Fin m => !![(0 : K), 1; -1, 0]).reindex
        ((Equiv.prodComm _ _).trans (pairEquiv m)) ((Equiv.prodComm _ _).trans (pairEquiv m)) := by
    ext x y
    obtain ⟨⟨i, b⟩, rfl⟩ := (pairEquiv m).surjective x
    obtain ⟨⟨j, d⟩, rfl⟩ := (pairEquiv m).surjective y
    simp only [reindex_apply, submatrix_apply, Equiv.symm_trans_apply, Equiv.symm_apply_apply,
      Equiv.prodComm_symm, Equiv.prodComm_apply, Prod.swap_prod_mk, blockDiagonal_apply]
    fin_cases b <;> fin_cases d <;>
      simp [pairEquiv_zero, pairEquiv_one, stdJ_ev_od, stdJ_od_ev, stdJ_ev_ev, stdJ_od_od]
  rw [h, det_reindex_self, det_blockDiagonal]
  simp [det_fin_two]

theorem pfVal_sq [CharZero K] {m : ℕ} (A : Matrix (Fin (2 * m)) (Fin (2 * m)) K) (hA : Aᵀ = -A) :
    pfVal A ^ 2 = A.det := by
  obtain ⟨B, rfl⟩ := exists_darboux A hA
  rw [pfVal_congr, pfVal_stdJ, det_mul, det_mul, det_stdJ, det_transpose]
  ring

/-- Weight of a matching, as involution. -/
def weight {n : ℕ} (A : Matrix (Fin n) (Fin n) K) (τ : Perm (Fin n)) : K :=
  ∏ v ∈ Finset.univ.filter (fun v => v < τ v), A v (τ v)

/-- The lesser vertex of each slot. -/
theorem prod_slots {m : ℕ} (σ : Perm (Fin (2 * m))) (g : Fin (2 * m) → Fin (2 * m) → K)
    (hg : ∀ x y, g x y = g y x) :
    ∏ i : Fin m, g (σ (ev i)) (σ (od i))
      = ∏ v ∈ Finset.univ.filter (fun v => v < (σ * tau0 m * σ⁻¹) v), g v ((σ * tau0 m * σ⁻¹) v) := by
  have he : ∀ i, (σ * tau0 m * σ⁻¹) (σ (ev i)) = σ (od i) := fun i => by simp [tau0_ev]
  have ho : ∀ i, (σ * tau0 m * σ⁻¹) (σ (od i)) = σ (ev i) := fun i => by simp [tau0_od]
  generalize hτ : σ * tau0 m * σ⁻¹ = τ at he ho ⊢
  have hmin : ∀ i : Fin m, min (σ (ev i)) (σ (od i)) = σ (ev i) ∧ σ (ev i) < σ (od i) ∨
      min (σ (ev i)) (σ (od i)) = σ (od i) ∧ σ (od i) < σ (ev i) := by
    intro i
    rcases lt_or_gt_of_ne (fun h => ev_ne_od i i (σ.injective h) : σ (ev i) ≠ σ (od i)) with h | h
    · exact Or.inl ⟨min_eq_left h.le, h⟩
    · exact Or.inr ⟨min_eq_right h.le, h⟩
  refine Finset.prod_bij (fun i _ => min (σ (ev i)) (σ (od i))) ?_ ?_ ?_ ?_
  · intro i _
    simp only [Finset.mem_filter, Finset.mem_univ, true_and]
    rcases hmin i with ⟨h, h'⟩ | ⟨h, h'⟩ <;> rw [h]
    · rw [he]; exact h'
    · rw [ho]; exact h'
  · intro i _ j _ hij
    rcases hmin i with ⟨h, -⟩ | ⟨h, -⟩ <;> rcases hmin j with ⟨h', -⟩ | ⟨h', -⟩ <;>
      simp only [h, h'] at hij
    · exact ev_inj.1 (σ.injective hij)
    · exact absurd (σ.injective hij) (ev_ne_od _ _)
    · exact absurd (σ.injective hij) (od_ne_ev _ _)
    · exact od_inj.1 (σ.injective hij)
  · intro v hv
    simp only [Finset.mem_filter, Finset.mem_univ, true_and] at hv
    obtain ⟨w, rfl⟩ := σ.surjective v
    rcases ev_or_od w with ⟨i, rfl⟩ | ⟨i, rfl⟩
    · refine ⟨i, Finset.mem_univ _, ?_⟩
      rw [he] at hv
      exact min_eq_left hv.le
    · refine ⟨i, Finset.mem_univ _, ?_⟩
      rw [ho] at hv
      exact min_eq_right hv.le
  · intro i _
    rcases hmin i with ⟨h, -⟩ | ⟨h, -⟩ <;> rw [h]
    · rw [he]
    · rw [ho, hg]

theorem hfVal_eq_sum_fpf [CharZero K] {m : ℕ} (A : Matrix (Fin (2 * m)) (Fin (2 * m)) K)
    (hA : A.IsSymm) : hfVal A = ∑ τ ∈ Finset.univ.filter IsFpf, weight A τ := by
  have h : ∑ σ : Perm (Fin (2 * m)), ∏ i : Fin m, A (σ (ev i)) (σ (od i))
      = ∑ σ : Perm (Fin (2 * m)), weight A (σ * tau0 m * σ⁻¹) :=
    Finset.sum_congr rfl fun σ _ => prod_slots σ A (fun x y => hA.apply y x)
  rw [hfVal, h, sum_conj, mul_div_cancel_left₀ _ (fact_ne m)]

/-- The pairs of an involution. -/
def pairsOf {n : ℕ} (τ : Perm (Fin n)) : Finset (Fin n × Fin n) :=
  Finset.univ.filter fun e => e.1 < e.2 ∧ τ e.1 = e.2

theorem pairsOf_isPM {n : ℕ} {τ : Perm (Fin n)} (h : IsFpf τ) :
    Spec.IsPerfectMatching (pairsOf τ) := by
  constructor
  · intro e he; simp [pairsOf] at he; exact he.1
  · intro v
    rcases lt_or_gt_of_ne (h.2 v) with hv | hv
    · refine ⟨(τ v, v), ⟨by simp [pairsOf, hv, h.apply], Or.inr rfl⟩, ?_⟩
      rintro ⟨a, b⟩ ⟨hm, hab⟩
      simp only [pairsOf, Finset.mem_filter, Finset.mem_univ, true_and] at hm hab
      obtain ⟨hlt, rfl⟩ := hm
      rcases hab with rfl | rfl
      · exact absurd hv (not_lt.2 hlt.le)
      · rw [h.apply]
    · refine ⟨(v, τ v), ⟨by simp [pairsOf, hv], Or.inl rfl⟩, ?_⟩
      rintro ⟨a, b⟩ ⟨hm, hab⟩
      simp only [pairsOf, Finset.mem_filter, Finset.mem_univ, true_and] at hm hab
      obtain ⟨hlt, rfl⟩ := hm
      rcases hab with rfl | rfl
      · rfl
      · rw [h.apply] at hv; exact absurd hv (not_lt.2 hlt.le)

theorem mem_pairsOf {n : ℕ} {τ : Perm (Fin n)} {e : Fin n × Fin n} :
    e ∈ pairsOf τ ↔ e.1 < e.2 ∧ τ e.1 = e.2 := by simp [pairsOf]

theorem pairsOf_inj {n : ℕ} {τ τ' : Perm (Fin n)} (h : IsFpf τ) (h' : IsFpf τ')
    (he : pairsOf τ = pairsOf τ') : τ = τ' := by
  ext v
  rcases lt_or_gt_of_ne (h.2 v) with hv | hv
  · have : (τ v, v) ∈ pairsOf τ := mem_pairsOf.2 ⟨hv, h.apply v⟩
    rw [he, mem_pairsOf] at this
    have h3 := congrArg τ' this.2
    rw [h'.apply] at h3
    exact congrArg Fin.val h3
  · have : (v, τ v) ∈ pairsOf τ := mem_pairsOf.2 ⟨hv, rfl⟩
    rw [he, mem_pairsOf] at this
    exact congrArg Fin.val this.2.symm

theorem exists_pairsOf {n : ℕ} {M : Finset (Fin n × Fin n)} (hM : Spec.IsPerfectMatching M) :
    ∃ τ : Perm (Fin n), IsFpf τ ∧ pairsOf τ = M := by
  have h1 : ∀ v, ∃ w, (v, w) ∈ M ∨ (w, v) ∈ M := by
    intro v
    obtain ⟨⟨a, b⟩, ⟨he, hv⟩, -⟩ := hM.covers v
    rcases hv with rfl | rfl
    · exact ⟨b, Or.inl he⟩
    · exact ⟨a, Or.inr he⟩
  choose t ht using h1
  have huniq : ∀ v w, (v, w) ∈ M ∨ (w, v) ∈ M → w = t v := by
    intro v w hw
    obtain ⟨e, -, hu⟩ := hM.covers v
    have a1 : ∀ x, (v, x) ∈ M → (v, x) = e := fun x hx => hu _ ⟨hx, Or.inl rfl⟩
    have a2 : ∀ x, (x, v) ∈ M → (x, v) = e := fun x hx => hu _ ⟨hx, Or.inr rfl⟩
    have hne : ∀ x y, (v, x) ∈ M → (y, v) ∈ M → False := by
      intro x y hx hy
      have := (a1 x hx).trans (a2 y hy).symm
      have h3 := hM.ordered _ hx
      simp only [Prod.mk.injEq] at this
      obtain ⟨rfl, rfl⟩ := this
      exact lt_irrefl _ h3
    rcases hw with hw | hw <;> rcases ht v with h | h
    · have := (a1 _ hw).trans (a1 _ h).symm; simpa using this
    · exact (hne _ _ hw h).elim
    · exact (hne _ _ h hw).elim
    · have := (a2 _ hw).trans (a2 _ h).symm; simpa using this
  have hinv : Function.Involutive t := fun v => (huniq (t v) v (Or.comm.1 (ht v))).symm
  have hne : ∀ v, t v ≠ v := by
    intro v hv
    have := ht v
    rw [hv, or_self] at this
    exact lt_irrefl _ (hM.ordered _ this)
  refine ⟨hinv.toPerm, ⟨?_, hne⟩, ?_⟩
  · ext v; simp [hinv v]
  · ext ⟨a, b⟩
    rw [mem_pairsOf]
    simp only [Function.Involutive.coe_toPerm]
    constructor
    · rintro ⟨hlt, rfl⟩
      rcases ht a with h | h
      · exact h
      · exact absurd (hM.ordered _ h) (not_lt.2 hlt.le)
    · intro h
      exact ⟨hM.ordered _ h, (huniq a b (Or.inl h)).symm⟩

theorem sum_fpf_eq {M : Type} [AddCommMonoid M] {n : ℕ} (F : Finset (Fin n × Fin n) → M) :
    ∑ τ ∈ Finset.univ.filter (IsFpf (n := n)), F (pairsOf τ) = ∑ P ∈ Spec.perfectMatchings n, F P := by
  refine Finset.sum_bij (fun τ _ => pairsOf τ) ?_ ?_ ?_ ?_
  · intro τ hτ
    simp only [Finset.mem_filter, Finset.mem_univ, true_and, Spec.perfectMatchings] at hτ ⊢
    exact pairsOf_isPM hτ
  · intro a ha b hb h
    simp only [Finset.mem_filter, Finset.mem_univ, true_and] at ha hb
    exact pairsOf_inj ha hb h
  · intro P hP
    simp only [Finset.mem_filter, Finset.mem_univ, true_and, Spec.perfectMatchings] at hP
    obtain ⟨τ, h1, h2⟩ := exists_pairsOf hP
    exact ⟨τ, by simpa using h1, h2⟩
  · intros; rfl

theorem weight_eq {n : ℕ} (A : Matrix (Fin n) (Fin n) K) (τ : Perm (Fin n)) :
    weight A τ = ∏ e ∈ pairsOf τ, A e.1 e.2 := by
  unfold weight
  refine Finset.prod_bij (fun v _ => (v, τ v)) ?_ ?_ ?_ ?_
  · intro v hv; simpa [mem_pairsOf] using hv
  · intro a _ b _ h; exact (Prod.mk.inj h).1
  · rintro ⟨a, b⟩ h
    rw [mem_pairsOf] at h
    obtain ⟨h1, h2⟩ := h
    simp only at h1 h2
    subst h2
    exact ⟨a, by simpa using h1, rfl⟩
  · intros; rfl

theorem perfectMatchings_odd {n : ℕ} (hn : n % 2 = 1) : Spec.perfectMatchings n = ∅ := by
  classical
  rw [Finset.eq_empty_iff_forall_notMem]
  intro P hP
  simp only [Finset.mem_filter, Finset.mem_univ, true_and, Spec.perfectMatchings] at hP
  obtain ⟨τ, h, -⟩ := exists_pairsOf hP
  have h2 : ∀ k ∈ τ.cycleType, k = 2 := by
    intro k hk
    have hd : k ∣ orderOf τ := Perm.dvd_of_mem_cycleType hk
    have ho : orderOf τ ∣ 2 := orderOf_dvd_of_pow_eq_one (by rw [pow_two]; exact h.1)
    have := Nat.le_of_dvd (by norm_num) (hd.trans ho)
    have := Perm.two_le_of_mem_cycleType hk
    omega
  have hrep := Multiset.eq_replicate_card.2 h2
  have hs : τ.support = Finset.univ := by
    ext v; simp [h.2 v]
  have hsum := τ.sum_cycleType
  rw [hs, Finset.card_univ, Fintype.card_fin, hrep, Multiset.sum_replicate] at hsum
  simp at hsum
  omega

theorem hf_eq_sum_matchings [CharZero K] {n : ℕ} (A : Matrix (Fin n) (Fin n) K) (hA : A.IsSymm) :
    hf A = .ok (∑ M ∈ Spec.perfectMatchings n, ∏ e ∈ M, A e.1 e.2) := by
  classical
  rcases Nat.even_or_odd' n with ⟨m, rfl | rfl⟩
  · rw [hf_ok, hfVal_eq_sum_fpf A hA, ← sum_fpf_eq]
    simp only [weight_eq]
  · rw [hf_odd (by omega), perfectMatchings_odd (by omega), Finset.sum_empty]

end FF
