import Verif.Proofs.Combinatorics
import Mathlib.GroupTheory.Perm.Sign
import Mathlib.LinearAlgebra.Matrix.Determinant.Basic
import Mathlib.Data.Matrix.Block
import Mathlib.Tactic.FieldSimp
import Mathlib.Tactic.LinearCombination

/-! # The Pfaffian sum: congruence, flips, Darboux form -/

namespace FF

open Equiv Matrix

/-- `(i, b) ↦ 2 i + b`. -/
def pairEquiv (m : ℕ) : Fin m × Fin 2 ≃ Fin (2 * m) :=
  finProdFinEquiv.trans (finCongr (Nat.mul_comm m 2))

theorem pairEquiv_zero {m : ℕ} (i : Fin m) : pairEquiv m (i, 0) = ev i := by
  ext; simp [pairEquiv, ev, finProdFinEquiv]

theorem pairEquiv_one {m : ℕ} (i : Fin m) : pairEquiv m (i, 1) = od i := by
  ext; simp [pairEquiv, od, finProdFinEquiv]; omega

theorem prod_pairs {M : Type} [CommMonoid M] {m : ℕ} (g : Fin (2 * m) → M) :
    ∏ v, g v = ∏ i : Fin m, g (ev i) * g (od i) := by
  rw [← (pairEquiv m).prod_comp, Fintype.prod_prod_type]
  simp [Fin.prod_univ_two, pairEquiv_zero, pairEquiv_one]

variable {K : Type} [Field K]

/-- Numerator of `pfVal`. -/
noncomputable def pfSum {m : ℕ} (A : Matrix (Fin (2 * m)) (Fin (2 * m)) K) : K :=
  ∑ σ : Perm (Fin (2 * m)), ((Perm.sign σ : ℤ) : K) * ∏ i : Fin m, A (σ (ev i)) (σ (od i))

theorem pfVal_eq {m : ℕ} (A : Matrix (Fin (2 * m)) (Fin (2 * m)) K) :
    pfVal A = pfSum A / (2 ^ m * (m.factorial : K)) := rfl

/-- Pairs of functions on slots are functions on `Fin (2 m)`. -/
def slotFun (m : ℕ) (X : Type) : (Fin m → X × X) ≃ (Fin (2 * m) → X) :=
  ((Equiv.arrowProdEquivProdArrow _ _ _).trans
    (((Equiv.curry (Fin m) (Fin 2) X).trans
      (Equiv.piCongrRight fun _ => finTwoArrowEquiv X)).trans
        (Equiv.arrowProdEquivProdArrow _ _ _)).symm).trans
    (Equiv.arrowCongr (pairEquiv m) (Equiv.refl X))

theorem slotFun_ev {m : ℕ} {X : Type} (p : Fin m → X × X) (i : Fin m) :
    slotFun m X p (ev i) = (p i).1 := by
  rw [← pairEquiv_zero]
  simp [slotFun, Equiv.arrowCongr, finTwoArrowEquiv]

theorem slotFun_od {m : ℕ} {X : Type} (p : Fin m → X × X) (i : Fin m) :
    slotFun m X p (od i) = (p i).2 := by
  rw [← pairEquiv_one]
  simp [slotFun, Equiv.arrowCongr, finTwoArrowEquiv]

theorem det_submatrix_fun {n : ℕ} (B : Matrix (Fin n) (Fin n) K) (f : Fin n → Fin n)
    (hf : ¬ Function.Injective f) : (B.submatrix id f).det = 0 := by
  simp only [Function.Injective, not_forall] at hf
  obtain ⟨i, j, hij, hne⟩ := hf
  exact det_zero_of_column_eq hne (fun k => by simp [hij])

theorem sum_fun_eq_sum_perm {n : ℕ} {M : Type} [AddCommMonoid M] (g : (Fin n → Fin n) → M)
    (hg : ∀ f, ¬ Function.Injective f → g f = 0) : ∑ f, g f = ∑ σ : Perm (Fin n), g σ := by
  classical
  have h : ∑ f ∈ Finset.univ.filter (fun f : Fin n → Fin n => Function.Injective f), g f
      = ∑ f, g f := by
    rw [Finset.sum_filter]
    refine Finset.sum_congr rfl fun f _ => ?_
    split
    · rfl
    · rename_i h; exact (hg f h).symm
  rw [← h]
  symm
  refine Finset.sum_bij (fun σ _ => (σ : Fin n → Fin n)) ?_ ?_ ?_ ?_
  · intro σ _; simp [σ.injective]
  · intro a _ b _ h; exact Equiv.ext (congrFun h)
  · intro f hf
    simp only [Finset.mem_filter, Finset.mem_univ, true_and] at hf
    exact ⟨Equiv.ofBijective f (Finite.injective_iff_bijective.1 hf), by simp, rfl⟩
  · intros; rfl

theorem pfSum_congr {m : ℕ} (A B : Matrix (Fin (2 * m)) (Fin (2 * m)) K) :
    pfSum (B * A * Bᵀ) = B.det * pfSum A := by
  have h1 : ∀ x y, (B * A * Bᵀ) x y
      = ∑ p : Fin (2 * m) × Fin (2 * m), B x p.1 * A p.1 p.2 * B y p.2 := by
    intro x y
    simp only [Matrix.mul_apply, Matrix.transpose_apply, Finset.sum_mul]
    rw [Finset.sum_comm, Fintype.sum_prod_type]
  have h2 : pfSum (B * A * Bᵀ) = ∑ f : Fin (2 * m) → Fin (2 * m),
      (∏ i : Fin m, A (f (ev i)) (f (od i))) * (B.submatrix id f).det := by
    unfold pfSum
    simp only [h1, Finset.prod_univ_sum, Fintype.piFinset_univ, Finset.mul_sum]
    rw [Finset.sum_comm, ← (slotFun m (Fin (2 * m))).sum_comp]
    refine Finset.sum_congr rfl fun p _ => ?_
    rw [det_apply', Finset.mul_sum]
    refine Finset.sum_congr rfl fun σ _ => ?_
    rw [prod_pairs]
    simp only [submatrix_apply, id, slotFun_ev, slotFun_od]
    rw [mul_left_comm, ← Finset.prod_mul_distrib]
    congr 1
    exact Finset.prod_congr rfl fun i _ => by ring
  rw [h2, sum_fun_eq_sum_perm _ (fun f hf => by rw [det_submatrix_fun B f hf, mul_zero])]
  unfold pfSum
  rw [Finset.mul_sum]
  refine Finset.sum_congr rfl fun σ _ => ?_
  rw [det_permute']
  ring

/-- Exchange the two members of the slots selected by `f`. -/
def flip {m : ℕ} (f : Fin m → Bool) : Perm (Fin (2 * m)) :=
  (pairEquiv m).permCongr (Equiv.prodCongrRight fun i => if f i then swap 0 1 else 1)

theorem flip_ev {m : ℕ} (f : Fin m → Bool) (i : Fin m) :
    flip f (ev i) = if f i then od i else ev i := by
  rw [← pairEquiv_zero, ← pairEquiv_one, flip]
  simp only [Equiv.permCongr_apply, Equiv.symm_apply_apply, Equiv.prodCongrRight_apply]
  split <;> simp

theorem flip_od {m : ℕ} (f : Fin m → Bool) (i : Fin m) :
    flip f (od i) = if f i then ev i else od i := by
  rw [← pairEquiv_zero, ← pairEquiv_one, flip]
  simp only [Equiv.permCongr_apply, Equiv.symm_apply_apply, Equiv.prodCongrRight_apply]
  split <;> simp

theorem sign_flip {m : ℕ} (f : Fin m → Bool) :
    Perm.sign (flip f) = ∏ i, if f i then -1 else 1 := by
  rw [flip, Perm.sign_permCongr, Perm.sign_prodCongrRight]
  refine Finset.prod_congr rfl fun i _ => ?_
  split <;> simp

/-- Replacing `A` by its `ε`-symmetrisation does not change the permutation sum, when the coefficient
`c` multiplies by `ε` under each flip. -/
theorem sum_symmetrise [CharZero K] {m : ℕ} (A : Matrix (Fin (2 * m)) (Fin (2 * m)) K)
    (c : Perm (Fin (2 * m)) → K) (ε : K)
    (hc : ∀ σ f, c (σ * flip f) * (∏ i : Fin m, if f i then ε else 1) = c σ) :
    ∑ σ, c σ * ∏ i : Fin m, ((1 / 2 : K) • (A + ε • Aᵀ)) (σ (ev i)) (σ (od i))
      = ∑ σ, c σ * ∏ i : Fin m, A (σ (ev i)) (σ (od i)) := by
  have h1 : ∀ σ : Perm (Fin (2 * m)), ∏ i : Fin m,
      ((1 / 2 : K) • (A + ε • Aᵀ)) (σ (ev i)) (σ (od i))
      = (1 / 2) ^ m * ∑ f : Fin m → Bool, (∏ i : Fin m, if f i then ε else 1) *
        ∏ i : Fin m, A ((σ * flip f) (ev i)) ((σ * flip f) (od i)) := by
    intro σ
    have : ∀ i : Fin m, ((1 / 2 : K) • (A + ε • Aᵀ)) (σ (ev i)) (σ (od i))
        = (1 / 2) * ∑ b : Bool, (if b then ε else 1) *
          (if b then A (σ (od i)) (σ (ev i)) else A (σ (ev i)) (σ (od i))) := by
      intro i; simp [add_comm]
    rw [Finset.prod_congr rfl fun i _ => this i, Finset.prod_mul_distrib, Finset.prod_univ_sum,
      Fintype.piFinset_univ]
    simp only [Finset.prod_const, Finset.card_univ, Fintype.card_fin]
    congr 1
    refine Finset.sum_congr rfl fun f _ => ?_
    rw [Finset.prod_mul_distrib]
    congr 1
    refine Finset.prod_congr rfl fun i _ => ?_
    simp only [Perm.mul_apply, flip_ev, flip_od]
    split <;> rfl
  simp only [h1, Finset.mul_sum]
  rw [Finset.sum_comm]
  have h2 : ∀ f : Fin m → Bool, ∑ σ, c σ * ((1 / 2) ^ m * ((∏ i : Fin m, if f i then ε else 1) *
        ∏ i : Fin m, A ((σ * flip f) (ev i)) ((σ * flip f) (od i))))
      = (1 / 2) ^ m * ∑ σ, c σ * ∏ i : Fin m, A (σ (ev i)) (σ (od i)) := by
    intro f
    rw [Finset.mul_sum, ← Equiv.sum_comp (Equiv.mulRight (flip f))
      (fun σ => (1 / 2) ^ m * (c σ * ∏ i : Fin m, A (σ (ev i)) (σ (od i))))]
    refine Finset.sum_congr rfl fun σ _ => ?_
    simp only [Equiv.coe_mulRight]
    have key : c σ * (∏ i : Fin m, if f i then ε else 1) = c (σ * flip f) := by
      have h := hc (σ * flip f) f
      have hff : σ * flip f * flip f = σ := by
        rw [mul_assoc]
        have : flip f * flip f = 1 := by
          ext v
          obtain ⟨⟨i, b⟩, rfl⟩ := (pairEquiv m).surjective v
          fin_cases b
          · have := pairEquiv_zero i
            simp only [Fin.zero_eta, this, Perm.mul_apply, flip_ev, Perm.one_apply]
            split <;> simp_all [flip_ev, flip_od]
          · have := pairEquiv_one i
            simp only [Fin.mk_one, this, Perm.mul_apply, flip_od, Perm.one_apply]
            split <;> simp_all [flip_ev, flip_od]
        rw [this, mul_one]
      rw [hff] at h
      exact h
    rw [← key]
    ring
  simp only [h2]
  rw [Finset.sum_const, Finset.card_univ, Fintype.card_fun, Fintype.card_bool, Fintype.card_fin,
    nsmul_eq_mul]
  push_cast
  rw [← mul_assoc, ← mul_pow]
  norm_num

/-- The standard skew form: `J (2i) (2i+1) = 1`. -/
def stdJ (m : ℕ) : Matrix (Fin (2 * m)) (Fin (2 * m)) K := fun x y =>
  ∑ i : Fin m, ((if x = ev i ∧ y = od i then 1 else 0) - (if x = od i ∧ y = ev i then 1 else 0))

theorem ev_inj {m : ℕ} {i j : Fin m} : ev i = ev j ↔ i = j := by
  simp [ev, Fin.ext_iff]

theorem od_inj {m : ℕ} {i j : Fin m} : od i = od j ↔ i = j := by
  simp [od, Fin.ext_iff]

theorem ev_ne_od {m : ℕ} (i j : Fin m) : ev i ≠ od j := by
  simp only [ev, od, ne_eq, Fin.mk.injEq]; omega

theorem od_ne_ev {m : ℕ} (i j : Fin m) : od i ≠ ev j := fun h => ev_ne_od j i h.symm

theorem stdJ_ev_od {m : ℕ} (i j : Fin m) :
    (stdJ m : Matrix _ _ K) (ev i) (od j) = if i = j then 1 else 0 := by
  simp only [stdJ, ev_inj, od_inj, ev_ne_od, false_and, if_false, sub_zero]
  split
  · subst_vars; simp
  · rename_i h
    refine Finset.sum_eq_zero fun k _ => ?_
    rw [if_neg]; rintro ⟨rfl, rfl⟩; exact h rfl

theorem stdJ_od_ev {m : ℕ} (i j : Fin m) :
    (stdJ m : Matrix _ _ K) (od i) (ev j) = if i = j then -1 else 0 := by
  simp only [stdJ, ev_inj, od_inj, od_ne_ev, false_and, if_false, zero_sub]
  split
  · subst_vars; simp
  · rename_i h
    refine Finset.sum_eq_zero fun k _ => ?_
    rw [if_neg, neg_zero]; rintro ⟨rfl, rfl⟩; exact h rfl

theorem stdJ_ev_ev {m : ℕ} (i j : Fin m) : (stdJ m : Matrix _ _ K) (ev i) (ev j) = 0 := by
  simp [stdJ, ev_ne_od]

theorem stdJ_od_od {m : ℕ} (i j : Fin m) : (stdJ m : Matrix _ _ K) (od i) (od j) = 0 := by
  simp [stdJ, od_ne_ev]

/-- Darboux: a skew matrix supported on a set of at most `2 m` indices is a sum of `m` wedges. -/
theorem exists_wedges {ι : Type} [DecidableEq ι] (m : ℕ) :
    ∀ (s : Finset ι), s.card ≤ 2 * m → ∀ (A : ι → ι → K), (∀ i j, A i j = - A j i) →
      (∀ i, A i i = 0) → (∀ i j, A i j ≠ 0 → i ∈ s) →
      ∃ u w : Fin m → ι → K, ∀ i j, A i j = ∑ k, (u k i * w k j - w k i * u k j) := by
  induction m with
  | zero =>
    intro s hs A hA _ hsupp
    have hs0 : s = ∅ := by simpa using hs
    refine ⟨0, 0, fun i j => ?_⟩
    by_contra h
    have := hsupp i j (by simpa using h)
    simp [hs0] at this
  | succ m ih =>
    intro s hs A hA hdiag hsupp
    by_cases h0 : ∀ i j, A i j = 0
    · exact ⟨0, 0, fun i j => by simp [h0]⟩
    · push Not at h0
      obtain ⟨p, q, hpq⟩ := h0
      have hps : p ∈ s := hsupp p q hpq
      have hqs : q ∈ s := hsupp q p (by rw [hA]; simpa using hpq)
      have hne : p ≠ q := by rintro rfl; exact hpq (hdiag p)
      set a := A p q with ha
      have haqp : A q p = -a := by rw [hA]
      let A' : ι → ι → K := fun i j => A i j - (a⁻¹ * A p i * A q j - A q i * (a⁻¹ * A p j)) * (1)
      obtain ⟨u, w, huw⟩ := ih ((s.erase p).erase q) (by
          rw [Finset.card_erase_of_mem (by simp [hqs, hne.symm]), Finset.card_erase_of_mem hps]
          omega) A' (by
          intro i j; simp only [A']; rw [hA i j]; ring) (by
          intro i; simp only [A', hdiag]; ring) (by
          intro i j hij
          have hip : i ≠ p := by
            rintro rfl
            apply hij
            simp only [A', hdiag, haqp]
            field_simp
            ring
          have hiq : i ≠ q := by
            rintro rfl
            apply hij
            simp only [A', hdiag, ← ha]
            field_simp
            ring
          simp only [Finset.mem_erase]
          refine ⟨hiq, hip, ?_⟩
          by_contra his
          have hz : ∀ k, A i k = 0 := fun k => by
            by_contra h; exact his (hsupp i k h)
          apply hij
          simp only [A']
          rw [hA p i, hA q i, hz, hz, hz]
          ring)
      refine ⟨Fin.cons (fun i => a⁻¹ * A p i) u, Fin.cons (fun i => A q i) w, fun i j => ?_⟩
      rw [Fin.sum_univ_succ]
      simp only [Fin.cons_zero, Fin.cons_succ]
      rw [← huw i j]
      simp only [A']
      ring

theorem exists_darboux [CharZero K] {m : ℕ} (A : Matrix (Fin (2 * m)) (Fin (2 * m)) K)
    (hA : Aᵀ = -A) : ∃ B : Matrix (Fin (2 * m)) (Fin (2 * m)) K, A = B * stdJ m * Bᵀ := by
  have hsk : ∀ i j, A i j = - A j i := fun i j => by
    have := congrFun (congrFun hA j) i
    simpa using this
  have hd : ∀ i, A i i = 0 := fun i => by
    have h := hsk i i
    have h2 : (2 : K) * A i i = 0 := by linear_combination h
    simpa using h2
  obtain ⟨u, w, h⟩ := exists_wedges m Finset.univ (by simp) A hsk hd (by simp)
  refine ⟨Matrix.of fun x v => (slotFun m K fun k => (u k x, w k x)) v, ?_⟩
  ext i j
  rw [h i j]
  have key : ∀ (f g : Fin (2 * m) → K), ∑ y, ∑ x, f x * (stdJ m : Matrix _ _ K) x y * g y
      = ∑ k : Fin m, (f (ev k) * g (od k) - f (od k) * g (ev k)) := by
    intro f g
    have hs : ∀ (g : Fin (2 * m) → K), ∑ v, g v = ∑ i : Fin m, (g (ev i) + g (od i)) := by
      intro g
      rw [← (pairEquiv m).sum_comp, Fintype.sum_prod_type]
      simp [Fin.sum_univ_two, pairEquiv_zero, pairEquiv_one]
    rw [hs]
    simp only [hs, stdJ_ev_ev, stdJ_od_od, stdJ_ev_od, stdJ_od_ev]
    refine Finset.sum_congr rfl fun k _ => ?_
    simp
    ring
  have := key (slotFun m K fun k => (u k i, w k i)) (slotFun m K fun k => (u k j, w k j))
  simp only [slotFun_ev, slotFun_od] at this
  rw [Matrix.mul_apply]
  simp only [Matrix.mul_apply, Matrix.transpose_apply, Finset.sum_mul, Matrix.of_apply]
  rw [this]

end FF
