import Verif.Proofs.Matching
import Verif.Model.Utils
import Mathlib.LinearAlgebra.Matrix.SchurComplement

/-! # Direct sums and bipartite matrices: `dt`, `pt`, `hf`, `pf` -/

namespace FF

open Equiv Matrix

variable {K : Type}

/-- The direct sum on `Fin (p + r)`. -/
def dsum [Zero K] {p r : ℕ} (A : Matrix (Fin p) (Fin p) K) (B : Matrix (Fin r) (Fin r) K) :
    Matrix (Fin (p + r)) (Fin (p + r)) K :=
  (fromBlocks A 0 0 B).reindex finSumFinEquiv finSumFinEquiv

theorem kronPlus_ok [Zero K] {p r : ℕ} (A : Matrix (Fin p) (Fin p) K)
    (B : Matrix (Fin r) (Fin r) K) : kronPlus A B = .ok (dsum A B) := by
  unfold kronPlus
  rw [if_neg (by simp), if_neg (by simp)]
  congr 1
  ext i j
  refine Fin.addCases (fun i => ?_) (fun i => ?_) i <;>
    refine Fin.addCases (fun j => ?_) (fun j => ?_) j <;> simp [dsum]

@[simp] theorem dsum_ll [Zero K] {p r : ℕ} (A : Matrix (Fin p) (Fin p) K)
    (B : Matrix (Fin r) (Fin r) K) (i j) : dsum A B (Fin.castAdd r i) (Fin.castAdd r j) = A i j := by
  simp [dsum]
@[simp] theorem dsum_lr [Zero K] {p r : ℕ} (A : Matrix (Fin p) (Fin p) K)
    (B : Matrix (Fin r) (Fin r) K) (i j) : dsum A B (Fin.castAdd r i) (Fin.natAdd p j) = 0 := by
  simp [dsum]
@[simp] theorem dsum_rl [Zero K] {p r : ℕ} (A : Matrix (Fin p) (Fin p) K)
    (B : Matrix (Fin r) (Fin r) K) (i j) : dsum A B (Fin.natAdd p i) (Fin.castAdd r j) = 0 := by
  simp [dsum]
@[simp] theorem dsum_rr [Zero K] {p r : ℕ} (A : Matrix (Fin p) (Fin p) K)
    (B : Matrix (Fin r) (Fin r) K) (i j) : dsum A B (Fin.natAdd p i) (Fin.natAdd p j) = B i j := by
  simp [dsum]

theorem det_dsum [CommRing K] {p r : ℕ} (A : Matrix (Fin p) (Fin p) K)
    (B : Matrix (Fin r) (Fin r) K) : (dsum A B).det = A.det * B.det := by
  rw [dsum, det_reindex_self, det_fromBlocks_zero₂₁]

/-- A sum over `Perm (Fin p ⊕ Fin r)` whose terms vanish unless the left summand is preserved. -/
theorem sum_perm_sum {M : Type} [AddCommMonoid M] {m n : Type} [Fintype m] [Fintype n]
    [DecidableEq m] [DecidableEq n] (g : Perm (m ⊕ n) → M)
    (hg : ∀ σ a b, σ (Sum.inl a) = Sum.inr b → g σ = 0) :
    ∑ σ, g σ = ∑ σ : Perm m × Perm n, g (σ.1.sumCongr σ.2) := by
  classical
  symm
  have : ∑ σ : Perm m × Perm n, g (σ.1.sumCongr σ.2)
      = ∑ σ ∈ ((Perm.sumCongrHom m n).range : Set (Perm (m ⊕ n))).toFinset, g σ := by
    refine Finset.sum_nbij (fun σ ↦ σ.fst.sumCongr σ.snd) ?_ ?_ ?_ ?_
    · intro σ₁₂ _
      rw [Set.mem_toFinset]
      exact ⟨σ₁₂, rfl⟩
    · intro σ₁ _ σ₂ _
      dsimp only
      intro h
      have h2 : ∀ x, Perm.sumCongr σ₁.fst σ₁.snd x = Perm.sumCongr σ₂.fst σ₂.snd x :=
        DFunLike.congr_fun h
      simp only [Sum.map_inr, Sum.map_inl, Perm.sumCongr_apply, Sum.forall, Sum.inl.injEq,
        Sum.inr.injEq] at h2
      ext x
      · exact h2.left x
      · exact h2.right x
    · intro σ hσ
      rw [Finset.mem_coe, Set.mem_toFinset] at hσ
      obtain ⟨σ₁₂, hσ₁₂⟩ := hσ
      use σ₁₂
      rw [← hσ₁₂]
      simp
    · intros; rfl
  rw [this]
  refine Finset.sum_subset (Finset.subset_univ _) ?_
  rintro σ - hσn
  have h1 : ¬∀ x, ∃ y, Sum.inl y = σ (Sum.inl x) := by
    rw [Set.mem_toFinset] at hσn
    simpa only [Set.MapsTo, Set.mem_range, forall_exists_index, forall_apply_eq_imp_iff] using
      mt Perm.mem_sumCongrHom_range_of_perm_mapsTo_inl hσn
  obtain ⟨a, ha⟩ := not_forall.mp h1
  rcases hx : σ (Sum.inl a) with a2 | b
  · have hn := (not_exists.mp ha) a2
    exact absurd hx.symm hn
  · exact hg σ a b hx

theorem permanent_reindex [CommRing K] {m n : Type} [Fintype m] [Fintype n]
    [DecidableEq m] [DecidableEq n] (e : m ≃ n) (A : Matrix m m K) :
    (A.reindex e e).permanent = A.permanent := by
  unfold Matrix.permanent
  rw [← e.permCongr.sum_comp]
  refine Finset.sum_congr rfl fun σ _ => ?_
  rw [← e.prod_comp]
  simp

theorem permanent_dsum [CommRing K] {p r : ℕ} (A : Matrix (Fin p) (Fin p) K)
    (B : Matrix (Fin r) (Fin r) K) : (dsum A B).permanent = A.permanent * B.permanent := by
  rw [dsum, permanent_reindex]
  unfold Matrix.permanent
  rw [sum_perm_sum]
  · rw [Fintype.sum_mul_sum, ← Fintype.sum_prod_type']
    refine Finset.sum_congr rfl fun σ _ => ?_
    rw [Fintype.prod_sum_type]
    simp
  · intro σ a b h
    refine Finset.prod_eq_zero (Finset.mem_univ (Sum.inl a)) ?_
    rw [h, fromBlocks_apply₂₁, Matrix.zero_apply]

variable [Field K]

/-- Sum over fixed-point-free involutions. -/
noncomputable def hfM {n : ℕ} (A : Matrix (Fin n) (Fin n) K) : K :=
  ∑ τ ∈ Finset.univ.filter IsFpf, weight A τ

theorem hf_eq_hfM [CharZero K] {n : ℕ} (A : Matrix (Fin n) (Fin n) K) (hA : A.IsSymm) :
    hf A = .ok (hfM A) := by
  classical
  rw [hf_eq_sum_matchings A hA, hfM, ← sum_fpf_eq]
  simp only [weight_eq]

theorem weight_ite {n : ℕ} (A : Matrix (Fin n) (Fin n) K) (τ : Perm (Fin n)) :
    weight A τ = ∏ v, if v < τ v then A v (τ v) else 1 := by
  rw [weight, Finset.prod_filter]

theorem hfM_sumType {p r : ℕ} (C : Matrix (Fin (p + r)) (Fin (p + r)) K) :
    hfM C = ∑ τ : Perm (Fin p ⊕ Fin r), if IsFpf (finSumFinEquiv.permCongr τ) then
      weight C (finSumFinEquiv.permCongr τ) else 0 := by
  rw [hfM, Finset.sum_filter, ← Equiv.sum_comp (finSumFinEquiv (m := p) (n := r)).permCongr]

theorem isFpf_permCongr {p r : ℕ} (τ : Perm (Fin p ⊕ Fin r)) :
    IsFpf (finSumFinEquiv.permCongr τ) ↔ (∀ v, τ (τ v) = v) ∧ ∀ v, τ v ≠ v := by
  constructor
  · intro h
    constructor
    · intro v
      have := h.apply (finSumFinEquiv v)
      simpa using this
    · intro v hv
      exact h.2 (finSumFinEquiv v) (by simp [hv])
  · rintro ⟨h1, h2⟩
    constructor
    · ext v; simp [h1]
    · intro v hv
      refine h2 (finSumFinEquiv.symm v) ?_
      rw [Equiv.permCongr_apply, ← Equiv.eq_symm_apply] at hv
      exact hv

theorem hfM_dsum {p r : ℕ} (A : Matrix (Fin p) (Fin p) K) (B : Matrix (Fin r) (Fin r) K) :
    hfM (dsum A B) = hfM A * hfM B := by
  rw [hfM_sumType, sum_perm_sum]
  · rw [hfM, hfM, Finset.sum_filter, Finset.sum_filter, Fintype.sum_mul_sum,
      ← Fintype.sum_prod_type']
    refine Finset.sum_congr rfl fun σ _ => ?_
    have h : IsFpf (finSumFinEquiv.permCongr (σ.1.sumCongr σ.2)) ↔ IsFpf σ.1 ∧ IsFpf σ.2 := by
      rw [isFpf_permCongr]
      simp only [Perm.sumCongr_apply, Sum.forall, Sum.map_inl, Sum.map_inr, Sum.inl.injEq,
        Sum.inr.injEq, ne_eq, IsFpf, Perm.ext_iff, Perm.mul_apply, Perm.one_apply]
      tauto
    by_cases h1 : IsFpf σ.1 <;> by_cases h2 : IsFpf σ.2
    · rw [if_pos (h.2 ⟨h1, h2⟩), if_pos h1, if_pos h2, weight_ite, weight_ite, weight_ite,
        Fin.prod_univ_add]
      congr 1
      · refine Finset.prod_congr rfl fun i _ => ?_
        have : (finSumFinEquiv.permCongr (σ.1.sumCongr σ.2)) (Fin.castAdd r i)
            = Fin.castAdd r (σ.1 i) := by simp
        rw [this, dsum_ll]
        rfl
      · refine Finset.prod_congr rfl fun i _ => ?_
        have : (finSumFinEquiv.permCongr (σ.1.sumCongr σ.2)) (Fin.natAdd p i)
            = Fin.natAdd p (σ.2 i) := by simp
        rw [this, dsum_rr]
        simp only [Fin.natAdd_lt_natAdd_iff]
    · rw [if_neg (fun h' => h2 (h.1 h').2), if_neg h2, mul_zero]
    · rw [if_neg (fun h' => h1 (h.1 h').1), if_neg h1, zero_mul]
    · rw [if_neg (fun h' => h2 (h.1 h').2), if_neg h2, mul_zero]
  · intro τ a b hab
    have hab' : (finSumFinEquiv.permCongr τ) (Fin.castAdd r a) = Fin.natAdd p b := by simp [hab]
    split
    · rw [weight_ite]
      refine Finset.prod_eq_zero (Finset.mem_univ (Fin.castAdd r a)) ?_
      rw [hab', if_pos (by rw [Fin.lt_def]; simp; omega), dsum_lr]
    · rfl

/-- The bipartite matrix `[[0, A], [s A^T, 0]]`. -/
def bip {n : ℕ} (s : K) (A : Matrix (Fin n) (Fin n) K) : Matrix (Fin (n + n)) (Fin (n + n)) K :=
  (fromBlocks 0 A (s • Aᵀ) 0).reindex finSumFinEquiv finSumFinEquiv

/-- The involution exchanging the two sides along `σ`. -/
def crossPerm {n : ℕ} (σ : Perm (Fin n)) : Perm (Fin n ⊕ Fin n) :=
  (Equiv.sumCongr σ σ.symm).trans (Equiv.sumComm _ _)

theorem hfM_bip {n : ℕ} (A : Matrix (Fin n) (Fin n) K) : hfM (bip 1 A) = A.permanent := by
  rw [hfM_sumType, ← permanent_transpose, Matrix.permanent]
  have hw : ∀ σ : Perm (Fin n), weight (bip 1 A) (finSumFinEquiv.permCongr (crossPerm σ))
      = ∏ i, Aᵀ (σ i) i := by
    intro σ
    rw [weight_ite, Fin.prod_univ_add]
    have h1 : ∀ i, (finSumFinEquiv.permCongr (crossPerm σ)) (Fin.castAdd n i)
        = Fin.natAdd n (σ i) := fun i => by simp [crossPerm, -Fin.natAdd_eq_addNat]
    have h2 : ∀ i, (finSumFinEquiv.permCongr (crossPerm σ)) (Fin.natAdd n i)
        = Fin.castAdd n (σ.symm i) := fun i => by simp [crossPerm, -Fin.natAdd_eq_addNat]
    have e1 : ∀ i, (Fin.castAdd n i : Fin (n + n)) < Fin.natAdd n (σ i) := fun i => by
      rw [Fin.lt_def]; simp; omega
    have e2 : ∀ i, ¬ (Fin.natAdd n i : Fin (n + n)) < Fin.castAdd n (σ.symm i) := fun i => by
      rw [Fin.lt_def]; simp; omega
    simp only [h1, h2, e1, e2, if_true, if_false, Finset.prod_const_one, mul_one]
    refine Finset.prod_congr rfl fun i _ => ?_
    simp [bip, -Fin.natAdd_eq_addNat]
  have hfpf : ∀ σ : Perm (Fin n), IsFpf (finSumFinEquiv.permCongr (crossPerm σ)) := by
    intro σ
    rw [isFpf_permCongr]
    constructor
    · rintro (v | v) <;> simp [crossPerm]
    · rintro (v | v) <;> simp [crossPerm]
  symm
  have hinj : Function.Injective (crossPerm (n := n)) := by
    intro σ τ h
    ext i
    have := congrArg (fun p : Perm (Fin n ⊕ Fin n) => p (Sum.inl i)) h
    simp only [crossPerm, Equiv.trans_apply, Equiv.sumCongr_apply, Sum.map_inl,
      Equiv.sumComm_apply, Sum.swap_inl, Sum.inr.injEq] at this
    exact congrArg Fin.val this
  rw [← Finset.sum_subset (Finset.subset_univ (Finset.univ.map ⟨crossPerm, hinj⟩))]
  · rw [Finset.sum_map]
    refine Finset.sum_congr rfl fun σ _ => ?_
    simp only [Function.Embedding.coeFn_mk]
    rw [if_pos (hfpf σ), hw]
  · intro τ _ hτ
    split
    · rename_i hF
      rw [isFpf_permCongr] at hF
      rw [weight_ite]
      -- some left vertex is matched with a left vertex, or some right with right
      by_cases hl : ∃ a b, τ (Sum.inl a) = Sum.inl b
      · obtain ⟨a, b, hab⟩ := hl
        have hba : τ (Sum.inl b) = Sum.inl a := by rw [← hab, hF.1]
        have hne : a ≠ b := by rintro rfl; exact hF.2 _ hab
        rcases lt_or_gt_of_ne hne with hlt | hlt
        · refine Finset.prod_eq_zero (Finset.mem_univ (Fin.castAdd n a)) ?_
          have : (finSumFinEquiv.permCongr τ) (Fin.castAdd n a) = Fin.castAdd n b := by simp [hab]
          rw [this, if_pos (by rw [Fin.lt_def]; simpa using hlt)]
          simp [bip]
        · refine Finset.prod_eq_zero (Finset.mem_univ (Fin.castAdd n b)) ?_
          have : (finSumFinEquiv.permCongr τ) (Fin.castAdd n b) = Fin.castAdd n a := by simp [hba]
          rw [this, if_pos (by rw [Fin.lt_def]; simpa using hlt)]
          simp [bip]
      · exfalso
        apply hτ
        have h1 : ∀ a, ∃ b, τ (Sum.inl a) = Sum.inr b := by
          intro a
          rcases h : τ (Sum.inl a) with b | b
          · exact absurd ⟨a, b, h⟩ hl
          · exact ⟨b, rfl⟩
        choose s hs using h1
        have hinj' : Function.Injective s := by
          intro a b hab
          have : τ (Sum.inl a) = τ (Sum.inl b) := by rw [hs, hs, hab]
          exact Sum.inl_injective (τ.injective this)
        simp only [Finset.mem_map, Finset.mem_univ, true_and, Function.Embedding.coeFn_mk]
        refine ⟨Equiv.ofBijective s (Finite.injective_iff_bijective.1 hinj'), ?_⟩
        have hs' : ∀ j, τ (Sum.inr j) = Sum.inl ((Equiv.ofBijective s
            (Finite.injective_iff_bijective.1 hinj')).symm j) := by
          intro j
          obtain ⟨i, rfl⟩ := (Finite.injective_iff_bijective.1 hinj').2 j
          rw [← hs, hF.1]
          congr 1
          rw [Equiv.eq_symm_apply]
          rfl
        ext v
        rcases v with v | v
        · simp [crossPerm, hs]
        · simp [crossPerm, hs']
    · rfl

theorem hfVal_symm [CharZero K] {m : ℕ} (A : Matrix (Fin (2 * m)) (Fin (2 * m)) K) :
    hfVal ((1 / 2 : K) • (A + Aᵀ)) = hfVal A := by
  have := sum_symmetrise A (fun _ => 1) 1 (by simp)
  simp only [one_mul, one_smul] at this
  rw [hfVal, this, hfVal]

theorem pfVal_skew [CharZero K] {m : ℕ} (A : Matrix (Fin (2 * m)) (Fin (2 * m)) K) :
    pfVal ((1 / 2 : K) • (A - Aᵀ)) = pfVal A := by
  have := sum_symmetrise A (fun σ => ((Perm.sign σ : ℤ) : K)) (-1) (by
    intro σ f
    rw [Perm.sign_mul, sign_flip]
    push_cast
    have h4 : (∏ i : Fin m, (((if f i = true then -1 else 1 : ℤˣ) : ℤ) : K)) *
        (∏ i : Fin m, (if f i = true then (-1) else 1 : K)) = 1 := by
      rw [← Finset.prod_mul_distrib]
      exact Finset.prod_eq_one fun i _ => by split <;> simp
    rw [mul_assoc, h4, mul_one])
  rw [neg_smul, one_smul, ← sub_eq_add_neg] at this
  rw [pfVal, this, pfVal]

theorem hf_symm [CharZero K] {n : ℕ} (A : Matrix (Fin n) (Fin n) K) :
    hf ((1 / 2 : K) • (A + Aᵀ)) = hf A := by
  rcases Nat.even_or_odd' n with ⟨m, rfl | rfl⟩
  · rw [hf_ok, hf_ok, hfVal_symm]
  · rw [hf_odd (by omega), hf_odd (by omega)]

theorem pf_skew [CharZero K] {n : ℕ} (A : Matrix (Fin n) (Fin n) K) :
    pf ((1 / 2 : K) • (A - Aᵀ)) = pf A := by
  rcases Nat.even_or_odd' n with ⟨m, rfl | rfl⟩
  · rw [pf_ok, pf_ok, pfVal_skew]
  · rw [pf_odd (by omega), pf_odd (by omega)]

theorem symm_isSymm {n : ℕ} (A : Matrix (Fin n) (Fin n) K) :
    ((1 / 2 : K) • (A + Aᵀ)).IsSymm := by
  rw [Matrix.IsSymm, transpose_smul, transpose_add, transpose_transpose, add_comm]

theorem skew_isSkew {n : ℕ} (A : Matrix (Fin n) (Fin n) K) :
    ((1 / 2 : K) • (A - Aᵀ))ᵀ = - ((1 / 2 : K) • (A - Aᵀ)) := by
  rw [transpose_smul, transpose_sub, transpose_transpose, ← smul_neg, neg_sub]

theorem dsum_lin {p r : ℕ} (c d : K) (A : Matrix (Fin p) (Fin p) K) (B : Matrix (Fin r) (Fin r) K) :
    c • (dsum A B + d • (dsum A B)ᵀ) = dsum (c • (A + d • Aᵀ)) (c • (B + d • Bᵀ)) := by
  ext i j
  refine Fin.addCases (fun i => ?_) (fun i => ?_) i <;>
    refine Fin.addCases (fun j => ?_) (fun j => ?_) j <;> simp <;> ring

theorem hf_dsum [CharZero K] {p r : ℕ} (A : Matrix (Fin p) (Fin p) K)
    (B : Matrix (Fin r) (Fin r) K) :
    ∃ x y, hf A = .ok x ∧ hf B = .ok y ∧ hf (dsum A B) = .ok (x * y) := by
  refine ⟨hfM ((1 / 2 : K) • (A + Aᵀ)), hfM ((1 / 2 : K) • (B + Bᵀ)), ?_, ?_, ?_⟩
  · rw [← hf_symm, hf_eq_hfM _ (symm_isSymm A)]
  · rw [← hf_symm, hf_eq_hfM _ (symm_isSymm B)]
  · rw [← hf_symm, hf_eq_hfM _ (symm_isSymm _)]
    have := dsum_lin (1 / 2 : K) 1 A B
    simp only [one_smul] at this
    rw [this, hfM_dsum]

/-! ### Pfaffian of direct sums -/

theorem pf_cast {n n' : ℕ} (h : n = n') (A : Matrix (Fin n) (Fin n) K) :
    pf (A.reindex (finCongr h) (finCongr h)) = pf A := by
  subst h; simp

theorem dsum_stdJ (a b : ℕ) : (dsum (stdJ a) (stdJ b) : Matrix _ _ K).reindex
    (finCongr (Nat.mul_add 2 a b).symm) (finCongr (Nat.mul_add 2 a b).symm) = stdJ (a + b) := by
  have hev1 : ∀ i : Fin a, (ev (Fin.castAdd b i) : Fin (2 * (a + b)))
      = finCongr (Nat.mul_add 2 a b).symm (Fin.castAdd (2 * b) (ev i)) := fun i => by
    ext; simp [ev]
  have hod1 : ∀ i : Fin a, (od (Fin.castAdd b i) : Fin (2 * (a + b)))
      = finCongr (Nat.mul_add 2 a b).symm (Fin.castAdd (2 * b) (od i)) := fun i => by
    ext; simp [od]
  have hev2 : ∀ i : Fin b, (ev (Fin.natAdd a i) : Fin (2 * (a + b)))
      = finCongr (Nat.mul_add 2 a b).symm (Fin.natAdd (2 * a) (ev i)) := fun i => by
    ext; simp [ev]; omega
  have hod2 : ∀ i : Fin b, (od (Fin.natAdd a i) : Fin (2 * (a + b)))
      = finCongr (Nat.mul_add 2 a b).symm (Fin.natAdd (2 * a) (od i)) := fun i => by
    ext; simp [od]; omega
  have hne : ∀ (i : Fin a) (j : Fin b), Fin.castAdd b i ≠ Fin.natAdd a j := by
    intro i j h; have := congrArg Fin.val h; simp at this; omega
  ext x y
  rcases ev_or_od x with ⟨i, rfl⟩ | ⟨i, rfl⟩ <;> rcases ev_or_od y with ⟨j, rfl⟩ | ⟨j, rfl⟩ <;>
    induction i using Fin.addCases <;> induction j using Fin.addCases <;>
    simp only [stdJ_ev_ev, stdJ_ev_od, stdJ_od_ev, stdJ_od_od] <;>
    simp [hev1, hev2, hod1, hod2, stdJ_ev_ev, stdJ_ev_od, stdJ_od_ev, stdJ_od_od, hne, (hne _ _).symm]

theorem dsum_mul {p r : ℕ} (A A' : Matrix (Fin p) (Fin p) K) (B B' : Matrix (Fin r) (Fin r) K) :
    dsum A B * dsum A' B' = dsum (A * A') (B * B') := by
  simp only [dsum, reindex_apply, submatrix_mul_equiv, fromBlocks_multiply]
  simp

theorem dsum_transpose {p r : ℕ} (A : Matrix (Fin p) (Fin p) K) (B : Matrix (Fin r) (Fin r) K) :
    (dsum A B)ᵀ = dsum Aᵀ Bᵀ := by
  simp [dsum, fromBlocks_transpose]

theorem pf_congr_gen {n : ℕ} (A B : Matrix (Fin n) (Fin n) K) :
    ∃ x, pf A = .ok x ∧ pf (B * A * Bᵀ) = .ok (B.det * x) := by
  rcases Nat.even_or_odd' n with ⟨m, rfl | rfl⟩
  · exact ⟨pfVal A, pf_ok A, by rw [pf_ok, pfVal_congr]⟩
  · exact ⟨0, pf_odd (by omega) A, by rw [pf_odd (by omega), mul_zero]⟩

theorem pf_sq_gen [CharZero K] {n : ℕ} (A : Matrix (Fin n) (Fin n) K) (hA : Aᵀ = -A) :
    ∃ x, pf A = .ok x ∧ A.det = x ^ 2 := by
  rcases Nat.even_or_odd' n with ⟨m, rfl | rfl⟩
  · exact ⟨pfVal A, pf_ok A, (pfVal_sq A hA).symm⟩
  · refine ⟨0, pf_odd (by omega) A, ?_⟩
    have h : A.det = - A.det := by
      conv_lhs => rw [← det_transpose, hA, det_neg]
      simp [pow_succ, pow_mul]
    have : (2 : K) * A.det = 0 := by linear_combination h
    simpa using this

theorem pf_dsum_skew [CharZero K] {p r : ℕ} (A : Matrix (Fin p) (Fin p) K)
    (B : Matrix (Fin r) (Fin r) K) (hA : Aᵀ = -A) (hB : Bᵀ = -B) :
    ∃ x y, pf A = .ok x ∧ pf B = .ok y ∧ pf (dsum A B) = .ok (x * y) := by
  by_cases hodd : p % 2 = 1 ∨ r % 2 = 1
  · have hsk : (dsum A B)ᵀ = - dsum A B := by
      rw [dsum_transpose, hA, hB]
      ext i j
      refine Fin.addCases (fun i => ?_) (fun i => ?_) i <;>
        refine Fin.addCases (fun j => ?_) (fun j => ?_) j <;> simp
    obtain ⟨x, hx, hdx⟩ := pf_sq_gen A hA
    obtain ⟨y, hy, hdy⟩ := pf_sq_gen B hB
    obtain ⟨z, hz, hdz⟩ := pf_sq_gen _ hsk
    refine ⟨x, y, hx, hy, ?_⟩
    have hxy : x * y = 0 := by
      rcases hodd with h | h
      · rw [pf_odd h] at hx; cases hx; simp
      · rw [pf_odd h] at hy; cases hy; simp
    have : z ^ 2 = 0 := by
      rw [← hdz, det_dsum, hdx, hdy, ← mul_pow, hxy]; simp
    rw [hz, hxy, pow_eq_zero_iff (by norm_num) |>.1 this]
  · push Not at hodd
    obtain ⟨a, rfl⟩ : ∃ a, p = 2 * a := ⟨p / 2, by omega⟩
    obtain ⟨b, rfl⟩ : ∃ b, r = 2 * b := ⟨r / 2, by omega⟩
    obtain ⟨P, hP⟩ := exists_darboux A hA
    obtain ⟨Q, hQ⟩ := exists_darboux B hB
    refine ⟨P.det, Q.det, ?_, ?_, ?_⟩
    · rw [pf_ok, hP, pfVal_congr, pfVal_stdJ, mul_one]
    · rw [pf_ok, hQ, pfVal_congr, pfVal_stdJ, mul_one]
    · have hE : dsum A B = dsum P Q * dsum (stdJ a) (stdJ b) * (dsum P Q)ᵀ := by
        rw [dsum_transpose, dsum_mul, dsum_mul, ← hP, ← hQ]
      obtain ⟨x, hx, hx'⟩ := pf_congr_gen (dsum (stdJ a) (stdJ b) : Matrix _ _ K) (dsum P Q)
      rw [hE, hx', det_dsum]
      rw [← pf_cast (Nat.mul_add 2 a b).symm, dsum_stdJ, pf_ok, pfVal_stdJ] at hx
      cases hx
      rw [mul_one]

theorem pf_dsum [CharZero K] {p r : ℕ} (A : Matrix (Fin p) (Fin p) K)
    (B : Matrix (Fin r) (Fin r) K) :
    ∃ x y, pf A = .ok x ∧ pf B = .ok y ∧ pf (dsum A B) = .ok (x * y) := by
  obtain ⟨x, y, hx, hy, hz⟩ := pf_dsum_skew _ _ (skew_isSkew A) (skew_isSkew B)
  refine ⟨x, y, by rw [← pf_skew, hx], by rw [← pf_skew, hy], ?_⟩
  rw [← pf_skew, ← hz]
  have := dsum_lin (1 / 2 : K) (-1) A B
  simp only [neg_smul, one_smul, ← sub_eq_add_neg] at this
  rw [this]

/-! ### Pfaffian of bipartite skew matrices -/

/-- The permutation `2 i ↦ i`, `2 i + 1 ↦ n + i`. -/
def deinterleave (n : ℕ) : Fin (2 * n) ≃ Fin (n + n) :=
  ((pairEquiv n).symm.trans
    (((Equiv.prodComm _ _).trans (Equiv.boolProdEquivSum' n)))).trans finSumFinEquiv
where
  /-- `(b, i) ↦ inl i` for `b = 0`, `inr i` for `b = 1`. -/
  Equiv.boolProdEquivSum' (n : ℕ) : Fin 2 × Fin n ≃ Fin n ⊕ Fin n :=
    { toFun := fun x => if x.1 = 0 then Sum.inl x.2 else Sum.inr x.2
      invFun := fun s => s.elim (fun i => (0, i)) (fun i => (1, i))
      left_inv := by rintro ⟨b, i⟩; fin_cases b <;> simp
      right_inv := by rintro (i | i) <;> simp }

theorem deinterleave_ev {n : ℕ} (i : Fin n) : deinterleave n (ev i) = Fin.castAdd n i := by
  rw [← pairEquiv_zero]
  simp [deinterleave, deinterleave.Equiv.boolProdEquivSum']

theorem deinterleave_od {n : ℕ} (i : Fin n) : deinterleave n (od i) = Fin.natAdd n i := by
  rw [← pairEquiv_one]
  simp [deinterleave, deinterleave.Equiv.boolProdEquivSum']

theorem sign_eq_prod_all {N : ℕ} (σ : Perm (Fin N)) :
    Perm.sign σ = ∏ x, ∏ y, if x < y then (if σ x < σ y then (1 : ℤˣ) else -1) else 1 := by
  rw [Perm.sign_eq_prod_prod_Ioi]
  refine Finset.prod_congr rfl fun x _ => ?_
  rw [← Finset.prod_filter]
  congr 1
  ext y; simp

theorem sign_deinterleave (n : ℕ) :
    Perm.sign ((deinterleave n).trans (finCongr (Nat.two_mul n).symm) : Perm (Fin (2 * n)))
      = (-1) ^ (n * (n - 1) / 2) := by
  rw [sign_eq_prod_all, prod_pairs]
  have hev : ∀ i, ((deinterleave n).trans (finCongr (Nat.two_mul n).symm)) (ev i)
      = ⟨i, by omega⟩ := fun i => by ext; simp [deinterleave_ev]
  have hod : ∀ i, ((deinterleave n).trans (finCongr (Nat.two_mul n).symm)) (od i)
      = ⟨n + i, by omega⟩ := fun i => by ext; simp [deinterleave_od]; omega
  simp only [prod_pairs, hev, hod]
  have hprod : ∀ i : Fin n,
      ((∏ j : Fin n, ((if ev i < ev j then
          if (⟨i, by omega⟩ : Fin (2 * n)) < ⟨j, by omega⟩ then (1 : ℤˣ) else -1 else 1) *
        if ev i < od j then
          if (⟨i, by omega⟩ : Fin (2 * n)) < ⟨n + j, by omega⟩ then 1 else -1 else 1)) *
      ∏ j : Fin n, ((if od i < ev j then
          if (⟨n + i, by omega⟩ : Fin (2 * n)) < ⟨j, by omega⟩ then (1 : ℤˣ) else -1 else 1) *
        if od i < od j then
          if (⟨n + i, by omega⟩ : Fin (2 * n)) < ⟨n + j, by omega⟩ then 1 else -1 else 1))
      = ∏ j : Fin n, if i < j then (-1 : ℤˣ) else 1 := by
    intro i
    rw [← Finset.prod_mul_distrib]
    refine Finset.prod_congr rfl fun j _ => ?_
    simp only [ev, od, Fin.lt_def, Fin.mk_lt_mk]
    have a1 : (if 2 * (i : ℕ) < 2 * j then if (i : ℕ) < j then (1 : ℤˣ) else -1 else 1) = 1 := by
      split <;> [rw [if_pos (by omega)]; rfl]
    have a2 : (if 2 * (i : ℕ) < 2 * j + 1 then if (i : ℕ) < n + j then (1 : ℤˣ) else -1 else 1)
        = 1 := by
      split <;> [rw [if_pos (by omega)]; rfl]
    have a3 : (if 2 * (i : ℕ) + 1 < 2 * j then if n + (i : ℕ) < j then (1 : ℤˣ) else -1 else 1)
        = if (i : ℕ) < j then -1 else 1 := by
      by_cases h : (i : ℕ) < j
      · rw [if_pos (by omega), if_neg (by omega), if_pos h]
      · rw [if_neg (by omega), if_neg h]
    have a4 : (if 2 * (i : ℕ) + 1 < 2 * j + 1 then if n + (i : ℕ) < n + j then (1 : ℤˣ) else -1
        else 1) = 1 := by
      split <;> [rw [if_pos (by omega)]; rfl]
    rw [a1, a2, a3, a4]; simp
  rw [Finset.prod_congr rfl fun i _ => hprod i]
  have hcount : ∀ i : Fin n, ∏ j : Fin n, (if i < j then (-1 : ℤˣ) else 1)
      = (-1) ^ (n - 1 - (i : ℕ)) := by
    intro i
    rw [← Finset.prod_filter, Finset.prod_const]
    congr 1
    have : (Finset.univ.filter fun j => i < j) = Finset.Ioi i := by ext; simp
    rw [this, Fin.card_Ioi]
  rw [Finset.prod_congr rfl fun i _ => hcount i, Finset.prod_pow_eq_pow_sum]
  congr 1
  rw [← Finset.sum_range (fun i => n - 1 - i), Finset.sum_range_reflect (fun i => i) n,
    Finset.sum_range_id]

theorem bip_neg_one {n : ℕ} (A : Matrix (Fin n) (Fin n) K) :
    bip (-1) A = dsum A 1 * bip (-1) 1 * (dsum A 1)ᵀ := by
  simp only [bip, dsum, reindex_apply, transpose_submatrix, submatrix_mul_equiv,
    fromBlocks_transpose, fromBlocks_multiply]
  simp

theorem bip_stdJ (n : ℕ) : (bip (-1) 1 : Matrix (Fin (n + n)) (Fin (n + n)) K)
    = (stdJ n).reindex (deinterleave n) (deinterleave n) := by
  ext x y
  obtain ⟨x, rfl⟩ := (deinterleave n).surjective x
  obtain ⟨y, rfl⟩ := (deinterleave n).surjective y
  simp only [reindex_apply, submatrix_apply, Equiv.symm_apply_apply]
  rcases ev_or_od x with ⟨i, rfl⟩ | ⟨i, rfl⟩ <;> rcases ev_or_od y with ⟨j, rfl⟩ | ⟨j, rfl⟩ <;>
    simp only [deinterleave_ev, deinterleave_od, stdJ_ev_ev, stdJ_ev_od, stdJ_od_ev, stdJ_od_od,
      bip, reindex_apply, submatrix_apply, finSumFinEquiv_symm_apply_castAdd,
      finSumFinEquiv_symm_apply_natAdd, fromBlocks_apply₁₁, fromBlocks_apply₁₂, fromBlocks_apply₂₁,
      fromBlocks_apply₂₂, Matrix.zero_apply, one_apply, Matrix.smul_apply, transpose_apply]
  by_cases h : i = j
  · simp [h]
  · simp [h, Ne.symm h]

theorem pf_perm [CharZero K] {m : ℕ} (A : Matrix (Fin (2 * m)) (Fin (2 * m)) K)
    (π : Perm (Fin (2 * m))) :
    pfVal (A.reindex π π) = ((Perm.sign π : ℤ) : K) * pfVal A := by
  have h : A.reindex π π = (1 : Matrix _ _ K).submatrix π.symm id * A *
      ((1 : Matrix _ _ K).submatrix π.symm id)ᵀ := by
    ext i j
    simp [Matrix.mul_apply, one_apply]
  rw [h, pfVal_congr]
  congr 1
  have := det_permute π.symm (1 : Matrix (Fin (2 * m)) (Fin (2 * m)) K)
  rw [this]
  simp

theorem pf_bip [CharZero K] {n : ℕ} (A : Matrix (Fin n) (Fin n) K) :
    pf (bip (-1) A) = .ok ((-1) ^ (n * (n - 1) / 2) * A.det) := by
  rw [bip_neg_one]
  obtain ⟨x, hx, hx'⟩ := pf_congr_gen (bip (-1) 1 : Matrix (Fin (n + n)) (Fin (n + n)) K) (dsum A 1)
  rw [hx', det_dsum, det_one, mul_one]
  rw [← pf_cast (Nat.two_mul n).symm, bip_stdJ] at hx
  have : ((stdJ n : Matrix _ _ K).reindex (deinterleave n) (deinterleave n)).reindex
      (finCongr (Nat.two_mul n).symm) (finCongr (Nat.two_mul n).symm)
      = (stdJ n).reindex ((deinterleave n).trans (finCongr (Nat.two_mul n).symm))
        ((deinterleave n).trans (finCongr (Nat.two_mul n).symm)) := by
    ext; simp
  rw [this, pf_ok, pf_perm, sign_deinterleave, pfVal_stdJ, mul_one] at hx
  cases hx
  push_cast
  rw [mul_comm]

theorem bip_isSymm {n : ℕ} (A : Matrix (Fin n) (Fin n) K) : (bip 1 A).IsSymm := by
  rw [Matrix.IsSymm, bip, transpose_reindex, fromBlocks_transpose]
  simp

end FF
