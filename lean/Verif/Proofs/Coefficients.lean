import Verif.Model.Coefficients
import Verif.Spec.Coefficients
import Verif.Proofs.Operators2

/-! # Helper lemmas: block matrices and quadratic lifts -/

namespace FF

open Matrix
open scoped ComplexConjugate

/-! ## block algebra -/

section blk
variable {n : ℕ}

@[simp] theorem blk_11 (A B C D : Op n) (i j : Fin n) :
    blk A B C D (Fin.castAdd n i) (Fin.castAdd n j) = A i j := by simp [blk]
@[simp] theorem blk_12 (A B C D : Op n) (i j : Fin n) :
    blk A B C D (Fin.castAdd n i) (Fin.natAdd n j) = B i j := by
  simp [blk, -Fin.natAdd_eq_addNat]
@[simp] theorem blk_21 (A B C D : Op n) (i j : Fin n) :
    blk A B C D (Fin.natAdd n i) (Fin.castAdd n j) = C i j := by
  simp [blk, -Fin.natAdd_eq_addNat]
@[simp] theorem blk_22 (A B C D : Op n) (i j : Fin n) :
    blk A B C D (Fin.natAdd n i) (Fin.natAdd n j) = D i j := by
  simp [blk, -Fin.natAdd_eq_addNat]

theorem ext_halves {α : Type} {M N : Matrix (Fin (n + n)) (Fin (n + n)) α}
    (h11 : ∀ i j, M (Fin.castAdd n i) (Fin.castAdd n j) = N (Fin.castAdd n i) (Fin.castAdd n j))
    (h12 : ∀ i j, M (Fin.castAdd n i) (Fin.natAdd n j) = N (Fin.castAdd n i) (Fin.natAdd n j))
    (h21 : ∀ i j, M (Fin.natAdd n i) (Fin.castAdd n j) = N (Fin.natAdd n i) (Fin.castAdd n j))
    (h22 : ∀ i j, M (Fin.natAdd n i) (Fin.natAdd n j) = N (Fin.natAdd n i) (Fin.natAdd n j)) :
    M = N := by
  ext i j
  refine Fin.addCases (fun i => ?_) (fun i => ?_) i <;>
    refine Fin.addCases (fun j => ?_) (fun j => ?_) j
  · exact h11 i j
  · exact h12 i j
  · exact h21 i j
  · exact h22 i j

theorem blk_eta (M : Op (n + n)) : blk (blk11 M) (blk12 M) (blk21 M) (blk22 M) = M := by
  apply ext_halves <;> intro i j <;> simp [blk11, blk12, blk21, blk22, -Fin.natAdd_eq_addNat]

theorem exists_blk (M : Op (n + n)) : ∃ A B C D, M = blk A B C D := ⟨_, _, _, _, (blk_eta M).symm⟩

theorem blk_mul (A B C D A' B' C' D' : Op n) :
    blk A B C D * blk A' B' C' D' =
      blk (A * A' + B * C') (A * B' + B * D') (C * A' + D * C') (C * B' + D * D') := by
  rw [blk, blk, submatrix_mul_equiv, fromBlocks_multiply]; rfl

theorem blk_add (A B C D A' B' C' D' : Op n) :
    blk A B C D + blk A' B' C' D' = blk (A + A') (B + B') (C + C') (D + D') := by
  apply ext_halves <;> intro i j <;> simp [-Fin.natAdd_eq_addNat]

theorem blk_sub (A B C D A' B' C' D' : Op n) :
    blk A B C D - blk A' B' C' D' = blk (A - A') (B - B') (C - C') (D - D') := by
  apply ext_halves <;> intro i j <;> simp [-Fin.natAdd_eq_addNat]

theorem blk_neg (A B C D : Op n) : - blk A B C D = blk (-A) (-B) (-C) (-D) := by
  apply ext_halves <;> intro i j <;> simp [-Fin.natAdd_eq_addNat]

theorem blk_smul (c : ℂ) (A B C D : Op n) :
    c • blk A B C D = blk (c • A) (c • B) (c • C) (c • D) := by
  apply ext_halves <;> intro i j <;> simp [-Fin.natAdd_eq_addNat]

theorem blk_transpose (A B C D : Op n) : (blk A B C D)ᵀ = blk Aᵀ Cᵀ Bᵀ Dᵀ := by
  apply ext_halves <;> intro i j <;> simp [-Fin.natAdd_eq_addNat]

theorem blk_conjTranspose (A B C D : Op n) : (blk A B C D)ᴴ = blk Aᴴ Cᴴ Bᴴ Dᴴ := by
  apply ext_halves <;> intro i j <;> simp [-Fin.natAdd_eq_addNat]

theorem castAdd_ne_natAdd (i j : Fin n) : Fin.castAdd n i ≠ Fin.natAdd n j := by
  intro h; have := congrArg Fin.val h; simp at this; omega

theorem blk_one : blk (1 : Op n) 0 0 1 = 1 := by
  apply ext_halves <;> intro i j <;>
    simp [-Fin.natAdd_eq_addNat, Matrix.one_apply, castAdd_ne_natAdd, (castAdd_ne_natAdd _ _).symm]

theorem blk_inj {A B C D A' B' C' D' : Op n} :
    blk A B C D = blk A' B' C' D' ↔ A = A' ∧ B = B' ∧ C = C' ∧ D = D' := by
  constructor
  · intro h
    refine ⟨?_, ?_, ?_, ?_⟩ <;> ext i j
    · simpa [-Fin.natAdd_eq_addNat] using congrFun (congrFun h (Fin.castAdd n i)) (Fin.castAdd n j)
    · simpa [-Fin.natAdd_eq_addNat] using congrFun (congrFun h (Fin.castAdd n i)) (Fin.natAdd n j)
    · simpa [-Fin.natAdd_eq_addNat] using congrFun (congrFun h (Fin.natAdd n i)) (Fin.castAdd n j)
    · simpa [-Fin.natAdd_eq_addNat] using congrFun (congrFun h (Fin.natAdd n i)) (Fin.natAdd n j)
  · rintro ⟨rfl, rfl, rfl, rfl⟩; rfl

theorem blk_congr {A B C D A' B' C' D' : Op n} (h1 : A = A') (h2 : B = B') (h3 : C = C')
    (h4 : D = D') : blk A B C D = blk A' B' C' D' := by rw [h1, h2, h3, h4]

theorem cj_conjTranspose (A : Op n) : (cj A)ᴴ = Aᵀ := by
  ext i j; simp [cj]
theorem cj_transpose (A : Op n) : (cj A)ᵀ = Aᴴ := by
  ext i j; simp [cj]

end blk

/-! ## the swap of the two halves -/

section flip
variable {n : ℕ}

/-- Exchange of the two halves of the index range. -/
def fl (i : Fin (n + n)) : Fin (n + n) := Fin.addCases (fun i => Fin.natAdd n i) (fun i => Fin.castAdd n i) i

@[simp] theorem fl_left (i : Fin n) : fl (Fin.castAdd n i) = Fin.natAdd n i := by simp [fl]
@[simp] theorem fl_right (i : Fin n) : fl (Fin.natAdd n i) = Fin.castAdd n i := by
  simp [fl, -Fin.natAdd_eq_addNat]

@[simp] theorem fl_fl (i : Fin (n + n)) : fl (fl i) = i := by
  refine Fin.addCases (fun i => ?_) (fun i => ?_) i <;> simp [-Fin.natAdd_eq_addNat]

/-- `fl` as an equivalence. -/
def flE : Fin (n + n) ≃ Fin (n + n) := ⟨fl, fl, fl_fl, fl_fl⟩

theorem swapS_apply (i j : Fin (n + n)) : swapS n i j = if j = fl i then 1 else 0 := by
  have h := @castAdd_ne_natAdd n
  refine Fin.addCases (fun i => ?_) (fun i => ?_) i <;>
    refine Fin.addCases (fun j => ?_) (fun j => ?_) j <;>
    simp [swapS, -Fin.natAdd_eq_addNat, Matrix.one_apply, h, (h _ _).symm, eq_comm]

theorem swapS_mul (M : Op (n + n)) (i j : Fin (n + n)) : (swapS n * M) i j = M (fl i) j := by
  rw [mul_apply, Finset.sum_eq_single (fl i)]
  · simp [swapS_apply]
  · intro b _ hb; simp [swapS_apply, hb]
  · simp

theorem mul_swapS (M : Op (n + n)) (i j : Fin (n + n)) : (M * swapS n) i j = M i (fl j) := by
  rw [mul_apply, Finset.sum_eq_single (fl j)]
  · simp [swapS_apply]
  · intro b _ hb
    have : j ≠ fl b := fun h => hb (by rw [h, fl_fl])
    simp [swapS_apply, this]
  · simp

theorem swapS_sq : swapS n * swapS n = 1 := by
  rw [swapS, blk_mul, ← blk_one]; simp

theorem swapS_transpose : (swapS n)ᵀ = swapS n := by
  rw [swapS, blk_transpose]; simp

theorem swapS_conjTranspose : (swapS n)ᴴ = swapS n := by
  rw [swapS, blk_conjTranspose]; simp

theorem al_conjTranspose (i : Fin (n + n)) : (al n i)ᴴ = al n (fl i) := by
  refine Fin.addCases (fun i => ?_) (fun i => ?_) i <;> simp [-Fin.natAdd_eq_addNat]

/-- The anticommutation algebra of the alphas. -/
theorem al_anticomm (i j : Fin (n + n)) :
    al n i * al n j + al n j * al n i = swapS n i j • 1 := by
  have h1 (i j : Fin n) : (jwLower n i)ᴴ * (jwLower n j)ᴴ + (jwLower n j)ᴴ * (jwLower n i)ᴴ = 0 := by
    have := congrArg conjTranspose (car_lower j i)
    simpa [add_comm] using this
  refine Fin.addCases (fun i => ?_) (fun i => ?_) i <;>
    refine Fin.addCases (fun j => ?_) (fun j => ?_) j <;>
    simp only [al_left, al_right, swapS, blk_11, blk_12, blk_21, blk_22]
  · rw [h1]; simp
  · rw [add_comm, car_mixed]; simp only [Matrix.one_apply, eq_comm (a := i)]; split_ifs <;> simp
  · rw [car_mixed]; by_cases h : i = j <;> simp [h, Matrix.one_apply]
  · rw [car_lower]; simp

end flip

/-! ## lifts -/

/-- `Σ_ij R_ij α_i† α_j` over a family of operators. -/
noncomputable abbrev qlift {m d : ℕ} (R : Op m) (f : Fin m → Op d) : Op d := Spec.quad R f

section qlift
variable {n : ℕ}

theorem lift_add {m d : ℕ} (R Q : Op m) (f : Fin m → Op d) : qlift (R + Q) f = qlift R f + qlift Q f := by
  simp [Spec.quad, add_smul, Finset.sum_add_distrib]

theorem lift_smul {m d : ℕ} (c : ℂ) (R : Op m) (f : Fin m → Op d) : qlift (c • R) f = c • qlift R f := by
  simp [Spec.quad, Finset.smul_sum, smul_smul]

theorem lift_conjTranspose {m d : ℕ} (R : Op m) (f : Fin m → Op d) : (qlift R f)ᴴ = qlift Rᴴ f := by
  simp only [Spec.quad, conjTranspose_sum, conjTranspose_smul, conjTranspose_mul, conjTranspose_conjTranspose]
  rw [Finset.sum_comm]
  rfl

/-- Commutator of one quadratic term with an alpha. -/
theorem term_comm (i j k : Fin (n + n)) :
    (al n i)ᴴ * al n j * al n k - al n k * ((al n i)ᴴ * al n j) =
      swapS n j k • (al n i)ᴴ - swapS n k (fl i) • al n j := by
  have h1 := al_anticomm (n := n) j k
  have h2 := al_anticomm (n := n) k (fl i)
  rw [al_conjTranspose]
  have e1 : al n j * al n k = swapS n j k • 1 - al n k * al n j := by rw [← h1]; noncomm_ring
  have e2 : al n k * al n (fl i) = swapS n k (fl i) • 1 - al n (fl i) * al n k := by
    rw [← h2]; noncomm_ring
  rw [mul_assoc, e1, ← mul_assoc (al n k), e2]
  simp only [mul_sub, sub_mul, Matrix.mul_smul, Matrix.smul_mul, Matrix.mul_one, Matrix.one_mul, mul_assoc]
  abel

/-- Commutator of a qlift with an alpha. -/
theorem lift_comm (R : Op (n + n)) (k : Fin (n + n)) :
    qlift R (al n) * al n k - al n k * qlift R (al n) =
      ∑ l, (swapS n * Rᵀ * swapS n - R) k l • al n l := by
  have h1 : qlift R (al n) * al n k - al n k * qlift R (al n) =
      ∑ i, ∑ j, R i j • (swapS n j k • (al n i)ᴴ - swapS n k (fl i) • al n j) := by
    simp only [Spec.quad, Finset.sum_mul, Finset.mul_sum, ← Finset.sum_sub_distrib, ← term_comm,
      smul_sub, Matrix.smul_mul, Matrix.mul_smul]
  rw [h1]
  simp only [smul_sub, Finset.sum_sub_distrib, Matrix.sub_apply, sub_smul]
  congr 1
  · have (i : Fin (n + n)) : ∑ j, R i j • swapS n j k • (al n i)ᴴ = R i (fl k) • (al n i)ᴴ := by
      rw [Finset.sum_eq_single (fl k)]
      · simp [swapS_apply]
      · intro b _ hb
        have : k ≠ fl b := fun h => hb (by rw [h, fl_fl])
        simp [swapS_apply, this]
      · simp
    simp only [this]
    rw [← Equiv.sum_comp flE]
    apply Finset.sum_congr rfl
    intro l _
    rw [mul_swapS, swapS_mul, transpose_apply, al_conjTranspose]
    change R (fl l) (fl k) • al n (fl (fl l)) = _
    rw [fl_fl]
  · rw [Finset.sum_eq_single k]
    · apply Finset.sum_congr rfl
      intro j _
      simp [swapS_apply]
    · intro b _ hb
      apply Finset.sum_eq_zero
      intro j _
      have : fl b ≠ fl k := fun h => hb (by rw [← fl_fl b, h, fl_fl])
      simp [swapS_apply, this]
    · simp

/-- Commutator of two lifts. -/
theorem lift_lift_comm (R Q : Op (n + n)) :
    qlift R (al n) * qlift Q (al n) - qlift Q (al n) * qlift R (al n) =
      qlift (Q * (swapS n * Rᵀ * swapS n - R) - (swapS n * Rᵀ * swapS n - R) * Q) (al n) := by
  set M := swapS n * Rᵀ * swapS n - R with hM
  have hc (k) : qlift R (al n) * al n k = al n k * qlift R (al n) + ∑ l, M k l • al n l := by
    rw [← lift_comm R k]; abel
  have hflip (i l : Fin (n + n)) : M (fl i) (fl l) = - M l i := by
    simp only [hM, Matrix.sub_apply, mul_swapS, swapS_mul, transpose_apply, fl_fl]; ring
  have hterm (i j : Fin (n + n)) :
      qlift R (al n) * ((al n i)ᴴ * al n j) - (al n i)ᴴ * al n j * qlift R (al n) =
        (∑ l, M j l • ((al n i)ᴴ * al n l)) - ∑ l, M l i • ((al n l)ᴴ * al n j) := by
    rw [al_conjTranspose, ← mul_assoc, hc, add_mul, mul_assoc, hc, mul_add, Finset.mul_sum, Finset.sum_mul]
    simp only [Matrix.smul_mul, Matrix.mul_smul]
    rw [← Equiv.sum_comp flE (fun l => M (fl i) l • (al n l * al n j))]
    have : ∑ l, M (fl i) (flE l) • (al n (flE l) * al n j) = - ∑ l, M l i • ((al n l)ᴴ * al n j) := by
      rw [← Finset.sum_neg_distrib]
      apply Finset.sum_congr rfl
      intro l _
      change M (fl i) (fl l) • (al n (fl l) * al n j) = _
      rw [hflip, al_conjTranspose, neg_smul]
    rw [this]
    simp only [mul_assoc]
    abel
  have h1 : qlift R (al n) * qlift Q (al n) - qlift Q (al n) * qlift R (al n) =
      ∑ i, ∑ j, Q i j • (qlift R (al n) * ((al n i)ᴴ * al n j) - (al n i)ᴴ * al n j * qlift R (al n)) := by
    conv_lhs => rw [show qlift Q (al n) = ∑ i, ∑ j, Q i j • ((al n i)ᴴ * al n j) from rfl]
    simp only [Finset.sum_mul, Finset.mul_sum, ← Finset.sum_sub_distrib, smul_sub, Matrix.smul_mul,
      Matrix.mul_smul]
  rw [h1]
  simp only [hterm, smul_sub, Finset.smul_sum, smul_smul, Finset.sum_sub_distrib]
  rw [sub_eq_add_neg (Q * M), lift_add, ← neg_one_smul ℂ (M * Q), lift_smul, neg_one_smul, ← sub_eq_add_neg]
  congr 1
  · simp only [Spec.quad, mul_apply, Finset.sum_smul]
    apply Finset.sum_congr rfl; intro i _
    rw [Finset.sum_comm]
  · simp only [Spec.quad, mul_apply, Finset.sum_smul]
    rw [Finset.sum_comm]
    rw [show (∑ i, ∑ j, ∑ k, (M i k * Q k j) • ((al n i)ᴴ * al n j)) =
        ∑ j, ∑ i, ∑ k, (M i k * Q k j) • ((al n i)ᴴ * al n j) from Finset.sum_comm]
    apply Finset.sum_congr rfl; intro j _
    rw [Finset.sum_comm]
    apply Finset.sum_congr rfl; intro i _
    apply Finset.sum_congr rfl; intro k _
    rw [mul_comm]

end qlift

end FF
