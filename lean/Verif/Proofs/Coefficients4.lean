import Verif.Proofs.Coefficients3
import Mathlib.Analysis.Matrix.Order
import Mathlib.Analysis.Normed.Algebra.MatrixExponential
import Mathlib.Analysis.SpecialFunctions.Exponential

/-! # Helper lemmas: reordering, K, symplectic matrices, canonical form, Gaussian states, correlations -/

namespace FF

open Matrix
open scoped ComplexConjugate

/-! ## Omega, reordering, K -/

theorem omega_unitary (n : ℕ) : (buildOmega n)ᴴ * buildOmega n = 1 := by
  simp only [buildOmega, blk_conjTranspose, blk_mul, ← blk_one]
  have h := nu_sq
  have h3 : star (Complex.I * nu) * (Complex.I * nu) = 1 / 2 := by
    simp [nu_conj]; linear_combination (-Complex.I ^ 2) * h - (1 / 2 : ℂ) * Complex.I_sq
  have h4 : star (Complex.I * nu) * (-Complex.I * nu) = - (1 / 2) := by
    rw [neg_mul, mul_neg, h3]
  have h5 : star (-Complex.I * nu) * (Complex.I * nu) = - (1 / 2) := by
    rw [neg_mul, star_neg, neg_mul, h3]
  have h6 : star (-Complex.I * nu) * (-Complex.I * nu) = 1 / 2 := by
    rw [neg_mul, star_neg, neg_mul_neg, h3]
  have h7 : star nu * nu = 1 / 2 := by simp only [RCLike.star_def, nu_conj, h]
  apply blk_congr <;>
    simp only [conjTranspose_smul, conjTranspose_one, Matrix.smul_mul, Matrix.mul_smul, Matrix.one_mul,
      smul_smul, ← add_smul, mul_comm nu (star nu), mul_comm (Complex.I * nu) (star _),
      mul_comm (-Complex.I * nu) (star _), h3, h4, h5, h6, h7]
  · norm_num
  · norm_num
  · norm_num
  · norm_num

theorem omega_unitary' (n : ℕ) : buildOmega n * (buildOmega n)ᴴ = 1 :=
  mul_eq_one_comm.1 (omega_unitary n)

theorem omega_transpose_mul (n : ℕ) : (buildOmega n)ᵀ * buildOmega n = swapS n := by
  have h1 : (buildOmega n * swapS n) * (buildOmega n)ᵀ = 1 := omega_swap n
  have h2 : (buildOmega n)ᵀ * (buildOmega n * swapS n) = 1 := mul_eq_one_comm.1 h1
  calc (buildOmega n)ᵀ * buildOmega n
      = (buildOmega n)ᵀ * (buildOmega n * swapS n) * swapS n := by
        rw [mul_assoc, mul_assoc, swapS_sq, mul_one]
    _ = swapS n := by rw [h2, one_mul]

/-- The reordering of indices. -/
def reord (n : ℕ) (x : Fin (n + n)) : Fin (n + n) :=
  Fin.addCases (fun i => ⟨2 * i, by omega⟩) (fun i => ⟨2 * i + 1, by omega⟩) x

@[simp] theorem reord_left {n : ℕ} (i : Fin n) : reord n (Fin.castAdd n i) = ⟨2 * i, by omega⟩ := by
  simp [reord]
@[simp] theorem reord_right {n : ℕ} (i : Fin n) : reord n (Fin.natAdd n i) = ⟨2 * i + 1, by omega⟩ := by
  simp [reord, -Fin.natAdd_eq_addNat]

theorem reord_injective (n : ℕ) : Function.Injective (reord n) := by
  intro x y
  refine Fin.addCases (fun i => ?_) (fun i => ?_) x <;>
    refine Fin.addCases (fun j => ?_) (fun j => ?_) y <;>
    simp only [reord_left, reord_right, Fin.mk.injEq] <;> intro h
  · have : i = j := Fin.ext (by omega)
    rw [this]
  · omega
  · omega
  · have : i = j := Fin.ext (by omega)
    rw [this]

theorem reordering_fold {n : ℕ} (l : List (Fin n)) (M : Op (n + n)) (x y : Fin (n + n)) :
    l.foldl (fun P i => set2 (set2 P (Fin.castAdd n i) ⟨2 * i, by omega⟩ 1) (Fin.natAdd n i)
      ⟨2 * i + 1, by omega⟩ 1) M x y =
    if (∃ i ∈ l, (x = Fin.castAdd n i ∨ x = Fin.natAdd n i) ∧ y = reord n x) then 1 else M x y := by
  induction l generalizing M with
  | nil => simp
  | cons a l ih =>
    rw [List.foldl_cons, ih]
    simp only [set2, of_apply, List.mem_cons, exists_eq_or_imp]
    by_cases h : ∃ i ∈ l, (x = Fin.castAdd n i ∨ x = Fin.natAdd n i) ∧ y = reord n x
    · rw [if_pos h, if_pos (Or.inr h)]
    · simp only [h, if_false, or_false]
      by_cases h1 : x = Fin.castAdd n a
      · subst h1
        simp [castAdd_ne_natAdd, -Fin.natAdd_eq_addNat]
      · by_cases h2 : x = Fin.natAdd n a
        · subst h2
          simp [(castAdd_ne_natAdd _ _).symm, -Fin.natAdd_eq_addNat]
        · simp [h1, h2, -Fin.natAdd_eq_addNat]

theorem reordering_apply (n : ℕ) (x y : Fin (n + n)) :
    buildReordering n x y = if y = reord n x then 1 else 0 := by
  rw [buildReordering, reordering_fold]
  have : ∃ i : Fin n, x = Fin.castAdd n i ∨ x = Fin.natAdd n i := by
    refine Fin.addCases (fun i => ⟨i, Or.inl rfl⟩) (fun i => ⟨i, Or.inr rfl⟩) x
  obtain ⟨i, hi⟩ := this
  by_cases h : y = reord n x
  · rw [if_pos h, if_pos ⟨i, List.mem_finRange i, hi, h⟩]
  · rw [if_neg h, if_neg (by rintro ⟨_, _, _, h'⟩; exact h h')]; rfl

theorem reordering_mul_transpose (n : ℕ) : buildReordering n * (buildReordering n)ᵀ = 1 := by
  ext x y
  rw [mul_apply, Finset.sum_eq_single (reord n x)]
  · simp only [transpose_apply, reordering_apply, Matrix.one_apply, if_true, one_mul]
    by_cases h : x = y
    · simp [h]
    · simp [h, (reord_injective n).eq_iff]
  · intro b _ hb; simp [reordering_apply, hb]
  · simp

theorem reordering_real (n : ℕ) : (buildReordering n)ᴴ = (buildReordering n)ᵀ := by
  ext x y
  simp only [conjTranspose_apply, transpose_apply, reordering_apply]
  split_ifs <;> simp

theorem reordering_mul {n : ℕ} (M : Op (n + n)) (x y) :
    (buildReordering n * M) x y = M (reord n x) y := by
  rw [mul_apply, Finset.sum_eq_single (reord n x)]
  · simp [reordering_apply]
  · intro b _ hb; simp [reordering_apply, hb]
  · simp

theorem kron_one_apply {n : ℕ} (w : Op 2) (x y : Fin (n * 2)) :
    npKron (1 : Op n) w x y = if (x : ℕ) / 2 = (y : ℕ) / 2 then w x.modNat y.modNat else 0 := by
  simp only [npKron, of_apply, Matrix.one_apply]
  have : (x.divNat = y.divNat) ↔ (x : ℕ) / 2 = (y : ℕ) / 2 := by
    rw [Fin.ext_iff]; rfl
  simp only [this]
  split_ifs <;> simp

theorem buildK_eq (n : ℕ) : buildK n = (buildOmega n)ᴴ * buildReordering n * buildOmega n := by
  rw [buildK]
  congr 1
  ext x y
  have hR : ((buildOmega n)ᴴ * buildReordering n) x y =
      ∑ z, star (buildOmega n z x) * (if y = reord n z then 1 else 0) := by
    rw [mul_apply]; simp only [conjTranspose_apply, reordering_apply]
  rw [hR, kPhases, mul_assoc, diagonal_mul, reordering_mul, Fin.sum_univ_add]
  have hinv : (((Real.sqrt 2 : ℝ) : ℂ)⁻¹) = nu := by simp [nu]
  have hm (k : ℕ) (h : k < n * 2) (b : Fin 2) (e : k % 2 = b) : (⟨k, h⟩ : Fin (n * 2)).modNat = b :=
    Fin.ext e
  have hcol (a : ℂ) (i : Fin n) (f : Fin n → Fin (n + n)) (P : Fin n → Prop) [DecidablePred P]
      (hP : ∀ j, y = f j ↔ P j) :
      (∑ z : Fin n, star (a * (if z = i then (1 : ℂ) else 0)) * (if y = f z then 1 else 0)) =
        star a * if P i then 1 else 0 := by
    rw [Finset.sum_eq_single i]
    · simp [hP]
    · intro b _ hb; simp [hb]
    · simp
  have hy1 (j : Fin n) : y = (⟨2 * j, by omega⟩ : Fin (n + n)) ↔ (y : ℕ) = 2 * j := by rw [Fin.ext_iff]
  have hy2 (j : Fin n) : y = (⟨2 * j + 1, by omega⟩ : Fin (n + n)) ↔ (y : ℕ) = 2 * j + 1 := by
    rw [Fin.ext_iff]
  refine Fin.addCases (fun i => ?_) (fun i => ?_) x
  · simp only [reord_left, reord_right, buildOmega, blk_11, blk_21, Fin.addCases_left, Matrix.smul_apply,
      Matrix.one_apply, smul_eq_mul]
    rw [hcol nu i _ (fun j => (y : ℕ) = 2 * j) hy1, hcol (Complex.I * nu) i _ (fun j => (y : ℕ) = 2 * j + 1) hy2]
    simp only [castOp, submatrix_apply, Fin.cast_mk, kron_one_apply, Fin.val_cast]
    have hx0 : (2 * (i : ℕ)) / 2 = i := by omega
    rw [hx0, hm _ _ 0 (by simp)]
    by_cases h1 : (y : ℕ) = 2 * i
    · rw [if_pos (by omega), show (Fin.cast (Nat.mul_two n).symm y).modNat = 0 from
        Fin.ext (by simp only [Fin.modNat, Fin.val_cast]; rw [h1]; simp), if_pos h1, if_neg (by omega)]
      simp [wBlock, hinv, nu_conj]
    · by_cases h2 : (y : ℕ) = 2 * i + 1
      · rw [if_pos (by omega), show (Fin.cast (Nat.mul_two n).symm y).modNat = 1 from
          Fin.ext (by simp only [Fin.modNat, Fin.val_cast]; rw [h2]; omega), if_neg h1, if_pos h2]
        simp [wBlock, hinv, nu_conj]
        ring
      · rw [if_neg (by omega), if_neg h1, if_neg h2]; simp
  · simp only [reord_left, reord_right, buildOmega, blk_12, blk_22, Fin.addCases_right, Matrix.smul_apply,
      Matrix.one_apply, smul_eq_mul]
    rw [hcol nu i _ (fun j => (y : ℕ) = 2 * j) hy1, hcol (-Complex.I * nu) i _ (fun j => (y : ℕ) = 2 * j + 1) hy2]
    simp only [castOp, submatrix_apply, Fin.cast_mk, kron_one_apply, Fin.val_cast]
    have hx0 : (2 * (i : ℕ) + 1) / 2 = i := by omega
    rw [hx0, hm _ _ 1 (by show (2 * (i : ℕ) + 1) % 2 = 1; omega)]
    by_cases h1 : (y : ℕ) = 2 * i
    · rw [if_pos (by omega), show (Fin.cast (Nat.mul_two n).symm y).modNat = 0 from
        Fin.ext (by simp only [Fin.modNat, Fin.val_cast]; rw [h1]; simp), if_pos h1, if_neg (by omega)]
      simp [wBlock, hinv, nu_conj]
      linear_combination (-nu) * Complex.I_sq
    · by_cases h2 : (y : ℕ) = 2 * i + 1
      · rw [if_pos (by omega), show (Fin.cast (Nat.mul_two n).symm y).modNat = 1 from
          Fin.ext (by simp only [Fin.modNat, Fin.val_cast]; rw [h2]; omega), if_neg h1, if_pos h2]
        simp [wBlock, hinv, nu_conj]
      · rw [if_neg (by omega), if_neg h1, if_neg h2]; simp

/-! ## symplectic unitaries -/

theorem symp_iff {n : ℕ} (U : Op (n + n)) : Spec.IsSymplectic U ↔ U * swapS n * Uᵀ = swapS n := by
  rw [Spec.IsSymplectic, swapS_eq]

/-- `Ω† O Ω` is symplectic for `O Oᵀ = 1`. -/
theorem omega_conj_symp {n : ℕ} (O : Op (n + n)) (hO : O * Oᵀ = 1) :
    Spec.IsSymplectic ((buildOmega n)ᴴ * O * buildOmega n) := by
  rw [symp_iff]
  set Ω := buildOmega n
  have h1 : Ω * swapS n * Ωᵀ = 1 := omega_swap n
  have h2 : (Ωᴴ * (Ωᴴ)ᵀ) = swapS n := by
    have := omega_transpose_mul n
    have h3 := congrArg (fun M => Mᴴ) this
    simp only [conjTranspose_mul, swapS_conjTranspose] at h3
    rw [← h3]; rfl
  calc Ωᴴ * O * Ω * swapS n * (Ωᴴ * O * Ω)ᵀ
      = Ωᴴ * O * (Ω * swapS n * Ωᵀ) * Oᵀ * (Ωᴴ)ᵀ := by
        simp only [transpose_mul, mul_assoc]
    _ = swapS n := by rw [h1, mul_one, mul_assoc Ωᴴ, hO, mul_one, h2]

theorem symp_mul {n : ℕ} {U V : Op (n + n)} (hU : Spec.IsSymplectic U) (hV : Spec.IsSymplectic V) :
    Spec.IsSymplectic (U * V) := by
  unfold Spec.IsSymplectic at *
  calc U * V * Spec.swap n * (U * V)ᵀ = U * (V * Spec.swap n * Vᵀ) * Uᵀ := by
        simp only [transpose_mul, mul_assoc]
    _ = Spec.swap n := by rw [hV, hU]

theorem symp_one (n : ℕ) : Spec.IsSymplectic (1 : Op (n + n)) := by
  unfold Spec.IsSymplectic; simp

theorem symp_transpose {n : ℕ} {U : Op (n + n)} (hU : Spec.IsSymplectic U) : Spec.IsSymplectic Uᵀ := by
  rw [symp_iff] at *
  have h1 : U * (swapS n * Uᵀ * swapS n) = 1 := by
    rw [← mul_assoc, ← mul_assoc, hU, swapS_sq]
  have h2 : swapS n * Uᵀ * swapS n * U = 1 := mul_eq_one_comm.1 h1
  rw [transpose_transpose]
  calc Uᵀ * swapS n * U = swapS n * (swapS n * Uᵀ * swapS n * U) := by
        simp only [← mul_assoc]; rw [swapS_sq, one_mul]
    _ = swapS n := by rw [h2, mul_one]

theorem symp_inv {n : ℕ} {U : Op (n + n)} (hU : Spec.IsSymplectic U) :
    IsUnit U.det ∧ Spec.IsSymplectic U⁻¹ := by
  have hT := symp_transpose hU
  rw [symp_iff] at *
  have h1 : U * (swapS n * Uᵀ * swapS n) = 1 := by
    rw [← mul_assoc, ← mul_assoc, hU, swapS_sq]
  have hinv : U⁻¹ = swapS n * Uᵀ * swapS n := inv_eq_right_inv h1
  refine ⟨(isUnit_iff_isUnit_det U).1 ⟨⟨U, _, h1, mul_eq_one_comm.1 h1⟩, rfl⟩, ?_⟩
  rw [hinv]
  simp only [transpose_mul, swapS_transpose, transpose_transpose] at hT ⊢
  calc swapS n * Uᵀ * swapS n * swapS n * (swapS n * (U * swapS n))
      = swapS n * (Uᵀ * (swapS n * swapS n) * swapS n * U) * swapS n := by simp only [mul_assoc]
    _ = swapS n := by rw [swapS_sq, mul_one, hT, swapS_sq, one_mul]

/-! ## check_canonical_form -/

theorem set2_apply' {m k : ℕ} (M : Matrix (Fin m) (Fin k) ℂ) (i : Fin m) (j : Fin k) (v : ℂ) (x : Fin m)
    (y : Fin k) : set2 M i j v x y = if x = i ∧ y = j then v else M x y := rfl

theorem canonicalCopy_apply {m : ℕ} (L : Op m) (half : ℕ) (hm : m = 2 * half) (x y : Fin m) :
    canonicalCopy L half x y = if (x : ℕ) / 2 = (y : ℕ) / 2 ∧ x ≠ y then L x y else 0 := by
  have key : ∀ k ≤ m, ∀ x y : Fin m, (List.range k).foldl (fun M j =>
      if j % 2 = 1 then
        if h : j < m then set2 M ⟨j, h⟩ ⟨j - 1, by omega⟩ (L ⟨j, h⟩ ⟨j - 1, by omega⟩) else M
      else
        if h : j + 1 < m then set2 M ⟨j, by omega⟩ ⟨j + 1, h⟩ (L ⟨j, by omega⟩ ⟨j + 1, h⟩) else M)
      (0 : Op m) x y =
      if (x : ℕ) < k ∧ (x : ℕ) / 2 = (y : ℕ) / 2 ∧ x ≠ y then L x y else 0 := by
    intro k
    induction k with
    | zero => intro _ x y; simp
    | succ k ih =>
      intro hk x y
      have ih := ih (by omega)
      rw [List.range_succ, List.foldl_append, List.foldl_cons, List.foldl_nil]
      have hy := y.2
      by_cases hodd : k % 2 = 1
      · rw [if_pos hodd, dif_pos (by omega)]
        rw [set2_apply', ih]
        by_cases hx : x = ⟨k, by omega⟩ ∧ y = ⟨k - 1, by omega⟩
        · have hx1 := congrArg Fin.val hx.1
          have hx2 := congrArg Fin.val hx.2
          simp only at hx1 hx2
          rw [if_pos hx, if_pos, ← hx.1, ← hx.2]
          refine ⟨by omega, by omega, ?_⟩
          intro e; have := congrArg Fin.val e; omega
        · rw [if_neg hx]
          congr 1
          apply propext
          simp only [Fin.ext_iff, ne_eq] at hx ⊢
          omega
      · rw [if_neg hodd, dif_pos (by omega)]
        rw [set2_apply', ih]
        by_cases hx : x = ⟨k, by omega⟩ ∧ y = ⟨k + 1, by omega⟩
        · have hx1 := congrArg Fin.val hx.1
          have hx2 := congrArg Fin.val hx.2
          simp only at hx1 hx2
          rw [if_pos hx, if_pos, ← hx.1, ← hx.2]
          refine ⟨by omega, by omega, ?_⟩
          intro e; have := congrArg Fin.val e; omega
        · rw [if_neg hx]
          congr 1
          apply propext
          simp only [Fin.ext_iff, ne_eq] at hx ⊢
          omega
  rw [canonicalCopy, key _ (by omega)]
  have := x.2
  simp only [show (x : ℕ) < 2 * half by omega, true_and]

/-! ## Gaussian states -/

theorem expm_herm {d : ℕ} {H : Op d} (hH : H.IsHermitian) : (expm H).IsHermitian := by
  rw [expm]; exact hH.exp

open scoped ComplexOrder in
theorem expm_posDef {d : ℕ} {H : Op d} (hH : H.IsHermitian) : (expm H).PosDef := by
  have h2 : ((1 / 2 : ℂ) • H).IsHermitian := by
    rw [IsHermitian, conjTranspose_smul, hH.eq]; simp
  have e : expm H = (expm ((1 / 2 : ℂ) • H))ᴴ * expm ((1 / 2 : ℂ) • H) := by
    rw [(expm_herm h2).eq, expm, expm, ← Matrix.exp_add_of_commute _ _ (Commute.refl _), ← add_smul]
    norm_num
  rw [e]
  apply Matrix.PosDef.conjTranspose_mul_self
  exact Matrix.mulVec_injective_of_isUnit (Matrix.isUnit_exp _)

theorem npTrace_eq {d : ℕ} (A : Op d) : npTrace A = A.trace := rfl

/-! ## correlation matrices -/

theorem trace_al {n : ℕ} (rho : Op (2 ^ n)) (i j : Fin (n + n)) :
    (rho * al n i * al n j).trace + (rho * al n j * al n i).trace = rho.trace * swapS n i j := by
  rw [← trace_add, mul_assoc, mul_assoc, ← mul_add, al_anticomm, Matrix.mul_smul, mul_one, trace_smul,
    smul_eq_mul, mul_comm]

theorem blk_two (A B C D : Op 2) : blk A B C D = (!![A 0 0, A 0 1, B 0 0, B 0 1; A 1 0, A 1 1, B 1 0, B 1 1;
    C 0 0, C 0 1, D 0 0, D 0 1; C 1 0, C 1 1, D 1 0, D 1 1] : Op 4) := by
  ext i j; fin_cases i <;> fin_cases j <;> rfl

theorem blk_one' (A B C D : Op 1) : blk A B C D = (!![A 0 0, B 0 0; C 0 0, D 0 0] : Op 2) := by
  ext i j; fin_cases i <;> fin_cases j <;> rfl

/-! ## more about the exponential -/

theorem expm_intertwine {m k : ℕ} (M : Op m) (N : Op k) (X : Matrix (Fin m) (Fin k) ℂ)
    (h : M * X = X * N) : expm M * X = X * expm N := by
  letI := Matrix.linftyOpNormedRing (n := Fin m) (α := ℂ)
  letI := Matrix.linftyOpNormedAlgebra (n := Fin m) (R := ℂ) (α := ℂ)
  letI := Matrix.linftyOpNormedRing (n := Fin k) (α := ℂ)
  letI := Matrix.linftyOpNormedAlgebra (n := Fin k) (R := ℂ) (α := ℂ)
  have hp : ∀ j : ℕ, M ^ j * X = X * N ^ j := by
    intro j
    induction j with
    | zero => simp
    | succ j ih => rw [pow_succ, Matrix.mul_assoc, h, ← Matrix.mul_assoc, ih, Matrix.mul_assoc, ← pow_succ]
  have h1 := (NormedSpace.exp_series_hasSum_exp' (𝕂 := ℂ) M).map
    (Matrix.addMonoidHomMulRight X) (continuous_id.matrix_mul continuous_const)
  have h2 := (NormedSpace.exp_series_hasSum_exp' (𝕂 := ℂ) N).map
    (Matrix.addMonoidHomMulLeft X) (continuous_const.matrix_mul continuous_id)
  have hfun : (⇑X.addMonoidHomMulRight ∘ fun n : ℕ => ((n.factorial : ℂ)⁻¹) • M ^ n) =
      (⇑X.addMonoidHomMulLeft ∘ fun n : ℕ => ((n.factorial : ℂ)⁻¹) • N ^ n) := by
    funext j
    simp [addMonoidHomMulRight, addMonoidHomMulLeft, Matrix.smul_mul, Matrix.mul_smul, hp]
  rw [hfun] at h1
  exact h1.unique h2

theorem expm_comm {d : ℕ} {M P : Op d} (h : M * P = P * M) : expm M * P = P * expm M :=
  expm_intertwine M M P h

theorem expm_eigenvector {d : ℕ} (M : Op d) (v : Fin d → ℂ) (c : ℂ) (h : M *ᵥ v = c • v) :
    expm M *ᵥ v = Complex.exp c • v := by
  have h1 := expm_intertwine (k := 1) M (Matrix.diagonal fun _ => c) (Matrix.of fun i _ => v i) (by
    ext i j
    have := congrFun h i
    simp only [mulVec, dotProduct, Pi.smul_apply, smul_eq_mul] at this
    simp [mul_apply, this, mul_comm, Subsingleton.elim j 0])
  funext i
  have h2 := congrFun (congrFun h1 i) 0
  rw [expm, expm, Matrix.exp_diagonal] at h2
  simp only [mul_apply, of_apply, Finset.univ_unique, Finset.sum_singleton, diagonal_apply,
    Fin.default_eq_zero, if_true] at h2
  simp only [expm, mulVec, dotProduct, Pi.smul_apply, smul_eq_mul, h2, Pi.coe_exp]
  rw [mul_comm, Complex.exp_eq_exp_ℂ]

theorem quad_herm {m d : ℕ} {R : Op m} (hR : R.IsHermitian) (f : Fin m → Op d) :
    (Spec.quad R f).IsHermitian := by
  rw [IsHermitian, Spec.quad]
  simp only [conjTranspose_sum, conjTranspose_smul, conjTranspose_mul, conjTranspose_conjTranspose]
  rw [Finset.sum_comm]
  apply Finset.sum_congr rfl; intro i _
  apply Finset.sum_congr rfl; intro j _
  rw [← conjTranspose_apply, hR.eq]

open scoped ComplexOrder in
theorem gibbs_ok {d : ℕ} (hd : 0 < d) {Q : Op d} (hQ : Q.IsHermitian) :
    ((npTrace (expm (-Q)))⁻¹ • expm (-Q)).PosDef ∧ ((npTrace (expm (-Q)))⁻¹ • expm (-Q)).trace = 1 := by
  have h := expm_posDef hQ.neg
  haveI : Nonempty (Fin d) := ⟨⟨0, hd⟩⟩
  have ht : 0 < (expm (-Q)).trace := h.trace_pos
  rw [npTrace_eq]
  refine ⟨h.smul ?_, ?_⟩
  · exact inv_pos.2 ht
  · rw [trace_smul, smul_eq_mul, inv_mul_cancel₀ ht.ne']

theorem ggs_coeff {n : ℕ} {H : Op (n + n)} (hne : n + n ≠ 2 ^ n) {l : List (Op (2 ^ n))} {Q : Op (2 ^ n)}
    (hQ : buildOp n H l false = .ok Q) :
    generateGaussianState n H (some l) = .ok (some ((npTrace (expm (-Q)))⁻¹ • expm (-Q))) := by
  rw [generateGaussianState]
  simp only [Option.getD_some]
  rw [if_pos (by omega), hQ]
  simp only [dif_neg hne]
  rfl

theorem ggs_op {n h : ℕ} (e : h = 2 ^ n) (H : Op h) {l : List (Op (2 ^ n))}
    (hb : h = 2 * n → ∃ Q, buildOp n H l false = .ok Q) :
    generateGaussianState n H (some l) =
      .ok (some ((npTrace (expm (-(castOp e H))))⁻¹ • expm (-(castOp e H)))) := by
  rw [generateGaussianState]
  simp only [Option.getD_some]
  by_cases h2 : h = 2 * n
  · obtain ⟨Q, hQ⟩ := hb h2
    rw [if_pos h2, hQ]
    simp only [dif_pos e]
    rfl
  · rw [if_neg h2]
    simp only [dif_pos e]
    rfl

/-! ## correlation matrices of states -/

open scoped ComplexOrder in
theorem eta_psd {m d : ℕ} {rho : Op d} (h : rho.PosSemidef) (f : Fin m → Op d) :
    (Matrix.of fun i j => (rho * (f i)ᴴ * f j).trace : Op m).PosSemidef := by
  apply PosSemidef.of_dotProduct_mulVec_nonneg
  · ext i j
    simp only [conjTranspose_apply, of_apply]
    rw [← trace_conjTranspose]
    simp only [conjTranspose_mul, conjTranspose_conjTranspose, h.isHermitian.eq]
    rw [trace_mul_cycle', mul_assoc]
  · intro x
    set B : Op d := ∑ j, x j • f j
    have e : star x ⬝ᵥ ((Matrix.of fun i j => (rho * (f i)ᴴ * f j).trace : Op m) *ᵥ x) =
        (B * rho * Bᴴ).trace := by
      rw [trace_mul_comm, ← mul_assoc, trace_mul_comm]
      simp only [B, conjTranspose_sum, conjTranspose_smul, dotProduct, mulVec, of_apply, Finset.mul_sum,
        Finset.sum_mul, trace_sum, Matrix.mul_smul, Matrix.smul_mul, trace_smul, smul_eq_mul, Pi.star_apply,
        mul_assoc]
      rw [Finset.sum_comm]
      apply Finset.sum_congr rfl; intro i _
      apply Finset.sum_congr rfl; intro j _
      ring
    rw [e]
    exact (h.mul_mul_conjTranspose_same B).trace_nonneg

theorem number_diag {n : ℕ} (i : Fin n) :
    (jwLower n i)ᴴ * jwLower n i = diagonal fun x : Fin (2 ^ n) => ((Spec.digit 2 n x i : ℕ) : ℂ) := by
  apply Matrix.ext_of_mulVec_single
  intro x
  have hx : x = bIdx (Spec.digit 2 n x) := (eq_bIdx _ _).2 rfl
  have hf : (Pi.single x 1 : Fin (2 ^ n) → ℂ) = Spec.fock (Spec.digit 2 n x) := by
    rw [fock_eq, ← hx]
  rw [hf, ← mulVec_mulVec, jwLower_fock]
  set b := Spec.digit 2 n (x : ℕ)
  have hD : (diagonal fun x : Fin (2 ^ n) => ((Spec.digit 2 n x i : ℕ) : ℂ)) *ᵥ Spec.fock b =
      ((b i : ℕ) : ℂ) • Spec.fock b := by
    funext y
    rw [mulVec_diagonal, fock_eq, Pi.smul_apply, smul_eq_mul]
    by_cases hy : y = bIdx b
    · rw [(eq_bIdx _ _).1 hy]
    · simp [hy]
  rw [hD]
  by_cases h : b i = 1
  · rw [if_pos h, mulVec_smul, jwRaise_fock, if_pos (by simp), h]
    have e1 : (∑ k : Fin n, if k < i then ((Function.update b i 0 k : Fin 2) : ℕ) else 0) =
        ∑ k : Fin n, if k < i then (b k : ℕ) else 0 := by
      apply Finset.sum_congr rfl
      intro k _
      split_ifs with hk
      · rw [Function.update_of_ne hk.ne]
      · rfl
    rw [e1, smul_smul, ← pow_add, Even.neg_one_pow ⟨_, rfl⟩, Function.update_idem, ← h,
      Function.update_eq_self, h]
    simp
  · have h0 : b i = 0 := by
      have := (b i).2
      apply Fin.ext
      have : (b i : ℕ) ≠ 1 := fun e => h (Fin.ext e)
      simp; omega
    rw [if_neg h, h0]; simp

end FF
