import Verif.Proofs.Shapes2

/-!
# C127: arrays of unexpected shapes

The documentation asks for `N x N` blocks in `build_V` and `build_H`, `2N x 2N` arrays in `is_symp`, `eigh_sp`,
`eigv_sp`, `eigm_sp` and `eigm_sp_can`, `2^N x 2^N` arrays in the correlation functions, and square arrays in the
partial traces. The full property would be: for every other shape an exception is raised. It holds for the
eigenvector functions only. The theorems below determine, for every shape, whether an array is accepted and what
is returned; `C127_not_rejected` collects the violations.
-/

namespace FF.Props

open FF Spec

/-! ## build_H and build_V -/

/-- The second block as used by `build_V` and `build_H`: a missing one counts as zero. -/
def FillsOpt (n : ℕ) (B : Option NdArr) (M : Op n) : Prop :=
  match B with
  | none => M = 0
  | some B => Fills n B M

theorem blkS_eq {n : ℕ} {A B C D : NdArr} {MA MB MC MD : Op n} (hA : Fills n A MA) (hB : Fills n B MB)
    (hC : Fills n C MC) (hD : Fills n D MD) : blkS n A B C D = .ok (blk MA MB MC MD) := by
  unfold blkS
  rw [assign_fills hA, assign_fills hB, assign_fills hC, assign_fills hD]
  rfl

theorem blkS_error {n : ℕ} {A B C D : NdArr} (h : (∀ M, ¬ Fills n A M) ∨ (∀ M, ¬ Fills n B M)) :
    blkS n A B C D = .error .valueError := by
  unfold blkS
  rcases assign_cases A n with ⟨M, hM, hM'⟩ | ⟨hM, -⟩
  · rw [hM]
    have h2 := h.resolve_left (fun h => h M hM')
    rcases assign_cases B n with ⟨N, _, hN'⟩ | ⟨hN, -⟩
    · exact absurd hN' (h2 N)
    · rw [hN]; rfl
  · rw [hM]; rfl

/-- `build_H(n, A, B)` for arrays of any shapes: it returns exactly if `A` and `B` stand for `n x n` blocks in
one of the ways of `Fills`, and then the array documented for these blocks; otherwise it raises
`ValueError`. -/
theorem C127_build_H (n : ℕ) (A : NdArr) (B : Option NdArr) :
    (∀ MA MB, Fills n A MA → FillsOpt n B MB → buildHS n A B = .ok (buildH n MA (some MB))) ∧
      ((¬ ∃ MA MB, Fills n A MA ∧ FillsOpt n B MB) → buildHS n A B = .error .valueError) := by
  constructor
  · intro MA MB hA hB
    cases B with
    | none =>
      have hB : MB = 0 := hB
      subst hB
      exact blkS_eq hA.neg_conj hA.zeros hA.zeros.neg_conj hA
    | some B =>
      have hB : Fills n B MB := hB
      exact blkS_eq hA.neg_conj hB hB.neg_conj hA
  · intro h
    by_cases hA : ∃ MA, Fills n A MA
    · obtain ⟨MA, hA⟩ := hA
      cases B with
      | none => exact absurd ⟨MA, 0, hA, rfl⟩ h
      | some B => exact blkS_error (.inr fun M hM => h ⟨MA, M, hA, hM⟩)
    · exact blkS_error (.inl (not_fills_neg_conj fun M hM => hA ⟨M, hM⟩))

/-- `build_V(n, A, Z)` for arrays of any shapes, as `C127_build_H`. -/
theorem C127_build_V (n : ℕ) (A : NdArr) (Z : Option NdArr) :
    (∀ MA MZ, Fills n A MA → FillsOpt n Z MZ → buildVS n A Z = .ok (buildV n MA (some MZ))) ∧
      ((¬ ∃ MA MZ, Fills n A MA ∧ FillsOpt n Z MZ) → buildVS n A Z = .error .valueError) := by
  constructor
  · intro MA MZ hA hZ
    cases Z with
    | none =>
      have hZ : MZ = 0 := hZ
      subst hZ
      exact blkS_eq hA.zeros.neg_conj hA hA.neg_conj hA.zeros
    | some Z =>
      have hZ : Fills n Z MZ := hZ
      exact blkS_eq hZ.neg_conj hA hA.neg_conj hZ
  · intro h
    by_cases hA : ∃ MA, Fills n A MA
    · obtain ⟨MA, hA⟩ := hA
      cases Z with
      | none => exact absurd ⟨MA, 0, hA, rfl⟩ h
      | some Z => exact blkS_error (.inl (not_fills_neg_conj fun M hM => h ⟨MA, M, hA, hM⟩))
    · refine blkS_error (.inr fun M hM => hA ⟨M, hM⟩)

/-- On `n x n` arrays these are the functions modelled elsewhere. -/
theorem C127_build_square (n : ℕ) (A B : Op n) (a b : NdArr) (ha : a.shape = [n, n]) (hb : b.shape = [n, n])
    (hA : ∀ i j : Fin n, a.val [(i : ℕ), (j : ℕ)] = A i j) (hB : ∀ i j : Fin n, b.val [(i : ℕ), (j : ℕ)] = B i j) :
    buildHS n a (some b) = .ok (buildH n A (some B)) ∧ buildHS n a none = .ok (buildH n A none) ∧
      buildVS n a (some b) = .ok (buildV n A (some B)) ∧ buildVS n a none = .ok (buildV n A none) := by
  have fa : Fills n a A := .full 0 (by simpa using ha) fun i j => by simp [hA]
  have fb : Fills n b B := .full 0 (by simpa using hb) fun i j => by simp [hB]
  exact ⟨(C127_build_H n a (some b)).1 A B fa fb, (C127_build_H n a none).1 A 0 fa rfl,
    (C127_build_V n a (some b)).1 A B fa fb, (C127_build_V n a none).1 A 0 fa rfl⟩

/-- The vector of the numbers `e 0, ..., e (n - 1)`. -/
def vecArr (n : ℕ) (e : ℕ → ℂ) : NdArr := ⟨[n], fun l => e (l.headD 0)⟩

theorem blk_apply22 {n : ℕ} (A B C D : Op n) (i j : Fin n) :
    blk A B C D (Fin.natAdd n i) (Fin.natAdd n j) = D i j := by
  simp only [blk, Matrix.submatrix_apply, finSumFinEquiv_symm_apply_natAdd, Matrix.fromBlocks_apply₂₂]

/-- A vector `e` of on-site energies is accepted by `build_H`, but not as a diagonal: all rows of the block are
equal to `e`. The result is Hermitian only if all energies are equal and real. -/
theorem C127_vector (n : ℕ) (e : ℕ → ℂ) :
    ∃ H, buildHS n (vecArr n e) none = .ok H ∧
      (∀ i j : Fin n, H (Fin.natAdd n i) (Fin.natAdd n j) = e j) ∧
      (H.IsHermitian ↔ ∀ i j : Fin n, e i = star (e j)) := by
  have hf : Fills n (vecArr n e) (Matrix.of fun _ j : Fin n => e j) :=
    .row 0 rfl fun i j => rfl
  refine ⟨_, (C127_build_H n (vecArr n e) none).1 _ 0 hf rfl, ?_, ?_⟩
  · intro i j
    simp only [buildH]
    rw [blk_apply22]
    rfl
  · constructor
    · intro h i j
      have := h.apply (Fin.natAdd n j) (Fin.natAdd n i)
      simp only [buildH] at this
      rw [blk_apply22, blk_apply22] at this
      exact this.symm
    · intro h
      ext i j
      refine Fin.addCases (fun i => ?_) (fun i => ?_) i <;> refine Fin.addCases (fun j => ?_) (fun j => ?_) j
      all_goals
        simp only [buildH, blk, Matrix.conjTranspose_apply, Matrix.submatrix_apply,
          finSumFinEquiv_symm_apply_natAdd, finSumFinEquiv_symm_apply_castAdd, Matrix.fromBlocks_apply₁₁,
          Matrix.fromBlocks_apply₁₂, Matrix.fromBlocks_apply₂₁, Matrix.fromBlocks_apply₂₂, cj, Matrix.neg_apply,
          Matrix.map_apply, Matrix.of_apply, Option.getD_some, Matrix.zero_apply, map_zero, neg_zero, star_zero,
          star_neg]
      · rw [h i j]; simp
      · exact (h j i).symm

/-! ## is_symp -/

/-- `is_symp` on a `2n x 2n` array is the function modelled elsewhere. -/
theorem C127_is_symp_even {n : ℕ} (A : Arr2) (U : Op (n + n)) (h : Holds A U) :
    isSympS A = .ok (isSymp U) := by
  classical
  obtain ⟨S, hS, hS'⟩ := sympS_even h.1 h.2.1
  rw [isSympS_of h (.inl (by omega)) hS hS']
  congr 1
  unfold isSymp
  by_cases h1 : allclose (U * swapS n * U.transpose) (swapS n) <;> simp [h1]

/-- `is_symp` also accepts `3 x 3` arrays, for which there is no symplectic form: the array it compares with is
`[[0, 1, 1], [1, 0, 0], [1, 0, 0]]`. -/
theorem C127_is_symp_three (A : Arr2) (U : Op 3) (h : Holds A U) :
    isSympS A = .ok (open Classical in decide (allclose
      (U * !![0, 1, 1; 1, 0, 0; 1, 0, 0] * U.transpose) !![0, 1, 1; 1, 0, 0; 1, 0, 0])) := by
  obtain ⟨S, hS, hS'⟩ := sympS_three h.1 h.2.1
  exact isSympS_of h (.inr rfl) hS hS'

/-- All other shapes are rejected. -/
theorem C127_is_symp_rejects (A : Arr2) (h : ¬ (A.rows = A.cols ∧ (A.rows % 2 = 0 ∨ A.rows = 3))) :
    isSympS A = .error .valueError := by
  cases hr : isSympS A with
  | ok b => exact absurd (isSympS_shape hr) h
  | error e => rw [isSympS_ve A e hr]

/-! ## eigenvectors -/

section eigen
variable (schur : (n : ℕ) → RMat (n + n) → RMat (n + n) × RMat (n + n)) (argsort : (n : ℕ) → (Fin n → ℝ) → Fin n → ℕ)

/-- `eigh_sp`, `eigv_sp` and `eigm_sp` raise `ValueError` for every array that is not square of even size. -/
theorem C127_eigen_rejects (A : Arr2) (h : ¬ (A.rows = A.cols ∧ A.rows % 2 = 0)) :
    eighSpS A schur argsort = .error .valueError ∧ eigvSpS A schur argsort = .error .valueError ∧
      eigmSpS A schur argsort = .error .valueError := by
  refine ⟨eighSpS_error h schur argsort, ?_, ?_⟩
  · unfold eigvSpS
    dsimp only
    by_cases h1 : A.rows / 2 + A.rows / 2 = A.rows
    · obtain ⟨B, hB, hB'⟩ := (matmul_ofMat_left (swapS (A.rows / 2)) A).1 h1.symm
      rw [hB]
      change (eighSpS B schur argsort >>= _) = _
      rw [eighSpS_error]
      · rfl
      · rw [hB'.1, hB'.2.1]
        omega
    · rw [(matmul_ofMat_left (swapS (A.rows / 2)) A).2 (Ne.symm h1)]
      rfl
  · unfold eigmSpS
    dsimp only
    have hO : Holds (Arr2.ofMat (buildOmega (A.rows / 2))).conj.transpose
        (cj (buildOmega (A.rows / 2))).transpose := holds_transpose (holds_conj (holds_ofMat _))
    by_cases h1 : A.rows / 2 + A.rows / 2 = A.rows
    · obtain ⟨B, hB, hB'⟩ := matmul_holds hO (holds_toMat h1.symm rfl)
      rw [hB]
      change (B.matmul _ >>= _) = _
      rw [matmul_error]
      · rfl
      · rw [hB'.2.1]
        intro h2
        have h2 : A.cols = A.rows / 2 + A.rows / 2 := h2
        exact h ⟨by omega, by omega⟩
    · rw [matmul_error]
      · rfl
      · rw [hO.2.1]; exact h1

/-- `eigm_sp_can` also rejects them, with `AssertionError` if the entries are not imaginary. -/
theorem C127_eigm_can_rejects (A : Arr2) (h : ¬ (A.rows = A.cols ∧ A.rows % 2 = 0)) :
    ((∀ i < A.rows, ∀ j < A.cols, isclose (A.val i j) (Complex.I * ((A.val i j).im : ℂ))) →
      eigmSpCanS A schur argsort = .error .valueError) ∧
    ((¬ ∀ i < A.rows, ∀ j < A.cols, isclose (A.val i j) (Complex.I * ((A.val i j).im : ℂ))) →
      eigmSpCanS A schur argsort = .error .assertionError) := by
  constructor
  · intro hi
    unfold eigmSpCanS pyAssert
    rw [if_pos hi]
    dsimp only
    change (if A.rows ≠ A.cols then _ else _) = _
    split
    · rfl
    · rename_i h1
      have h1 := not_not.1 h1
      rw [matmul_error]
      · rfl
      · intro h2
        have h2 : A.rows / 2 + A.rows / 2 = A.rows := h2
        exact h ⟨h1, by omega⟩
  · intro hi
    unfold eigmSpCanS pyAssert
    rw [if_neg hi]
    rfl

/-- On `2n x 2n` arrays these are the functions modelled elsewhere. -/
theorem C127_eigen_square {n : ℕ} (A : Arr2) (H : Op (n + n)) (hA : Holds A H) :
    eighSpS A schur argsort = (eighSp (schur n) (argsort n) H >>= fun r => pure ⟨n, r⟩) ∧
      eigvSpS A schur argsort = (eigvSp (schur n) (argsort n) H >>= fun r => pure ⟨n, r⟩) ∧
      eigmSpS A schur argsort = (eigmSp (schur n) (argsort n) H >>= fun r => pure ⟨n, r⟩) ∧
      eigmSpCanS A schur argsort = (eigmSpCan (schur n) (argsort n) H >>= fun r => pure ⟨n, r⟩) := by
  have hn : A.rows / 2 = n := by rw [hA.1]; omega
  have hO : Holds (Arr2.ofMat (buildOmega n)).conj.transpose (buildOmega n).conjTranspose :=
    holds_transpose (holds_conj (holds_ofMat _))
  obtain ⟨B, hB, hB'⟩ := matmul_holds hO hA
  obtain ⟨C, hC, hC'⟩ := matmul_holds hB' (holds_ofMat (buildOmega n))
  refine ⟨eighSpS_holds hA schur argsort, ?_, ?_, ?_⟩
  · unfold eigvSpS eigvSp
    dsimp only
    rw [hn]
    obtain ⟨B, hB, hB'⟩ := matmul_holds (holds_ofMat (swapS n)) hA
    rw [hB]
    change (eighSpS B schur argsort >>= _) = _
    rw [eighSpS_holds hB']
    simp only [bind_assoc, pure_bind]
  · unfold eigmSpS eigmSp
    dsimp only
    rw [hn, hB]
    change (B.matmul _ >>= _) = _
    rw [hC]
    change (eighSpS C schur argsort >>= _) = _
    rw [eighSpS_holds hC']
    simp only [bind_assoc, pure_bind, toMat_of_holds hA]
  · have hc : (∀ i < A.rows, ∀ j < A.cols, isclose (A.val i j) (Complex.I * ((A.val i j).im : ℂ))) ↔
        allclose H (Complex.I • toC (imArr H)) := by
      constructor
      · intro h i j
        have := h i (by rw [hA.1]; exact i.2) j (by rw [hA.2.1]; exact j.2)
        rw [hA.2.2] at this
        exact this
      · intro h i hi j hj
        have := h ⟨i, hA.1 ▸ hi⟩ ⟨j, hA.2.1 ▸ hj⟩
        rw [hA.2.2 ⟨i, hA.1 ▸ hi⟩ ⟨j, hA.2.1 ▸ hj⟩]
        exact this
    unfold eigmSpCanS
    dsimp only
    rw [hn, toMat_of_holds hA, hB, if_neg (by rw [hA.1, hA.2.1]; simp)]
    by_cases h1 : allclose H (Complex.I • toC (imArr H))
    · have e1 : pyAssert (∀ i < A.rows, ∀ j < A.cols, isclose (A.val i j) (Complex.I * ((A.val i j).im : ℂ))) =
          .ok () := if_pos (hc.2 h1)
      rw [e1]
      change (B.matmul _ >>= _) = _
      rw [hC]
      rfl
    · have e1 : pyAssert (∀ i < A.rows, ∀ j < A.cols, isclose (A.val i j) (Complex.I * ((A.val i j).im : ℂ))) =
          .error .assertionError := if_neg (fun h => h1 (hc.1 h))
      have e2 : eigmSpCan (schur n) (argsort n) H = .error .assertionError := by
        unfold eigmSpCan
        rw [show pyAssert (allclose H (Complex.I • toC (imArr H))) = .error .assertionError from if_neg h1]
        rfl
      rw [e1, e2]
      rfl

end eigen

/-! ## correlation matrices -/

/-- `compute_2corr_matrix` and `compute_cov_matrix` only look at the number of columns of `rho`. If it is the
size of the operators, missing rows count as zero and additional rows are ignored; otherwise `ValueError`
is raised. -/
theorem C127_correlations {d : ℕ} (rho : Arr2) (n : ℕ) (alphas : List (Op d)) (conjugation : Option ℤ) :
    (rho.cols = d →
      compute2CorrS rho n alphas conjugation = compute2Corr (resize rho d) n alphas conjugation ∧
      (computeCovMatrixS rho n alphas >>= fun G => pure ⟨n, G⟩) =
        computeCovMatrix (resize rho d) (some n) alphas) ∧
    (rho.cols ≠ d → 1 ≤ n → alphas ≠ [] →
      compute2CorrS rho n alphas conjugation = .error .valueError ∧
      computeCovMatrixS rho n alphas = .error .valueError) ∧
    (∀ M : Op d, Holds rho M → resize rho d = M) :=
  ⟨fun h => ⟨compute2CorrS_eq rho h n alphas conjugation, computeCovMatrixS_eq rho h n alphas⟩,
    fun h hn ha => ⟨compute2CorrS_error rho h hn ha conjugation, computeCovMatrixS_error rho h hn ha⟩,
    fun _ h => resize_holds h⟩

/-- `correlation_matrix` raises OverflowError for an array without rows. -/
theorem C127_correlation_matrix_no_rows (rho : Arr2) (h0 : rho.rows = 0) :
    correlationMatrixS rho = .error .overflowError := by
  unfold correlationMatrixS
  rw [if_pos h0]

/-- `correlation_matrix` takes the number of sites from the number of rows: `n`, if `log2` of it rounds to `n`.
For `n ≥ 1` the number of columns must be `2^n`; an array with a single row gives an empty array, whatever
its number of columns. -/
theorem C127_correlation_matrix (rho : Arr2) (n : ℕ) (h0 : rho.rows ≠ 0)
    (hn : (rint (Real.logb 2 rho.rows)).toNat = n) :
    (rho.cols = 2 ^ n ∨ n = 0 → ∃ G, correlationMatrixS rho = .ok ⟨n, G⟩ ∧
      ∀ i j : Fin (n + n), ∃ ai aj, (jordanWignerAlphas n)[(i : ℕ)]? = some ai ∧
        (jordanWignerAlphas n)[(j : ℕ)]? = some aj ∧ G i j = npTrace (resize rho (2 ^ n) * ai * aj)) ∧
    (rho.cols ≠ 2 ^ n → 1 ≤ n → correlationMatrixS rho = .error .valueError) := by
  have hlen : (jordanWignerAlphas n).length = n + n := by simp [jordanWignerAlphas, jordanWignerLowering]
  have hget : ∀ i : Fin (n + n), ∃ a, (jordanWignerAlphas n)[(i : ℕ)]? = some a := fun i =>
    ⟨_, List.getElem?_eq_getElem (by rw [hlen]; exact i.2)⟩
  choose al hal using hget
  unfold correlationMatrixS
  rw [if_neg h0]
  dsimp only
  rw [hn]
  constructor
  · intro h
    by_cases hc : rho.cols = 2 ^ n
    · have : compute2CorrS rho n (jordanWignerAlphas n) none =
          .ok (Matrix.of fun i j => npTrace (resize rho (2 ^ n) * al i * al j)) := by
        rw [compute2CorrS_eq rho hc]
        unfold compute2Corr
        refine fillArray_ok fun i j => ?_
        rw [listGet_some (hal i), listGet_some (hal j)]
        rfl
      rw [this]
      exact ⟨_, rfl, fun i j => ⟨al i, al j, hal i, hal j, rfl⟩⟩
    · have hn0 : n = 0 := h.resolve_left hc
      subst hn0
      exact ⟨_, rfl, fun i => i.elim0⟩
  · intro hc hn1
    rw [compute2CorrS_error rho hc hn1 (by
      intro h
      rw [h] at hlen
      simp only [List.length_nil] at hlen
      omega)]
    rfl

/-! ## Gaussian states -/

/-- `generate_gaussian_state` for arrays with any numbers of rows and columns. It looks at the number of rows
only: for `2n ≠ 2^n` rows additional columns are ignored, and missing ones raise `IndexError`; for `2^n`
rows that are not square an exception is raised; for other numbers of rows it returns 0. -/
theorem C127_gaussian {m k : ℕ} (n : ℕ) (H : Matrix (Fin m) (Fin k) ℂ) (alphas : Option (List (Op (2 ^ n)))) :
    (m ≠ 2 * n → m ≠ 2 ^ n → generateGaussianStateS n H alphas = .ok none) ∧
    (m = 2 * n → k < 2 * n → generateGaussianStateS n H alphas = .error .indexError) ∧
    (∀ hk : m ≤ k, m = 2 * n → m ≠ 2 ^ n → generateGaussianStateS n H alphas =
      generateGaussianState n (H.submatrix id (Fin.castLE hk)) alphas) ∧
    (m ≠ 2 * n → m = 2 ^ n → k ≠ m → generateGaussianStateS n H alphas = .error .linAlgError) ∧
    (m = 2 * n → m = 2 ^ n → m < k → alphas = none → generateGaussianStateS n H alphas = .error .linAlgError) := by
  unfold generateGaussianStateS
  dsimp only
  refine ⟨?_, ?_, ?_, ?_, ?_⟩
  · intro h1 h2
    simp only [if_neg h1, if_neg h2]
    rfl
  · intro h1 h2
    rw [if_pos h1, buildOp_narrow n H _ false (.inr h2)]
    rfl
  · intro hk h1 h2
    unfold generateGaussianState
    dsimp only
    simp only [if_pos h1, if_neg h2, dif_neg h2]
    have : buildOp n H (alphas.getD (jordanWignerAlphas n)) false =
        buildOp n (H.submatrix id (Fin.castLE hk)) (alphas.getD (jordanWignerAlphas n)) false := by
      refine buildOp_congr n _ _ _ _ fun i hi j hj => ?_
      unfold get2
      rw [dif_pos (by omega), dif_pos (by omega)]
      rfl
    rw [this]
    cases buildOp n (H.submatrix id (Fin.castLE hk)) (alphas.getD (jordanWignerAlphas n)) false with
    | error e => rfl
    | ok r =>
      simp only [bind, Except.bind, pure, Except.pure]
      rw [dif_pos (by simp)]
      rfl
  · intro h1 h2 h3
    simp only [if_neg h1, if_pos h2, bind, Except.bind, pure, Except.pure]
    rw [dif_neg (by rintro ⟨-, h⟩; exact h3 h)]
  · intro h1 h2 h3 h4
    subst h4
    have hn1 : 1 ≤ n := by
      rcases Nat.eq_zero_or_pos n with rfl | h
      · simp at h1 h2; omega
      · exact h
    simp only [if_pos h1, if_pos h2]
    have hlen : (jordanWignerAlphas n).length = n + n := by simp [jordanWignerAlphas, jordanWignerLowering]
    have hget : ∀ i : Fin (n + n), ∃ a, (jordanWignerAlphas n)[(i : ℕ)]? = some a := fun i =>
      ⟨_, List.getElem?_eq_getElem (by rw [hlen]; exact i.2)⟩
    choose al hal using hget
    rw [Option.getD_none, buildOp_ok H (jordanWignerAlphas n) al hal (by omega) (by omega) hn1]
    simp only [bind, Except.bind, pure, Except.pure]
    rw [dif_neg (by rintro ⟨-, h⟩; omega)]

/-- On square arrays it is the function modelled elsewhere. -/
theorem C127_gaussian_square {m : ℕ} (n : ℕ) (H : Op m) (alphas : Option (List (Op (2 ^ n)))) :
    generateGaussianStateS n H alphas = generateGaussianState n H alphas := by
  unfold generateGaussianStateS generateGaussianState
  dsimp only
  by_cases h2 : m = 2 ^ n
  · subst h2
    simp only [if_true, dif_pos trivial, and_self]
    congr 1
  · simp only [if_neg h2, dif_neg h2]
    by_cases h1 : m = 2 * n
    · simp only [if_pos h1]
      cases buildOp n H (alphas.getD (jordanWignerAlphas n)) false with
      | error e => rfl
      | ok r =>
        simp only [bind, Except.bind, pure, Except.pure]
        rw [dif_pos (by simp)]
        rfl
    · simp only [if_neg h1]
      rfl

/-! ## partial traces -/

/-- `partial_trace_over_1` on an array with `d q` rows: it returns exactly if there are at least as many columns as
rows, or exactly one column of the last block is there (or there are no rows). Additional columns are
ignored; a single column of the last block is used for all its columns. -/
theorem C127_partial_trace_1 (AB : Arr2) (d q : ℕ) (hd : 1 ≤ d) (hq : 1 ≤ q) (hD : AB.rows = d * q) :
    (d * q ≤ AB.cols → ∃ A M, partialTraceOver1S AB d = .ok A ∧
      partialTraceOver1 (resize AB AB.rows) d = .ok M ∧ Holds A M) ∧
    (AB.cols = d * (q - 1) + 1 → ∃ A, partialTraceOver1S AB d = .ok A ∧ A.rows = d ∧ A.cols = d ∧
      ∀ x < d, ∀ y < d, A.val x y =
        ∑ j ∈ Finset.range (q - 1), AB.val (j * d + x) (j * d + y) + AB.val ((q - 1) * d + x) ((q - 1) * d)) ∧
    (AB.cols < d * q → AB.cols ≠ d * (q - 1) + 1 → partialTraceOver1S AB d = .error .valueError) := by
  have hb : blockCount AB.rows d = .ok q := by rw [hD]; exact blockCount_ok' (by omega)
  have e1 : d * q = (q - 1) * d + d := by
    obtain ⟨p, rfl⟩ : ∃ p, q = p + 1 := ⟨q - 1, by omega⟩
    simp; ring
  have e2 : d * (q - 1) = (q - 1) * d := mul_comm _ _
  have run : partialTraceOver1S AB d = (List.range q).foldlM (fun A j =>
      A.addInPlace (AB.slice (j * d) (j * d + d) (j * d) (j * d + d))) (Arr2.zeros d d) := by
    unfold partialTraceOver1S; rw [hb]; rfl
  refine ⟨?_, ?_, ?_⟩
  · intro hE
    obtain ⟨A, hA, h1, h2, h3⟩ := trace1_fold AB hD ((widths hd hq).2 (.inl hE)) q le_rfl
    refine ⟨A, Matrix.of fun x y => A.val x y, run.trans hA, ?_, h1, h2, fun _ _ => rfl⟩
    unfold partialTraceOver1
    rw [hb]
    change Except.ok _ = _
    congr 1
    rw [foldl_add_eq_sum, sum_map_range, zero_add]
    ext x y
    rw [Matrix.sum_apply, Matrix.of_apply, h3 x x.2 y y.2, Finset.sum_range]
    refine Finset.sum_congr rfl fun j _ => ?_
    have hj : (j + 1 : ℕ) * d ≤ q * d := Nat.mul_le_mul_right d j.2
    have ej : (j + 1 : ℕ) * d = j * d + d := by ring
    have eq : d * q = q * d := mul_comm _ _
    have hx := x.2
    have hy := y.2
    have hw : blockWidth d AB.cols j = d := by unfold blockWidth; omega
    rw [hw, pick1_lt hy, Matrix.of_apply]
    unfold entry
    rw [dif_pos (by omega)]
    simp only [resize, Matrix.of_apply]
    rw [if_pos (by omega)]
  · intro hE
    obtain ⟨A, hA, h1, h2, h3⟩ := trace1_fold AB hD ((widths hd hq).2 (.inr hE)) q le_rfl
    refine ⟨A, run.trans hA, h1, h2, fun x hx y hy => ?_⟩
    rw [h3 x hx y hy]
    obtain ⟨p, rfl⟩ : ∃ p, q = p + 1 := ⟨q - 1, by omega⟩
    simp only [Nat.add_sub_cancel] at e1 e2 hE ⊢
    rw [Finset.sum_range_succ]
    congr 1
    · refine Finset.sum_congr rfl fun j hj => ?_
      have hj := Finset.mem_range.1 hj
      have e3 : (j + 1) * d ≤ p * d := Nat.mul_le_mul_right d hj
      have e4 : (j + 1) * d = j * d + d := by ring
      have hw : blockWidth d AB.cols j = d := by unfold blockWidth; omega
      rw [hw, pick1_lt hy]
    · have hw : blockWidth d AB.cols p = 1 := by unfold blockWidth; omega
      rw [hw]; simp [pick1]
  · intro h1 h2
    have : ¬ ∀ j < q, blockWidth d AB.cols j = 1 ∨ blockWidth d AB.cols j = d := by
      rw [widths hd hq]; omega
    push Not at this
    obtain ⟨j, hj, hw1, hw2⟩ := this
    exact trace1_error AB hd hD hj (by tauto)

/-- `partial_trace_over_2` never looks at the number of columns: additional columns are ignored, missing ones count
as zero. -/
theorem C127_partial_trace_2 (AB : Arr2) (d : ℕ) :
    partialTraceOver2S AB d = partialTraceOver2 (resize AB AB.rows) d := by
  unfold partialTraceOver2S partialTraceOver2
  cases hb : blockCount AB.rows d with
  | error e => rfl
  | ok q =>
    have hD := (blockCount_spec hb).2
    simp only [bind, Except.bind]
    have : (Matrix.of fun i j : Fin d => (AB.slice (i * q) (i * q + q) (j * q) (j * q + q)).trace) =
        Matrix.of fun i j : Fin d => (List.range q).foldl
          (fun t k => t + entry (resize AB AB.rows) (i * q + k) (j * q + k)) 0 := by
      ext i j
      exact trace2_entry AB hD i j
    rw [this]

/-! ## the violations -/

/-- Shapes that contradict the documentation are not always rejected: `build_H` takes a vector of two different
energies and returns an array that is not Hermitian; `is_symp` calls the `3 x 3` identity symplectic;
`correlation_matrix` returns an empty array for a row of any length; `partial_trace_over_1` and
`partial_trace_over_2` accept a `2 x 1` array for `d = 2`. -/
theorem C127_not_rejected :
    (∃ H, buildHS 2 (vecArr 2 fun k => k) none = .ok H ∧ ¬ H.IsHermitian) ∧
    isSympS (.ofMat (1 : Op 3)) = .ok true ∧
    (∀ k, ∃ G, correlationMatrixS (.ofMat (0 : Matrix (Fin 1) (Fin k) ℂ)) = .ok ⟨0, G⟩) ∧
    (∃ A, partialTraceOver1S (.ofMat (Matrix.of fun _ _ => 1 : Matrix (Fin 2) (Fin 1) ℂ)) 2 = .ok A) ∧
    (∃ A, partialTraceOver2S (.ofMat (Matrix.of fun _ _ => 1 : Matrix (Fin 2) (Fin 1) ℂ)) 2 = .ok A) := by
  classical
  refine ⟨?_, ?_, ?_, ?_, ?_⟩
  · obtain ⟨H, h1, -, h3⟩ := C127_vector 2 fun k => k
    refine ⟨H, h1, fun h => ?_⟩
    have := h3.1 h 0 1
    simp at this
  · rw [C127_is_symp_three _ 1 (holds_ofMat 1)]
    congr 1
    rw [decide_eq_true_iff, one_mul, Matrix.transpose_one, mul_one]
    intro i j
    simp only [isclose, sub_self, norm_zero]
    positivity
  · intro k
    obtain ⟨G, hG, -⟩ := (C127_correlation_matrix (.ofMat (0 : Matrix (Fin 1) (Fin k) ℂ)) 0 (by simp [Arr2.ofMat])
      (by simp [Arr2.ofMat, rint])).1 (.inr rfl)
    exact ⟨G, hG⟩
  · obtain ⟨A, hA, -⟩ := (C127_partial_trace_1 (.ofMat (Matrix.of fun _ _ => 1 : Matrix (Fin 2) (Fin 1) ℂ)) 2 1 (by omega) (by omega)
      (by simp [Arr2.ofMat])).2.1 (by simp [Arr2.ofMat])
    exact ⟨A, hA⟩
  · rw [C127_partial_trace_2]
    unfold partialTraceOver2
    rw [show blockCount (Arr2.ofMat (Matrix.of fun _ _ => 1 : Matrix (Fin 2) (Fin 1) ℂ)).rows 2 = .ok 1 from
      blockCount_ok' (by omega) (e := 1)]
    simp only [bind, Except.bind]
    split
    · exact ⟨_, rfl⟩
    · exact ⟨_, rfl⟩

-- the hypotheses can be met, and not only by arrays of the documented shapes
example : ∃ A : NdArr, ∃ M : Op 3, A.shape = [1, 3, 1] ∧ Fills 3 A M ∧ M 2 0 ≠ 0 :=
  ⟨⟨[1, 3, 1], fun l => (l.getD 1 0 : ℕ)⟩, Matrix.of fun i _ => (i : ℂ), rfl,
    .column 1 rfl fun i j => by simp, by simp⟩

example : ¬ ∃ M : Op 3, Fills 3 ⟨[2, 3], fun _ => 0⟩ M := by
  rintro ⟨M, ⟨k, hs, -⟩ | ⟨k, hs, -⟩ | ⟨k, hs, -⟩ | ⟨k, hs, -⟩⟩
  all_goals
    rcases k with _ | k
    · simp at hs
    · simp [List.replicate_succ] at hs

end FF.Props
