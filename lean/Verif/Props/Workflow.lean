import Verif.Props.Dynamics

/-!
# Properties C114 and C115: the checks and the energies that the documentation computes from `eigh_sp`

docs/examples.rst and docs/tutorials.rst pass the two results of `eigh_sp` to `is_symp` and `check_canonical_form`, and
read "positive" energies off the second half of the diagonal.
-/

namespace FF.Props

open Matrix
open scoped ComplexConjugate

/-! ## C114 -/

section
variable {n : ℕ}

theorem standardForm_conj_apply (s : Fin n → ℝ) (x y : Fin (n + n)) :
    conj (Spec.standardForm s x y) = Spec.standardForm s x y := by
  simp only [Spec.standardForm, diagonal_apply]
  split_ifs with h
  · refine Fin.addCases (fun i => ?_) (fun i => ?_) x
    · rw [Fin.append_left, Complex.conj_ofReal]
    · rw [Fin.append_right, Complex.conj_ofReal]
  · simp

theorem standardForm_diag_norm (s : Fin n → ℝ) (x : Fin (n + n)) :
    ∃ i, ‖Spec.standardForm s x x‖ = |s i| := by
  refine Fin.addCases (fun i => ⟨i, ?_⟩) (fun i => ⟨i, ?_⟩) x
  · rw [Spec.standardForm, diagonal_apply_eq, Fin.append_left, Complex.norm_real, Real.norm_eq_abs, abs_neg]
  · rw [Spec.standardForm, diagonal_apply_eq, Fin.append_right, Complex.norm_real, Real.norm_eq_abs]

theorem standardForm_right (s : Fin n → ℝ) (i : Fin n) :
    Spec.standardForm s (Fin.natAdd n i) (Fin.natAdd n i) = (s i : ℂ) := by
  rw [Spec.standardForm, diagonal_apply_eq, Fin.append_right]

theorem standardForm_off (s : Fin n → ℝ) {x y : Fin (n + n)} (h : x ≠ y) : Spec.standardForm s x y = 0 := by
  simp [Spec.standardForm, h]

/-- What `check_canonical_form` says about `diag(-Σ, Σ)`. -/
theorem canonical_standardForm (s : Fin n → ℝ) :
    checkCanonicalForm (Spec.standardForm s) = true ↔ ∀ i, 1.99999 * |s i| ≤ 1e-8 := by
  rw [C40_decides]
  constructor
  · rintro ⟨_, -, -, h, -⟩ i
    have := h (Fin.natAdd n i) (Fin.natAdd n i)
    simp only [submatrix_apply, id, Fin.cast_eq_self, standardForm_right, isclose, sub_neg_eq_add, norm_neg,
      ← two_mul, norm_mul, Complex.norm_ofNat, Complex.norm_real, Real.norm_eq_abs] at this
    norm_num at this ⊢
    linarith
  · intro h
    refine ⟨rfl, ⟨n, rfl⟩, fun x y => ?_, fun x y => ?_, fun x y hxy => ?_⟩
    · simp only [submatrix_apply, id, Fin.cast_eq_self, standardForm_conj_apply]
      exact isclose_self _
    · simp only [submatrix_apply, id, Fin.cast_eq_self]
      by_cases hxy : x = y
      · subst hxy
        obtain ⟨i, hi⟩ := standardForm_diag_norm s x
        have := h i
        rw [isclose, sub_neg_eq_add, ← two_mul, norm_neg, norm_mul, hi, Complex.norm_ofNat]
        norm_num at this ⊢
        linarith
      · rw [standardForm_off s hxy, standardForm_off s (Ne.symm hxy), neg_zero]
        exact isclose_self _
    · simp only [submatrix_apply, id, Fin.cast_eq_self]
      by_cases hxy : x = y
      · subst hxy
        obtain ⟨i, hi⟩ := standardForm_diag_norm s x
        have := h i
        have h0 := abs_nonneg (s i)
        rw [isclose, zero_sub, norm_neg, hi]
        norm_num at this ⊢
        linarith
      · rw [standardForm_off s hxy]
        exact isclose_self _

/-- The eigenvalues of a matrix that a unitary brings to the form `diag(-Σ, Σ)`. -/
theorem standardForm_eigen {H U : Op (n + n)} {s : Fin n → ℝ} (hU : U * Uᴴ = 1) (hL : Uᴴ * H * U = Spec.standardForm s)
    (μ : ℂ) : (∃ v : Fin (n + n) → ℂ, v ≠ 0 ∧ H *ᵥ v = μ • v) ↔ ∃ i, μ = (s i : ℂ) ∨ μ = -(s i : ℂ) := by
  have hU' : Uᴴ * U = 1 := mul_eq_one_comm.1 hU
  have hHU : H * U = U * Spec.standardForm s := by
    rw [← hL, ← Matrix.mul_assoc, ← Matrix.mul_assoc, hU, one_mul]
  constructor
  · rintro ⟨v, hv, he⟩
    have h1 : Spec.standardForm s *ᵥ (Uᴴ *ᵥ v) = μ • (Uᴴ *ᵥ v) := by
      rw [← mulVec_smul, ← he, ← hL, mulVec_mulVec, mulVec_mulVec, Matrix.mul_assoc, hU, mul_one]
    have h2 : Uᴴ *ᵥ v ≠ 0 := fun h => hv (by
      have := congrArg (fun v => U *ᵥ v) h
      simpa only [mulVec_mulVec, hU, one_mulVec, mulVec_zero] using this)
    obtain ⟨x, hx⟩ := Function.ne_iff.1 h2
    have h3 := congrFun h1 x
    rw [Spec.standardForm, mulVec_diagonal, Pi.smul_apply, smul_eq_mul] at h3
    have h4 := mul_right_cancel₀ hx h3
    revert h4
    refine Fin.addCases (fun i h4 => ?_) (fun i h4 => ?_) x
    · rw [Fin.append_left] at h4
      exact ⟨i, .inr (by rw [← h4]; push_cast; rfl)⟩
    · rw [Fin.append_right] at h4
      exact ⟨i, .inl h4.symm⟩
  · have key : ∀ x, ∃ v : Fin (n + n) → ℂ, v ≠ 0 ∧ H *ᵥ v = (Fin.append (fun i => ((-s i : ℝ) : ℂ))
        (fun i => ((s i : ℝ) : ℂ)) x) • v := by
      intro x
      refine ⟨U *ᵥ Pi.single x 1, fun h => ?_, ?_⟩
      · have := congrArg (fun v => Uᴴ *ᵥ v) h
        simp only [mulVec_mulVec, hU', one_mulVec, mulVec_zero] at this
        simpa using congrFun this x
      · rw [mulVec_mulVec, hHU, ← mulVec_mulVec, ← mulVec_smul, Spec.standardForm, diagonal_mulVec_single, mul_one,
          ← Pi.single_smul, smul_eq_mul, mul_one]
    rintro ⟨i, rfl | rfl⟩
    · have := key (Fin.natAdd n i)
      rwa [Fin.append_right] at this
    · have := key (Fin.castAdd n i)
      rw [Fin.append_left] at this
      push_cast at this
      exact this

/-- C114, the part that holds. For every `build_H(A, B)` the results of `eigh_sp` pass two of the three checks of the
documentation: `is_symp(U)` is true and `np.allclose(U.conj().T @ H @ U, L)` is true. What is missing:
`check_canonical_form(L)`, see `C114_canonical_iff`. -/
theorem C114_checks_partial (A B : Op n) (hA : A.IsHermitian) (hB : Bᵀ = -B)
    (schur : RMat (n + n) → RMat (n + n) × RMat (n + n)) (argsort : (Fin n → ℝ) → Fin n → ℕ)
    (hschur : SchurOk (buildH n A (some B)) schur) (hsort : ArgsortOk argsort) :
    ∃ L U : Op (n + n), eighSp schur argsort (buildH n A (some B)) = .ok (L, U) ∧
      isSymp U = true ∧ allclose (Uᴴ * buildH n A (some B) * U) L := by
  obtain ⟨L, U, hrun, -, hs, -, hL, -⟩ := C45_diagonalises A B hA hB schur argsort hschur hsort
  exact ⟨L, U, hrun, C39_exact U hs, hL ▸ fun i j => isclose_self _⟩

/-- C114, exactly, for the third check: if no eigenvalue of `H` lies strictly between zero and the cut-off,
`check_canonical_form(L)` is true if and only if all eigenvalues of `H` are within the tolerance of zero. -/
theorem C114_canonical_iff (A B : Op n) (hA : A.IsHermitian) (hB : Bᵀ = -B)
    (schur : RMat (n + n) → RMat (n + n) × RMat (n + n)) (argsort : (Fin n → ℝ) → Fin n → ℕ)
    (hschur : SchurOk (buildH n A (some B)) schur) (hsort : ArgsortOk argsort)
    (hgap : NoTinyEigenvalue (buildH n A (some B))) :
    ∃ L U : Op (n + n), eighSp schur argsort (buildH n A (some B)) = .ok (L, U) ∧
      (checkCanonicalForm L = true ↔
        ∀ (μ : ℂ) (v : Fin (n + n) → ℂ), v ≠ 0 → buildH n A (some B) *ᵥ v = μ • v → 1.99999 * ‖μ‖ ≤ 1e-8) := by
  obtain ⟨L, U, hrun, hU, -, -, hL, s, -, hex⟩ := C45_diagonalises A B hA hB schur argsort hschur hsort
  obtain rfl := hex hgap
  refine ⟨_, U, hrun, ?_⟩
  rw [canonical_standardForm]
  have he := standardForm_eigen (mem_unitaryGroup_iff.1 hU) hL
  constructor
  · intro h μ v hv hμ
    obtain ⟨i, rfl | rfl⟩ := (he μ).1 ⟨v, hv, hμ⟩
    · rw [Complex.norm_real]; exact h i
    · rw [norm_neg, Complex.norm_real]; exact h i
  · intro h i
    obtain ⟨v, hv, hμ⟩ := (he (s i : ℂ)).2 ⟨i, .inl rfl⟩
    have := h _ v hv hμ
    rwa [Complex.norm_real] at this

/-- C114 is violated as documented: whenever some diagonal entry of the returned `L` is larger than the tolerance, the
documented check `check_canonical_form(L)` prints False. -/
theorem C114_violation (L : Op (n + n)) (x : Fin (n + n)) (h : 1e-8 < ‖L x x‖) : checkCanonicalForm L = false := by
  rw [Bool.eq_false_iff, ne_eq, C40_decides]
  rintro ⟨_, -, -, h1, -⟩
  have := h1 x x
  simp only [submatrix_apply, id, Fin.cast_eq_self, isclose, sub_neg_eq_add, norm_neg, ← two_mul, norm_mul,
    Complex.norm_ofNat] at this
  norm_num at this h
  linarith

/-! ## C115 -/

theorem eigvalsh_roots {A : Op n} (hA : A.IsHermitian) :
    A.charpoly.roots = Finset.univ.val.map fun i => ((eigvalsh A i : ℝ) : ℂ) := by
  rw [eigvalsh_charpoly hA, Polynomial.roots_prod _ _ (Finset.prod_ne_zero_iff.2 fun i _ => Polynomial.X_sub_C_ne_zero _)]
  simp

/-- The sum of the eigenvalues is the trace. -/
theorem eigvalsh_sum {A : Op n} (hA : A.IsHermitian) : ((∑ i, eigvalsh A i : ℝ) : ℂ) = A.trace := by
  rw [Matrix.trace_eq_sum_roots_charpoly, eigvalsh_roots hA]
  push_cast
  rfl

/-- C115, the part that holds. The second half of the diagonal of `L` contains, up to signs, exactly the eigenvalues of
`H`; and for `A` not (nearly) zero each entry has the sign of the corresponding entry of `np.linalg.eigvalsh(A)`, for
every pairing matrix `B`. What is missing: the entries are not positive in general. -/
theorem C115_signs_partial (A B : Op n) (hA : A.IsHermitian) (hB : Bᵀ = -B)
    (schur : RMat (n + n) → RMat (n + n) × RMat (n + n)) (argsort : (Fin n → ℝ) → Fin n → ℕ)
    (hschur : SchurOk (buildH n A (some B)) schur) (hsort : ArgsortOk argsort)
    (hgap : NoTinyEigenvalue (buildH n A (some B))) (hne : ¬ allclose A 0) :
    ∃ (s : Fin n → ℝ) (U : Op (n + n)), eighSp schur argsort (buildH n A (some B)) = .ok (Spec.standardForm s, U) ∧
      (∀ μ : ℂ, (∃ v : Fin (n + n) → ℂ, v ≠ 0 ∧ buildH n A (some B) *ᵥ v = μ • v) ↔
        ∃ i, μ = (s i : ℂ) ∨ μ = -(s i : ℂ)) ∧
      ∀ i, (0 < eigvalsh A i → 0 ≤ s i) ∧ (eigvalsh A i < 0 → s i ≤ 0) := by
  classical
  obtain ⟨M, O, R, σ, hM, hih, hrun, hO, hR, hRs, hal, hσ, hcase⟩ :=
    eighSp_ok schur argsort (buildH_herm A B hA hB) (buildH_ph A B hA hB) hschur hsort
  have hA22 : blk22 (buildH n A (some B)) = A := by
    ext i j; simp only [buildH, blk22]; exact blk_22 ..
  rw [hA22] at hcase
  obtain ⟨pA, pL, -, -, -, -, hRe⟩ := hcase hne
  obtain ⟨d, -, hU, hc, hL, -⟩ := finish_eq hO hih hR
  have hex := exact_of_gap hM hih (hschur M hih).toIsRealSchur hO hR hRs hal hσ hgap
  set T := (schur M).1 with hT
  set s : Fin n → ℝ := fun i => - R ⟨2 * i, by omega⟩ ⟨2 * i + 1, by omega⟩ with hs
  refine ⟨s, (eighFinish (buildH n A (some B)) O).2, by rw [hrun, ← hex],
    standardForm_eigen hU (by rw [← hL]; exact hex), fun i => ?_⟩
  simp only [hs, hRe i]
  constructor
  · intro hi
    split_ifs with hsign
    · rw [neg_neg]
      unfold npSign at hsign
      rw [if_pos hi] at hsign
      split_ifs at hsign with h1 h2
      · exact h1.le
      · norm_num at hsign
      · norm_num at hsign
    · by_contra hcon
      push Not at hcon
      apply hsign
      unfold npSign
      rw [if_pos hi, if_pos (by linarith)]
  · intro hi
    split_ifs with hsign
    · rw [neg_neg]
      unfold npSign at hsign
      rw [if_neg hi.le.not_gt, if_pos hi] at hsign
      split_ifs at hsign with h1 h2
      · norm_num at hsign
      · exact h2.le
      · norm_num at hsign
    · by_contra hcon
      push Not at hcon
      apply hsign
      unfold npSign
      rw [if_neg hi.le.not_gt, if_pos hi, if_neg (by linarith), if_pos (by linarith)]

/-- C115, exactly: if `A` and `H` are invertible, the `i`-th energy is negative if and only if the `i`-th eigenvalue
of `A` is, so the energies are all positive if and only if `A` has no negative eigenvalue. -/
theorem C115_iff (A B : Op n) (hA : A.IsHermitian) (hB : Bᵀ = -B)
    (schur : RMat (n + n) → RMat (n + n) × RMat (n + n)) (argsort : (Fin n → ℝ) → Fin n → ℕ)
    (hschur : SchurOk (buildH n A (some B)) schur) (hsort : ArgsortOk argsort)
    (hgap : NoTinyEigenvalue (buildH n A (some B))) (hne : ¬ allclose A 0)
    (hdetA : A.det ≠ 0) (hdetH : (buildH n A (some B)).det ≠ 0) :
    ∃ (s : Fin n → ℝ) (U : Op (n + n)), eighSp schur argsort (buildH n A (some B)) = .ok (Spec.standardForm s, U) ∧
      (∀ i, s i < 0 ↔ eigvalsh A i < 0) ∧ ((∀ i, 0 < s i) ↔ ∀ i, 0 < eigvalsh A i) := by
  obtain ⟨s, U, hrun, he, hs⟩ := C115_signs_partial A B hA hB schur argsort hschur hsort hgap hne
  have h0 : ∀ i, s i ≠ 0 := by
    intro i hi
    obtain ⟨v, hv, hv'⟩ := (he 0).2 ⟨i, .inl (by rw [hi]; simp)⟩
    rw [zero_smul] at hv'
    exact hdetH (exists_mulVec_eq_zero_iff.1 ⟨v, hv, hv'⟩)
  have ha : ∀ i, eigvalsh A i ≠ 0 := by
    intro i hi
    apply hdetA
    rw [det_eq_prod_roots_charpoly, eigvalsh_roots hA]
    exact Finset.prod_eq_zero (i := i) (Finset.mem_univ i) (by rw [hi]; simp)
  have key : ∀ i, s i < 0 ↔ eigvalsh A i < 0 := by
    intro i
    constructor
    · intro h
      by_contra hc
      exact absurd ((hs i).1 (lt_of_le_of_ne (not_lt.1 hc) (ha i).symm)) (not_le.2 h)
    · intro h
      exact lt_of_le_of_ne ((hs i).2 h) (h0 i)
  refine ⟨s, U, hrun, key, ?_⟩
  have e1 : ∀ i, 0 < s i ↔ ¬ s i < 0 := fun i => ⟨fun h => h.le.not_gt, fun h => lt_of_le_of_ne (not_lt.1 h) (h0 i).symm⟩
  have e2 : ∀ i, 0 < eigvalsh A i ↔ ¬ eigvalsh A i < 0 :=
    fun i => ⟨fun h => h.le.not_gt, fun h => lt_of_le_of_ne (not_lt.1 h) (ha i).symm⟩
  simp only [e1, e2, key]

/-- C115 is violated for the documented example: in every Kitaev chain with a positive chemical potential, whatever
the hopping and the pairing, some entry of the second half of the diagonal is zero or negative. -/
theorem C115_violation (hn : 1 ≤ n) (mu t delta : ℝ) (hmu : 1e-8 < mu)
    (schur : RMat (n + n) → RMat (n + n) × RMat (n + n)) (argsort : (Fin n → ℝ) → Fin n → ℕ)
    (hschur : SchurOk (kitaevChain n mu t delta) schur) (hsort : ArgsortOk argsort)
    (hgap : NoTinyEigenvalue (kitaevChain n mu t delta)) :
    ∃ (s : Fin n → ℝ) (U : Op (n + n)),
      eighSp schur argsort (kitaevChain n mu t delta) = .ok (Spec.standardForm s, U) ∧ ∃ k, s k ≤ 0 := by
  obtain ⟨hA, hB⟩ := kitaev_parts n mu t delta
  have hk := kitaev_eq n mu t delta
  rw [hk] at hschur hgap ⊢
  set A := tri n ((-mu : ℝ) : ℂ) ((-t : ℝ) : ℂ) ((-t : ℝ) : ℂ) with hAd
  have hdiag : ∀ i, A i i = ((-mu : ℝ) : ℂ) := fun i => by simp [hAd, tri]
  have hne : ¬ allclose A 0 := by
    intro h
    have := h ⟨0, hn⟩ ⟨0, hn⟩
    rw [isclose, hdiag, Matrix.zero_apply, sub_zero, norm_zero, Complex.norm_real, Real.norm_eq_abs, abs_neg,
      abs_of_pos (by norm_num at hmu; linarith)] at this
    norm_num at this hmu
    linarith
  obtain ⟨s, U, hrun, -, hs⟩ := C115_signs_partial A _ hA hB schur argsort hschur hsort hgap hne
  refine ⟨s, U, hrun, ?_⟩
  have htr : ∑ i, eigvalsh A i = -(n * mu) := by
    have := eigvalsh_sum hA
    rw [trace] at this
    simp only [diag_apply, hdiag, Finset.sum_const, Finset.card_univ, Fintype.card_fin, nsmul_eq_mul] at this
    have h2 : ((∑ i, eigvalsh A i : ℝ) : ℂ) = ((-(n * mu) : ℝ) : ℂ) := by rw [this]; push_cast; ring
    exact_mod_cast h2
  have hpos : 0 < (n : ℝ) * mu := by
    have : (1 : ℝ) ≤ n := by exact_mod_cast hn
    norm_num at hmu
    have : 0 < mu := by linarith
    positivity
  obtain ⟨i, -, hi⟩ := Finset.exists_lt_of_sum_lt (s := Finset.univ) (f := fun i => eigvalsh A i) (g := fun _ => (0 : ℝ))
    (by rw [htr, Finset.sum_const_zero]; linarith)
  exact ⟨i, (hs i).2 hi⟩

/-- Matrices whose square is `c² > 1e-20` have no eigenvalue near zero and are invertible. -/
theorem noTiny_of_sq {m : ℕ} {H : Op m} {c : ℝ} (hc : 1e-10 < c) (h : H * H = ((c ^ 2 : ℝ) : ℂ) • 1) :
    NoTinyEigenvalue H ∧ H.det ≠ 0 := by
  have hc0 : 0 < c := lt_trans (by norm_num) hc
  constructor
  · intro μ v hv he
    right
    have h1 := congrArg (fun M => M *ᵥ v) h
    simp only [← mulVec_mulVec, he, mulVec_smul, smul_smul, smul_mulVec, one_mulVec] at h1
    obtain ⟨x, hx⟩ := Function.ne_iff.1 hv
    have h2 := congrFun h1 x
    simp only [Pi.smul_apply, smul_eq_mul] at h2
    have h3 := congrArg norm (mul_right_cancel₀ hx h2)
    rw [norm_mul, Complex.norm_real, Real.norm_eq_abs, abs_of_pos (by positivity), ← pow_two] at h3
    rw [(sq_eq_sq₀ (norm_nonneg _) hc0.le).1 h3]
    exact hc
  · intro hd
    have h1 := congrArg det h
    rw [det_mul, hd, zero_mul, det_smul, det_one, mul_one] at h1
    exact pow_ne_zero _ (Complex.ofReal_ne_zero.2 (by positivity)) h1.symm

theorem kitaev_atomic (n : ℕ) (mu : ℝ) :
    kitaevChain n mu 0 0 * kitaevChain n mu 0 0 = ((mu ^ 2 : ℝ) : ℂ) • 1 := by
  have h1 : tri n ((-mu : ℝ) : ℂ) ((-0 : ℝ) : ℂ) ((-0 : ℝ) : ℂ) = ((-mu : ℝ) : ℂ) • 1 := by
    ext i j
    by_cases h : i = j
    · subst h; simp [tri]
    · simp [tri, h]
  have h2 : tri n 0 ((0 : ℝ) : ℂ) ((-0 : ℝ) : ℂ) = 0 := by ext i j; simp [tri]
  rw [kitaev_eq, h1, h2]
  have h3 : cj (((-mu : ℝ) : ℂ) • (1 : Op n)) = ((-mu : ℝ) : ℂ) • 1 := by
    ext i j
    by_cases h : i = j
    · subst h; simp [cj]
    · simp [cj, h]
  have h4 : cj (0 : Op n) = 0 := by ext i j; simp [cj]
  simp only [buildH, Option.getD_some, h3, h4]
  rw [blk_mul, ← blk_one, blk_smul]
  have h5 : ((-mu : ℝ) : ℂ) * ((-mu : ℝ) : ℂ) = ((mu ^ 2 : ℝ) : ℂ) := by push_cast; ring
  apply blk_congr <;> simp only [neg_mul_neg, Matrix.smul_mul, Matrix.mul_smul, one_mul, smul_smul, h5, mul_zero, zero_mul,
    neg_zero, add_zero, zero_add, smul_zero]

/-- The hypotheses of C114 and C115 are met by chains of every length. -/
example (hn : 1 ≤ n) : ∃ (schur : RMat (n + n) → RMat (n + n) × RMat (n + n)) (argsort : (Fin n → ℝ) → Fin n → ℕ),
    SchurOk (kitaevChain n 1 0 0) schur ∧ ArgsortOk argsort ∧ NoTinyEigenvalue (kitaevChain n 1 0 0) ∧
    (kitaevChain n 1 0 0).det ≠ 0 := by
  obtain ⟨hA, hB⟩ := kitaev_parts n 1 0 0
  obtain ⟨schur, hs⟩ := schurOk_exists (buildH_herm _ _ hA hB) (buildH_ph _ _ hA hB)
  obtain ⟨as, has⟩ := argsort_exists (n := n)
  rw [← kitaev_eq] at hs
  obtain ⟨h1, h2⟩ := noTiny_of_sq (by norm_num) (kitaev_atomic n 1)
  exact ⟨schur, as, hs, has, h1, h2⟩

/-- An array whose largest diagonal entry exceeds the tolerance, as in `C114_violation`. -/
example : 1e-8 < ‖Spec.standardForm (fun _ : Fin 3 => 1) (Fin.natAdd 3 0) (Fin.natAdd 3 0)‖ := by
  rw [standardForm_right]; norm_num

end

end FF.Props
