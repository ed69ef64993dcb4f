import Verif.Proofs.DocScript
import Verif.Props.Reach
import Verif.Proofs.GibbsInj

/-! # C135: the example of the documentation -/

namespace FF.Props

open Matrix

/-- The two halves of the basis differ in the occupation of the first site. -/
theorem two_pow_half (k : ℕ) : 2 ^ (k + 1) = 2 ^ k + 2 ^ k := by rw [pow_succ, mul_two]

theorem half_zero {k : ℕ} (b : Fin k → Fin 2) :
    Fin.cast (two_pow_half k).symm (Fin.castAdd (2 ^ k) (bIdx b)) = bIdx (Fin.cons 0 b : Fin (k + 1) → Fin 2) := by
  apply Fin.ext
  rw [bIdx_cons]
  simp

theorem half_one {k : ℕ} (b : Fin k → Fin 2) :
    Fin.cast (two_pow_half k).symm (Fin.natAdd (2 ^ k) (bIdx b)) = bIdx (Fin.cons 1 b : Fin (k + 1) → Fin 2) := by
  apply Fin.ext
  rw [bIdx_cons]
  simp [add_comm]

theorem drop_diag {n : ℕ} {A : Op n} (hA : A.IsHermitian) (B : Op n) (i : Fin n) :
    Spec.dropSmall 1e-10 (buildH n A (some B)) (Fin.castAdd n i) (Fin.castAdd n i) =
      -Spec.dropSmall 1e-10 (buildH n A (some B)) (Fin.natAdd n i) (Fin.natAdd n i) ∧
    Spec.dropSmall 1e-10 (buildH n A (some B)) (Fin.natAdd n i) (Fin.natAdd n i) = if ‖A i i‖ < 1e-10 then 0 else A i i := by
  have h := hA.apply i i
  have e : (starRingEnd ℂ) (A i i) = A i i := h
  simp only [Spec.dropSmall, of_apply, buildH, blk_11, blk_22, Option.getD_some]
  rw [Matrix.neg_apply, show cj A i i = A i i from e, norm_neg]
  split_ifs <;> simp

theorem quad_halves {k : ℕ} {A : Op (k + 1)} (hA : A.IsHermitian) (B : Op (k + 1)) (b : Fin k → Fin 2) :
    Spec.quad (Spec.dropSmall 1e-10 (buildH (k + 1) A (some B))) (al (k + 1)) (bIdx (Fin.cons 0 b : Fin (k + 1) → Fin 2))
        (bIdx (Fin.cons 0 b : Fin (k + 1) → Fin 2)) +
      Spec.quad (Spec.dropSmall 1e-10 (buildH (k + 1) A (some B))) (al (k + 1)) (bIdx (Fin.cons 1 b : Fin (k + 1) → Fin 2))
        (bIdx (Fin.cons 1 b : Fin (k + 1) → Fin 2)) =
      2 * ∑ i : Fin k, (if b i = 0 then (-1 : ℂ) else 1) * if ‖A i.succ i.succ‖ < 1e-10 then 0 else A i.succ i.succ := by
  set M := Spec.dropSmall 1e-10 (buildH (k + 1) A (some B)) with hM
  have h1 : ∀ i : Fin (k + 1), M (Fin.castAdd (k + 1) i) (Fin.castAdd (k + 1) i) = -M (Fin.natAdd (k + 1) i) (Fin.natAdd (k + 1) i) :=
    fun i => (drop_diag hA B i).1
  have h2 : ∀ i : Fin k, (if ‖A i.succ i.succ‖ < 1e-10 then 0 else A i.succ i.succ) =
      M (Fin.natAdd (k + 1) i.succ) (Fin.natAdd (k + 1) i.succ) := fun i => ((drop_diag hA B i.succ).2).symm
  simp only [h2]
  rw [quad_diag, quad_diag, Fin.sum_univ_succ, Fin.sum_univ_succ]
  simp only [Fin.cons_zero, Fin.cons_succ, if_true, h1]
  have h3 : ∀ x y : ℂ, (if (1 : Fin 2) = 0 then x else y) = y := fun x y => if_neg (by decide)
  have h4 : ∀ x y z : ℂ, -x + y + (x + z) = y + z := fun x y z => by ring
  rw [h3, Finset.mul_sum, h4, ← Finset.sum_add_distrib]
  refine Finset.sum_congr rfl fun i _ => ?_
  by_cases h : b i = 0
  · simp only [h, if_true]; ring
  · simp only [h, if_false]; ring

/-- C135 is false for two or more sites: `eigh_sp` raises AssertionError for the operator `build_op(n, build_H(n, A, B), alphas)` as soon as
one on-site energy `A[i, i]` with `i > 0` exceeds 6e-9 in modulus. -/
theorem C135_rejects (k : ℕ) (A B : Op (k + 1)) (hA : A.IsHermitian) (i : Fin k) (hi : 6e-9 < ‖A i.succ i.succ‖) (Q : Op (2 ^ (k + 1)))
    (hQ : buildOp (k + 1) (buildH (k + 1) A (some B)) (jordanWignerAlphas (k + 1)) false = .ok Q)
    (schur : RMat (2 ^ k + 2 ^ k) → RMat (2 ^ k + 2 ^ k) × RMat (2 ^ k + 2 ^ k)) (argsort : (Fin (2 ^ k) → ℝ) → Fin (2 ^ k) → ℕ) :
    eighSp schur argsort (castOp (two_pow_half k) Q) = .error .assertionError := by
  rw [jordanWignerAlphas_eq, buildOp_square _ _ (by omega)] at hQ
  obtain rfl := Except.ok.inj hQ
  by_contra hc
  set a : Fin k → ℂ := fun i => if ‖A i.succ i.succ‖ < 1e-10 then 0 else A i.succ i.succ with ha
  have hre : ∀ i, ((a i).re : ℂ) = a i := fun i => by
    have e : (starRingEnd ℂ) (A i.succ i.succ) = A i.succ i.succ := hA.apply _ _
    simp only [ha]
    split_ifs
    · simp
    · exact Complex.conj_eq_iff_re.1 e
  set b : Fin k → Fin 2 := fun i => if 0 ≤ (a i).re then 1 else 0 with hb
  have h1 := eighSp_diag hc (bIdx b)
  rw [castOp, submatrix_apply, submatrix_apply, half_zero, half_one, quad_halves hA] at h1
  have h2 : ∑ i : Fin k, (if b i = 0 then (-1 : ℂ) else 1) * (if ‖A i.succ i.succ‖ < 1e-10 then 0 else A i.succ i.succ) =
      ((∑ i, |(a i).re| : ℝ) : ℂ) := by
    rw [Complex.ofReal_sum]
    refine Finset.sum_congr rfl fun i _ => ?_
    change (if b i = 0 then (-1 : ℂ) else 1) * a i = _
    rw [← hre i, hb]
    by_cases h : 0 ≤ (a i).re
    · simp [h, abs_of_nonneg h]
    · simp [h, abs_of_neg (not_le.1 h)]
  rw [h2, norm_mul, Complex.norm_real, Real.norm_eq_abs, abs_of_nonneg (Finset.sum_nonneg fun _ _ => abs_nonneg _)] at h1
  have h3 : |(a i).re| ≤ ∑ i, |(a i).re| := Finset.single_le_sum (f := fun i => |(a i).re|) (fun _ _ => abs_nonneg _) (Finset.mem_univ i)
  have h4 : ‖a i‖ = |(a i).re| := by rw [← hre i, Complex.norm_real, Real.norm_eq_abs, Complex.ofReal_re]
  have h5 : a i = A i.succ i.succ := if_neg (by norm_num at hi ⊢; linarith)
  have h6 : ‖A i.succ i.succ‖ = |(a i).re| := by rw [← h5]; exact h4
  rw [h6] at hi
  norm_num at h1 hi
  linarith

/-- For instance two sites with the energies 0 and 1. -/
example : (diagonal ![0, 1] : Op (1 + 1)).IsHermitian ∧ (6e-9 : ℝ) < ‖(diagonal ![0, 1] : Op (1 + 1)) (Fin.succ 0) (Fin.succ 0)‖ := by
  refine ⟨?_, ?_⟩
  · ext i j
    fin_cases i <;> fin_cases j <;> simp
  · simp; norm_num

/-- For one site the operator is again of the form that `build_H` returns. -/
theorem one_site_op (A B : Op 1) (hA : A.IsHermitian) :
    castOp (two_pow_half 0) (Spec.quad (Spec.dropSmall 1e-10 (buildH 1 A (some B))) (al 1)) =
      buildH 1 (Matrix.of fun i j => if ‖A i j‖ < 1e-10 then 0 else A i j) (some 0) := by
  have h := drop_diag hA B 0
  have e : Spec.quad (Spec.dropSmall 1e-10 (buildH 1 A (some B))) (al 1) =
      (!![-(if ‖A 0 0‖ < 1e-10 then 0 else A 0 0), 0; 0, if ‖A 0 0‖ < 1e-10 then 0 else A 0 0] : Op 2) := by
    rw [← h.2, ← h.1]
    exact quad1_entries _
  have e' : buildH 1 (Matrix.of fun i j => if ‖A i j‖ < 1e-10 then 0 else A i j) (some 0) =
      (!![-(if ‖A 0 0‖ < 1e-10 then 0 else A 0 0), 0; 0, if ‖A 0 0‖ < 1e-10 then 0 else A 0 0] : Op 2) := by
    have hc : (starRingEnd ℂ) (A 0 0) = A 0 0 := hA.apply 0 0
    rw [buildH, blk_one']
    by_cases hs : ‖A 0 0‖ < 1e-10 <;> simp [cj, hs, hc]
  rw [e, e']
  rfl

/-- C135 for one site: `eigh_sp` accepts the operator and returns its eigenvalues and eigenvectors. -/
theorem C135_one_site_partial (A B : Op 1) (hA : A.IsHermitian) (Q : Op (2 ^ (0 + 1)))
    (hQ : buildOp (0 + 1) (buildH (0 + 1) A (some B)) (jordanWignerAlphas (0 + 1)) false = .ok Q)
    (schur : RMat (2 ^ 0 + 2 ^ 0) → RMat (2 ^ 0 + 2 ^ 0) × RMat (2 ^ 0 + 2 ^ 0)) (argsort : (Fin (2 ^ 0) → ℝ) → Fin (2 ^ 0) → ℕ)
    (hschur : SchurOk (castOp (two_pow_half 0) Q) schur) (hsort : ArgsortOk argsort) :
    ∃ L U, eighSp schur argsort (castOp (two_pow_half 0) Q) = .ok (L, U) ∧ U ∈ Matrix.unitaryGroup (Fin (2 ^ 0 + 2 ^ 0)) ℂ ∧
      Uᴴ * castOp (two_pow_half 0) Q * U = L ∧ ∃ e : ℝ, ∀ x y, ‖L x y - Spec.standardForm (fun _ => e) x y‖ ≤ 2e-10 := by
  rw [jordanWignerAlphas_eq, buildOp_square _ _ (by omega)] at hQ
  obtain rfl := Except.ok.inj hQ
  have e := one_site_op A B hA
  rw [e] at hschur ⊢
  obtain ⟨L, U, h1, h2, -, -, h3, sig, h4, -⟩ := C45_diagonalises (n := 2 ^ 0) _ 0 (by
      ext i j
      have := hA.apply i j
      have hn : ‖A j i‖ = ‖A i j‖ := by rw [← this]; simp
      simp only [conjTranspose_apply, of_apply, hn]
      split_ifs
      · simp
      · exact this) (by simp) schur argsort hschur hsort
  exact ⟨L, U, h1, h2, h3, sig 0, fun x y => by
    have : sig = fun _ => sig 0 := funext fun i => congrArg sig (Subsingleton.elim (α := Fin 1) _ _)
    rw [← this]; exact h4 x y⟩

/-- The hypotheses are met by the energy 2, with the trivial Schur form. -/
example : ∃ (Q : Op (2 ^ (0 + 1))) (schur : RMat (2 ^ 0 + 2 ^ 0) → RMat (2 ^ 0 + 2 ^ 0) × RMat (2 ^ 0 + 2 ^ 0))
    (argsort : (Fin (2 ^ 0) → ℝ) → Fin (2 ^ 0) → ℕ), (!![2] : Op 1).IsHermitian ∧
    buildOp (0 + 1) (buildH (0 + 1) !![2] (some 0)) (jordanWignerAlphas (0 + 1)) false = .ok Q ∧
    SchurOk (castOp (two_pow_half 0) Q) schur ∧ ArgsortOk argsort := by
  have hA : (!![2] : Op 1).IsHermitian := by ext i j; fin_cases i; fin_cases j; simp
  obtain ⟨as, has⟩ := argsort_exists (n := 2 ^ 0)
  refine ⟨_, fun M => (M, 1), as, hA, by rw [jordanWignerAlphas_eq]; exact buildOp_square _ _ (by omega), ?_, has⟩
  rw [one_site_op _ _ hA]
  have hA' : (Matrix.of fun i j => if ‖(!![2] : Op 1) i j‖ < 1e-10 then 0 else (!![2] : Op 1) i j).IsHermitian := by
    rw [IsHermitian]; ext i j; obtain rfl := Subsingleton.elim i 0; obtain rfl := Subsingleton.elim j 0
    rw [conjTranspose_apply, of_apply, apply_ite star]; simp
  exact schurOk_one (buildH_herm _ _ hA' (by simp)) (buildH_ph _ _ hA' (by simp))

/-- The rotation by a quarter turn of every mode. -/
noncomputable def turn (n : ℕ) : Op (n + n) := blk ((-Complex.I) • 1) 0 0 (Complex.I • 1)

theorem turn_sq (n : ℕ) : turn n * turn n = -1 := by
  rw [turn, blk_mul, ← blk_one, blk_neg]
  simp [smul_smul]

theorem turn_dag (n : ℕ) : (turn n)ᴴ = -turn n := by
  rw [turn, blk_conjTranspose, blk_neg]
  simp

theorem turn_unitary (n : ℕ) : turn n * (turn n)ᴴ = 1 := by
  rw [turn_dag, mul_neg, turn_sq, neg_neg]

theorem turn_log (n : ℕ) : Spec.IsPrincipalLog (turn n) (((Real.pi / 2 : ℝ) : ℂ) • turn n) where
  exp_eq := by
    have h := expm_sq_neg_one (turn_sq n) ((Real.pi / 2 : ℝ) : ℂ)
    rw [← Complex.ofReal_cos, ← Complex.ofReal_sin, Real.cos_pi_div_two, Real.sin_pi_div_two, Complex.ofReal_zero,
      Complex.ofReal_one, zero_smul, one_smul, zero_add] at h
    exact h
  strip μ v hv h := by
    have h1 : turn n *ᵥ (turn n *ᵥ v) = -v := by rw [mulVec_mulVec, turn_sq, neg_mulVec, one_mulVec]
    have h2 : (((Real.pi / 2 : ℝ) : ℂ) ^ 2 + μ ^ 2) • v = 0 := by
      have h3 : (((Real.pi / 2 : ℝ) : ℂ) • turn n) *ᵥ ((((Real.pi / 2 : ℝ) : ℂ) • turn n) *ᵥ v) = (μ ^ 2) • v := by
        rw [h, mulVec_smul, h, smul_smul, sq]
      rw [smul_mulVec, smul_mulVec, mulVec_smul, h1, smul_smul, smul_neg, ← sq] at h3
      rw [add_smul, ← h3, add_neg_cancel]
    have h3 := (smul_eq_zero.1 h2).resolve_right hv
    have h4 : (μ - ((Real.pi / 2 : ℝ) : ℂ) * Complex.I) * (μ + ((Real.pi / 2 : ℝ) : ℂ) * Complex.I) = 0 := by
      linear_combination h3 - ((Real.pi / 2 : ℝ) : ℂ) ^ 2 * Complex.I_sq
    have hp := Real.pi_pos
    rcases mul_eq_zero.1 h4 with h5 | h5
    · rw [sub_eq_zero.1 h5]
      simp only [Complex.mul_im, Complex.ofReal_re, Complex.I_im, mul_one, Complex.ofReal_im, Complex.I_re, mul_zero,
        add_zero]
      constructor <;> linarith
    · rw [eq_neg_of_add_eq_zero_left h5]
      simp only [Complex.neg_im, Complex.mul_im, Complex.ofReal_re, Complex.I_im, mul_one, Complex.ofReal_im,
        Complex.I_re, mul_zero, add_zero]
      constructor <;> linarith

theorem turn_symp (n : ℕ) : Spec.IsSymplectic (turn n) := by
  refine symp_of_canonical ?_ (turn_unitary n)
  have hc : cj (blk ((-Complex.I) • (1 : Op n)) 0 0 (Complex.I • 1)) = blk (Complex.I • 1) 0 0 ((-Complex.I) • 1) := by
    have : ∀ A B C D : Op n, cj (blk A B C D) = blk (cj A) (cj B) (cj C) (cj D) := fun A B C D => by
      rw [cj, blk, ← submatrix_map, fromBlocks_map]; rfl
    rw [this]
    refine blk_congr ?_ ?_ ?_ ?_ <;> ext i j <;> by_cases h : i = j <;> simp [cj, h]
  rw [IsCanonicalU, turn, hc, swapS, blk_mul, blk_mul]
  refine blk_congr ?_ ?_ ?_ ?_ <;> simp

theorem turn_det (n : ℕ) : (turn n).det = 1 := by
  rw [turn, blk, det_submatrix_equiv_self, det_fromBlocks_zero₂₁, det_smul, det_smul, det_one, mul_one, mul_one, ← mul_pow]
  simp

theorem turn_gen (n : ℕ) : genMat (((Real.pi / 2 : ℝ) : ℂ) • turn n) = buildH n (((-(Real.pi / 4) : ℝ) : ℂ) • 1) (some 0) := by
  rw [genMat, turn, buildH, smul_smul, blk_smul]
  refine blk_congr ?_ ?_ ?_ ?_
  · ext i j
    simp only [cj, one_apply, Matrix.smul_apply, Matrix.neg_apply, smul_eq_mul]
    by_cases h : i = j
    · simp [h, cj, Complex.conj_ofNat]
      linear_combination (-(Real.pi : ℂ) / 4) * Complex.I_sq
    · simp [h, cj]
  · simp
  · ext i j; simp [cj]
  · ext i j
    by_cases h : i = j
    · simp [h]
      linear_combination ((Real.pi : ℂ) / 4) * Complex.I_sq
    · simp [h]

section
variable {σ : Type} (rng : Rng σ) (logm : (d : ℕ) → Op d → Op d)

/-- C135: the script of the documentation raises AssertionError for the draws that rotate every mode by a quarter turn, for any number of
sites but one. -/
theorem C135_script_violation (hl : Spec.LogmOk logm) (k : ℕ) (hk : 1 ≤ k) :
    ∃ rng : Rng ℕ, Spec.DrawsOk rng ∧ ∀ schur argsort, ((completeExample rng logm k schur argsort).exec 0).1 = .error .assertionError := by
  obtain ⟨rng, hd, s', hC⟩ := (C121_orbital (k + 1) (turn (k + 1))).2
    ⟨mem_unitaryGroup_iff.2 (turn_unitary _), turn_symp _, turn_det _⟩
  refine ⟨rng, hd, fun schur argsort => ?_⟩
  have st : Spec.StartState rng none 0 0 := Or.inl ⟨rfl, rfl⟩
  rw [exec_orb rng hd (k + 1) st] at hC
  have h1 := Except.ok.inj (Prod.mk.inj hC).1
  have hG := exec_rotH rng hd logm (n := k + 1) (by omega) st
  rw [h1, log_unique (turn_unitary _) (hl _ _ (turn_unitary _)) (turn_log _), turn_gen] at hG
  have hr : ∃ ρ t, (randomFFStateMixed rng logm (k + 1) false none true).exec 0 = (.ok (ρ, some (Spec.quad (Spec.dropSmall 1e-10
      (buildH (k + 1) (((-(Real.pi / 4) : ℝ) : ℂ) • 1) (some 0))) (al (k + 1)))), t) := by
    rw [randomFFStateMixed, exec_bind_ok (exec_seed rng st)]
    simp only [Bool.false_eq_true, if_false]
    rw [exec_bind_ok hG, exec_bind_ok (exec_draw _ _)]
    exact ⟨_, _, rfl⟩
  obtain ⟨ρ, t, hr⟩ := hr
  rw [completeExample, exec_bind_ok hr]
  simp only
  rw [jordanWignerAlphas_eq, exec_bind_ok (exec_noDraw_ok (C43_entries ρ (al (k + 1)) 0).1 t)]
  have hA : (((-(Real.pi / 4) : ℝ) : ℂ) • (1 : Op (k + 1))).IsHermitian := by
    rw [IsHermitian, conjTranspose_smul, conjTranspose_one]; simp
  have h6 : (6e-9 : ℝ) < ‖(((-(Real.pi / 4) : ℝ) : ℂ) • (1 : Op (k + 1))) (Fin.succ ⟨0, hk⟩) (Fin.succ ⟨0, hk⟩)‖ := by
    rw [Matrix.smul_apply, one_apply_eq, smul_eq_mul, mul_one, Complex.norm_real, Real.norm_eq_abs, abs_neg, abs_of_pos (by positivity)]
    have := Real.two_le_pi
    norm_num
    linarith
  have h7 := C135_rejects k _ 0 hA ⟨0, hk⟩ h6 _ (by rw [jordanWignerAlphas_eq]; exact buildOp_square _ _ (by omega)) schur argsort
  rw [exec_bind_error (s' := t) (e := .assertionError)]
  rw [exec_noDraw]
  exact congrArg (fun r => (r, t)) h7

end

end FF.Props
