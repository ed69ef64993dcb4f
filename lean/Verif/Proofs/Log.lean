import Verif.Proofs.Eigen
import Verif.Model.Random
import Verif.Spec.Random
import Mathlib.LinearAlgebra.Eigenspace.Triangularizable
import Mathlib.Analysis.SpecialFunctions.Complex.Log
import Mathlib.Analysis.Complex.Polynomial.Basic

/-! # Proofs: the principal logarithm of a unitary matrix -/

namespace FF

open Matrix
open scoped ComplexConjugate

theorem expm_sq_zero {d : ℕ} {J : Op d} (h : J * J = 0) : expm J = 1 + J := by
  letI := Matrix.linftyOpNormedRing (n := Fin d) (α := ℂ)
  letI := Matrix.linftyOpNormedAlgebra (n := Fin d) (R := ℂ) (α := ℂ)
  have h1 := NormedSpace.exp_series_hasSum_exp' (𝕂 := ℂ) J
  have h2 := hasSum_sum_of_ne_finset_zero (f := fun n : ℕ => ((n.factorial : ℂ)⁻¹) • J ^ n) (s := Finset.range 2) (L := SummationFilter.unconditional ℕ)
    (fun n hn => by
      have : 2 ≤ n := by
        have h : 1 < n := by simpa using hn
        exact h
      obtain ⟨k, rfl⟩ := Nat.exists_eq_add_of_le this
      rw [pow_add, pow_two, h, zero_mul, smul_zero])
  have h3 := h1.unique h2
  refine (show expm J = _ from h3).trans ?_
  simp [Finset.sum_range_succ]

theorem jordan_step {d : ℕ} (L : Op d) (μ : ℂ) (x y : Fin d → ℂ) (hx : L *ᵥ x = μ • x + y) (hy : L *ᵥ y = μ • y) :
    expm L *ᵥ x = Complex.exp μ • (x + y) := by
  set J : Op 2 := !![0, 0; 1, 0] with hJ
  set D : Op 2 := diagonal fun _ => μ with hD
  have hJJ : J * J = 0 := by rw [hJ]; ext i j; fin_cases i <;> fin_cases j <;> simp
  have hcomm : Commute D J := by
    rw [hD]
    have : (diagonal fun _ : Fin 2 => μ) = μ • (1 : Op 2) := by ext i j; simp [diagonal_apply, one_apply]
    rw [this]
    exact (Commute.one_left J).smul_left μ
  set X : Matrix (Fin d) (Fin 2) ℂ := Matrix.of fun i j => if j = 0 then x i else y i with hX
  have hLX : L * X = X * (D + J) := by
    ext i j
    fin_cases j
    · have := congrFun hx i
      simp only [mulVec, dotProduct, Pi.smul_apply, Pi.add_apply, smul_eq_mul] at this
      simp [mul_apply, hX, hD, hJ, this, mul_comm]
    · have := congrFun hy i
      simp only [mulVec, dotProduct, Pi.smul_apply, smul_eq_mul] at this
      simp [mul_apply, hX, hD, hJ, this, mul_comm]
  have h1 := expm_intertwine L (D + J) X hLX
  have h2 : expm (D + J) = expm D * expm J := by
    rw [expm, expm, expm, Matrix.exp_add_of_commute _ _ hcomm]
  have hDe : expm D = diagonal (NormedSpace.exp fun _ : Fin 2 => μ) := by rw [expm, hD, Matrix.exp_diagonal]
  rw [h2, expm_sq_zero hJJ, hDe] at h1
  funext i
  have h3 := congrFun (congrFun h1 i) 0
  simp only [Pi.smul_apply, Pi.add_apply, smul_eq_mul]
  have h4 : (expm L * X) i 0 = (expm L *ᵥ x) i := by
    simp [mul_apply, hX, mulVec, dotProduct]
  rw [← h4, h3]
  simp [mul_apply, hX, hJ, Fin.sum_univ_two, diagonal_apply, Pi.coe_exp, Complex.exp_eq_exp_ℂ]
  ring

/-! ## the sesquilinear product -/

theorem inner_mul_left {d : ℕ} (M : Op d) (x y : Fin d → ℂ) : Spec.inner (M *ᵥ x) y = Spec.inner x (Mᴴ *ᵥ y) := by
  have h1 : Spec.inner (M *ᵥ x) y = star (M *ᵥ x) ⬝ᵥ y := rfl
  have h2 : Spec.inner x (Mᴴ *ᵥ y) = star x ⬝ᵥ (Mᴴ *ᵥ y) := rfl
  rw [h1, h2, star_mulVec, dotProduct_mulVec]

theorem inner_smul_left {d : ℕ} (c : ℂ) (x y : Fin d → ℂ) : Spec.inner (c • x) y = conj c * Spec.inner x y := by
  simp [Spec.inner, Finset.mul_sum, mul_assoc]

theorem inner_smul_right {d : ℕ} (c : ℂ) (x y : Fin d → ℂ) : Spec.inner x (c • y) = c * Spec.inner x y := by
  simp only [Spec.inner, Finset.mul_sum, Pi.smul_apply, smul_eq_mul]
  exact Finset.sum_congr rfl fun i _ => by ring

theorem inner_add_left {d : ℕ} (x x' y : Fin d → ℂ) : Spec.inner (x + x') y = Spec.inner x y + Spec.inner x' y := by
  simp [Spec.inner, add_mul, Finset.sum_add_distrib]

theorem inner_add_right {d : ℕ} (x y y' : Fin d → ℂ) : Spec.inner x (y + y') = Spec.inner x y + Spec.inner x y' := by
  simp [Spec.inner, mul_add, Finset.sum_add_distrib]

theorem inner_zero_left {d : ℕ} (y : Fin d → ℂ) : Spec.inner 0 y = 0 := by simp [Spec.inner]

theorem inner_zero_right {d : ℕ} (x : Fin d → ℂ) : Spec.inner x 0 = 0 := by simp [Spec.inner]

theorem inner_self {d : ℕ} (x : Fin d → ℂ) : Spec.inner x x = ((∑ i, ‖x i‖ ^ 2 : ℝ) : ℂ) := by
  rw [Spec.inner]; push_cast
  refine Finset.sum_congr rfl fun i _ => ?_
  have := Complex.normSq_eq_conj_mul_self (z := x i)
  rw [Complex.star_def, ← this, Complex.normSq_eq_norm_sq]; push_cast; ring

theorem inner_self_zero {d : ℕ} {x : Fin d → ℂ} (h : Spec.inner x x = 0) : x = 0 := by
  rw [inner_self] at h
  have h1 : ∑ i, ‖x i‖ ^ 2 = 0 := by exact_mod_cast h
  rw [Finset.sum_eq_zero_iff_of_nonneg (fun i _ => by positivity)] at h1
  funext i
  have := h1 i (Finset.mem_univ i)
  simpa using this

theorem inner_symm {d : ℕ} (x y : Fin d → ℂ) : conj (Spec.inner x y) = Spec.inner y x := by
  simp [Spec.inner, mul_comm]

theorem ext_inner {d : ℕ} {M N : Op d} (h : ∀ x y, Spec.inner x (M *ᵥ y) = Spec.inner x (N *ᵥ y)) : M = N := by
  ext i j
  have := h (Pi.single i 1) (Pi.single j 1)
  simpa [Spec.inner, Pi.single_apply, mulVec_single_one] using this

theorem inner_unitary {d : ℕ} {C : Op d} (hC : Cᴴ * C = 1) (x y : Fin d → ℂ) :
    Spec.inner (C *ᵥ x) (C *ᵥ y) = Spec.inner x y := by
  rw [inner_mul_left, mulVec_mulVec, hC, one_mulVec]

/-! ## diagonalisability -/

/-- A logarithm of a unitary matrix has no Jordan blocks of size two. -/
theorem no_jordan {d : ℕ} {L : Op d} (hU : (expm L)ᴴ * expm L = 1) (μ : ℂ) (x y : Fin d → ℂ)
    (hx : L *ᵥ x = μ • x + y) (hy : L *ᵥ y = μ • y) : y = 0 := by
  have hCx := jordan_step L μ x y hx hy
  have hCy := expm_eigenvector L y μ hy
  set e := Complex.exp μ with he
  have h1 : conj e * (e * Spec.inner y y) = Spec.inner y y := by
    rw [← inner_smul_right, ← inner_smul_left, ← hCy, inner_unitary hU]
  by_contra hne
  have hyy : Spec.inner y y ≠ 0 := fun h => hne (inner_self_zero h)
  have he1 : conj e * e = 1 := by
    have : (conj e * e) * Spec.inner y y = 1 * Spec.inner y y := by rw [one_mul, mul_assoc]; exact h1
    exact mul_right_cancel₀ hyy this
  -- <y, x> = <Cy, Cx> = <y, x + y>
  have h2 : Spec.inner y x = conj e * e * (Spec.inner y x + Spec.inner y y) := by
    conv_lhs => rw [← inner_unitary hU y x, hCx, hCy, inner_smul_left, inner_smul_right, inner_add_right]
    ring
  rw [he1, one_mul] at h2
  exact hyy (by linear_combination -h2)

/-- Induction over eigenvectors. -/
theorem eig_induction {d : ℕ} {L : Op d} (hU : (expm L)ᴴ * expm L = 1) {p : (Fin d → ℂ) → Prop} (h0 : p 0)
    (hadd : ∀ a b, p a → p b → p (a + b)) (he : ∀ (μ : ℂ) (v : Fin d → ℂ), L *ᵥ v = μ • v → p v) (v : Fin d → ℂ) : p v := by
  set f : Module.End ℂ (Fin d → ℂ) := Matrix.toLin' L with hf
  have hfa : ∀ v, f v = L *ᵥ v := fun v => by rw [hf, Matrix.toLin'_apply]
  have hstep : ∀ (μ : ℂ) (k : ℕ) (v : Fin d → ℂ), ((f - algebraMap ℂ _ μ) ^ k) v = 0 → L *ᵥ v = μ • v := by
    intro μ k
    have hN : ∀ v, (f - algebraMap ℂ (Module.End ℂ (Fin d → ℂ)) μ) v = L *ᵥ v - μ • v := fun v => by
      rw [LinearMap.sub_apply, hfa, Module.algebraMap_end_apply]
    set N := f - algebraMap ℂ (Module.End ℂ (Fin d → ℂ)) μ with hNdef
    induction k with
    | zero => intro v hv; have : v = 0 := by simpa using hv
              rw [this]; simp
    | succ k ih =>
      intro v hv
      rw [pow_succ, Module.End.mul_apply] at hv
      have h1 := ih _ hv
      have h2 := no_jordan hU μ v (N v) (by rw [hN]; abel) h1
      rw [hN] at h2
      exact sub_eq_zero.1 h2
  have htop := Module.End.iSup_maxGenEigenspace_eq_top f
  have hv : v ∈ ⨆ μ, Module.End.maxGenEigenspace f μ := by rw [htop]; trivial
  refine Submodule.iSup_induction (fun μ => Module.End.maxGenEigenspace f μ) (motive := p) hv ?_ h0 hadd
  intro μ w hw
  rw [Module.End.mem_maxGenEigenspace] at hw
  obtain ⟨k, hk⟩ := hw
  exact he μ w (hstep μ k w (by rw [Algebra.algebraMap_eq_smul_one]; exact hk))

theorem exp_strip_inj {a b : ℂ} (ha : -Real.pi < a.im ∧ a.im ≤ Real.pi) (hb : -Real.pi < b.im ∧ b.im ≤ Real.pi)
    (h : Complex.exp a = Complex.exp b) : a = b := by
  have h1 := Complex.log_exp ha.1 ha.2
  have h2 := Complex.log_exp hb.1 hb.2
  rw [← h1, h, h2]

/-- Eigenvectors of a unitary matrix for different eigenvalues are orthogonal. -/
theorem unitary_orth {d : ℕ} {C : Op d} (hU : Cᴴ * C = 1) {a b : ℂ} {x y : Fin d → ℂ} (hx : C *ᵥ x = a • x)
    (hy : C *ᵥ y = b • y) (hab : a ≠ b) : Spec.inner x y = 0 := by
  by_cases hx0 : x = 0
  · rw [hx0, inner_zero_left]
  have h1 : Spec.inner x x = conj a * a * Spec.inner x x := by
    conv_lhs => rw [← inner_unitary hU, hx, inner_smul_left, inner_smul_right, ← mul_assoc]
  have h2 : conj a * a = 1 := by
    have hne : Spec.inner x x ≠ 0 := fun h => hx0 (inner_self_zero h)
    have : (conj a * a) * Spec.inner x x = 1 * Spec.inner x x := by rw [one_mul]; exact h1.symm
    exact mul_right_cancel₀ hne this
  have h3 : Spec.inner x y = conj a * b * Spec.inner x y := by
    conv_lhs => rw [← inner_unitary hU, hx, hy, inner_smul_left, inner_smul_right, ← mul_assoc]
  by_contra hne
  have h4 : conj a * b = 1 := by
    have : (conj a * b) * Spec.inner x y = 1 * Spec.inner x y := by rw [one_mul]; exact h3.symm
    exact mul_right_cancel₀ hne this
  apply hab
  have ha0 : conj a ≠ 0 := fun h => by rw [h] at h2; simp at h2
  exact mul_left_cancel₀ ha0 (h2.trans h4.symm)

theorem eig_unit {d : ℕ} {C : Op d} (hU : Cᴴ * C = 1) {a : ℂ} {x : Fin d → ℂ} (hx : C *ᵥ x = a • x) (hx0 : x ≠ 0) :
    conj a * a = 1 := by
  have h1 : Spec.inner x x = conj a * a * Spec.inner x x := by
    conv_lhs => rw [← inner_unitary hU, hx, inner_smul_left, inner_smul_right, ← mul_assoc]
  have hne : Spec.inner x x ≠ 0 := fun h => hx0 (inner_self_zero h)
  have : (conj a * a) * Spec.inner x x = 1 * Spec.inner x x := by rw [one_mul]; exact h1.symm
  exact mul_right_cancel₀ hne this

theorem exp_unit_im {μ : ℂ} (h : conj (Complex.exp μ) * Complex.exp μ = 1) : conj μ = -μ := by
  have h1 : Complex.normSq (Complex.exp μ) = 1 := by
    have := Complex.normSq_eq_conj_mul_self (z := Complex.exp μ)
    rw [h] at this; exact_mod_cast this
  have h2 : Real.exp μ.re ^ 2 = 1 := by
    rw [← Complex.norm_exp, ← Complex.normSq_eq_norm_sq]; exact h1
  have h3 : μ.re = 0 := by
    have : Real.exp μ.re = 1 := by
      have := Real.exp_pos μ.re
      nlinarith
    simpa using this
  apply Complex.ext <;> simp [h3]

/-- The principal logarithm of a unitary matrix is skew-Hermitian. -/
theorem log_skew {d : ℕ} {C L : Op d} (hC : C * Cᴴ = 1) (hL : Spec.IsPrincipalLog C L) : Lᴴ = -L := by
  have hexp : expm L = C := hL.exp_eq
  have hC' : Cᴴ * C = 1 := mul_eq_one_comm.1 hC
  have hU : (expm L)ᴴ * expm L = 1 := by rw [hexp]; exact hC'
  refine ext_inner fun x y => ?_
  rw [← inner_mul_left]
  refine eig_induction hU (p := fun x => Spec.inner (L *ᵥ x) y = Spec.inner x (-L *ᵥ y)) ?_ ?_ ?_ x
  · rw [mulVec_zero, inner_zero_left, inner_zero_left]
  · intro a b ha hb
    rw [mulVec_add, inner_add_left, ha, hb, inner_add_left]
  · intro μ x hx
    refine eig_induction hU (p := fun y => Spec.inner (L *ᵥ x) y = Spec.inner x (-L *ᵥ y)) ?_ ?_ ?_ y
    · rw [mulVec_zero, inner_zero_right, inner_zero_right]
    · intro a b ha hb
      rw [mulVec_add, inner_add_right, ha, hb, inner_add_right]
    · intro ν y hy
      by_cases hx0 : x = 0
      · rw [hx0, mulVec_zero, inner_zero_left, inner_zero_left]
      by_cases hy0 : y = 0
      · rw [hy0, mulVec_zero, inner_zero_right, inner_zero_right]
      have hcx := expm_eigenvector L x μ hx
      have hcy := expm_eigenvector L y ν hy
      have e : -L *ᵥ y = (-ν) • y := by rw [neg_mulVec, hy, neg_smul]
      rw [hx, e, inner_smul_left, inner_smul_right]
      by_cases h : μ = ν
      · rw [← h, exp_unit_im (eig_unit hU hcx hx0)]
      · have : Spec.inner x y = 0 := unitary_orth hU hcx hcy fun he =>
          h (exp_strip_inj (hL.strip μ x hx0 hx) (hL.strip ν y hy0 hy) he)
        rw [this, mul_zero, mul_zero]

/-- Two skew-Hermitian logarithms of the same matrix with eigenvalues in the strip agree. -/
theorem log_unique {d : ℕ} {C L M : Op d} (hC : C * Cᴴ = 1) (hL : Spec.IsPrincipalLog C L)
    (hM : Spec.IsPrincipalLog C M) : L = M := by
  have hC' : Cᴴ * C = 1 := mul_eq_one_comm.1 hC
  have heL : expm L = C := hL.exp_eq
  have heM : expm M = C := hM.exp_eq
  have hUL : (expm L)ᴴ * expm L = 1 := by rw [heL]; exact hC'
  have hUM : (expm M)ᴴ * expm M = 1 := by rw [heM]; exact hC'
  have hsM := log_skew hC hM
  refine ext_inner fun x y => ?_
  have e : Spec.inner x (M *ᵥ y) = Spec.inner (-(M *ᵥ x)) y := by
    rw [← neg_mulVec, inner_mul_left, conjTranspose_neg, hsM, neg_neg]
  rw [e]
  refine eig_induction hUM (p := fun x => Spec.inner x (L *ᵥ y) = Spec.inner (-(M *ᵥ x)) y) ?_ ?_ ?_ x
  · rw [mulVec_zero, neg_zero, inner_zero_left, inner_zero_left]
  · intro a b ha hb
    rw [mulVec_add, inner_add_left, ha, hb, neg_add, inner_add_left]
  · intro μ x hx
    refine eig_induction hUL (p := fun y => Spec.inner x (L *ᵥ y) = Spec.inner (-(M *ᵥ x)) y) ?_ ?_ ?_ y
    · rw [mulVec_zero, inner_zero_right, inner_zero_right]
    · intro a b ha hb
      rw [mulVec_add, inner_add_right, ha, hb, inner_add_right]
    · intro ν y hy
      by_cases hx0 : x = 0
      · rw [hx0, mulVec_zero, neg_zero, inner_zero_left, inner_zero_left]
      by_cases hy0 : y = 0
      · rw [hy0, mulVec_zero, inner_zero_right, inner_zero_right]
      have hcx : C *ᵥ x = _ := heM ▸ expm_eigenvector M x μ hx
      have hcy : C *ᵥ y = _ := heL ▸ expm_eigenvector L y ν hy
      rw [hx, ← neg_smul, inner_smul_left, hy, inner_smul_right]
      by_cases h : μ = ν
      · rw [map_neg, exp_unit_im (eig_unit hC' hcx hx0), neg_neg, h]
      · have : Spec.inner x y = 0 := unitary_orth hC' hcx hcy fun he =>
          h (exp_strip_inj (hM.strip μ x hx0 hx) (hL.strip ν y hy0 hy) he)
        rw [this, mul_zero, mul_zero]

theorem expm_cj {d : ℕ} (M : Op d) : expm (cj M) = cj (expm M) := by
  have h : cj M = (Mᴴ)ᵀ := by ext; rfl
  have h' : cj (expm M) = ((expm M)ᴴ)ᵀ := by ext; rfl
  rw [h, h', expm, expm, Matrix.exp_transpose, Matrix.exp_conjTranspose]

theorem cj_mulVec {d : ℕ} (M : Op d) (v : Fin d → ℂ) : cj M *ᵥ v = star (M *ᵥ star v) := by
  funext i; simp [cj, mulVec, dotProduct]

/-- The principal logarithm of a unitary of the form `[[s, t*], [t, s*]]` without eigenvalue -1 has the same form. -/
theorem log_canonical {n : ℕ} {C L : Op (n + n)} (hC : C * Cᴴ = 1) (hcan : IsCanonicalU C)
    (hne : Spec.NoMinusOne C) (hL : Spec.IsPrincipalLog C L) : IsCanonicalU L := by
  have hS : swapS n * swapS n = 1 := swapS_sq
  have hSi : (swapS n)⁻¹ = swapS n := inv_eq_right_inv hS
  refine (log_unique hC hL ⟨?_, ?_⟩).symm
  · have h1 := Matrix.exp_conj (swapS n) (cj L) (by rw [isUnit_iff_exists_inv]; exact ⟨_, hS⟩)
    rw [hSi] at h1
    rw [h1]
    have h2 : NormedSpace.exp (cj L) = cj C := by rw [← hL.exp_eq]; exact expm_cj L
    rw [h2]; exact hcan
  · intro μ v hv0 hv
    have h1 : L *ᵥ star (swapS n *ᵥ v) = conj μ • star (swapS n *ᵥ v) := by
      have h2 : cj L *ᵥ (swapS n *ᵥ v) = μ • (swapS n *ᵥ v) := by
        have := congrArg (fun u => swapS n *ᵥ u) hv
        simp only [mulVec_mulVec, mulVec_smul] at this
        rw [← this, mulVec_mulVec]
        congr 1
        rw [← mul_assoc, ← mul_assoc, hS, one_mul]
      rw [cj_mulVec] at h2
      have h3 := congrArg star h2
      rw [star_star, star_smul] at h3
      exact h3
    have h2 : star (swapS n *ᵥ v) ≠ 0 := by
      intro h
      apply hv0
      have h3 : swapS n *ᵥ v = 0 := by simpa using congrArg star h
      have h4 := congrArg (fun u => swapS n *ᵥ u) h3
      simpa [mulVec_mulVec, hS] using h4
    have h3 := hL.strip _ _ h2 h1
    simp only [Complex.conj_im] at h3
    refine ⟨?_, by linarith⟩
    rcases lt_or_eq_of_le h3.2 with h4 | h4
    · linarith
    · exfalso
      have h5 := expm_eigenvector L _ _ h1
      have heL : expm L = C := hL.exp_eq
      rw [heL] at h5
      have h6 : conj μ = Real.pi * Complex.I := by
        have h7 := exp_unit_im (eig_unit (mul_eq_one_comm.1 hC) h5 h2)
        rw [Complex.conj_conj] at h7
        have hre : μ.re = 0 := by
          have := congrArg Complex.re h7
          simp at this; linarith
        apply Complex.ext
        · simp [hre]
        · simpa using h4
      rw [h6, Complex.exp_pi_mul_I, neg_one_smul] at h5
      exact h2 (hne _ h5)

end FF
