import Verif.Proofs.Overlap2
import Verif.Props.GaussSpectrum
import Verif.Props.Entangle

/-! # Property C165: the overlap of two free-fermion states from their correlation matrices

Throughout, `P` and `Q` are the `2n x 2n` matrices that `compute_2corr_matrix(_, conjugation=1)` gives for the two states. -/

namespace FF.Props

open Matrix
open scoped ComplexOrder

open scoped MatrixOrder in
theorem psd_factor {d : ℕ} {ρ : Op d} (hρ : ρ.PosSemidef) : ∃ C : Op d, ρ = Cᴴ * C :=
  CStarAlgebra.nonneg_iff_eq_star_mul_self.mp hρ.nonneg

theorem psd_trace_mul {d : ℕ} {ρ σ : Op d} (hρ : ρ.PosSemidef) (hσ : σ.PosSemidef) :
    0 ≤ (ρ * σ).trace ∧ ((ρ * σ).trace = 0 ↔ ρ * σ = 0) := by
  obtain ⟨C, rfl⟩ := psd_factor hρ
  obtain ⟨D, rfl⟩ := psd_factor hσ
  have h : (Cᴴ * C * (Dᴴ * D)).trace = (C * Dᴴ * (C * Dᴴ)ᴴ).trace := by
    rw [conjTranspose_mul, conjTranspose_conjTranspose, Matrix.mul_assoc, trace_mul_comm]
    simp only [Matrix.mul_assoc]
  refine ⟨?_, fun h0 => ?_, fun h0 => by rw [h0, trace_zero]⟩
  · rw [h]
    exact (posSemidef_self_mul_conjTranspose _).trace_nonneg
  · rw [h] at h0
    have h1 := trace_mul_conjTranspose_self_eq_zero_iff.1 h0
    calc Cᴴ * C * (Dᴴ * D) = Cᴴ * (C * Dᴴ) * D := by simp only [Matrix.mul_assoc]
      _ = 0 := by rw [h1, Matrix.mul_zero, Matrix.zero_mul]

theorem sqrt_of_sq {z w : ℂ} (hz : 0 ≤ z) (h : z ^ 2 = w) : z = ((Real.sqrt w.re : ℝ) : ℂ) := by
  obtain ⟨hr, hi⟩ := Complex.nonneg_iff.1 hz
  have hz' : z = ((z.re : ℝ) : ℂ) := Complex.ext rfl (by simpa using hi.symm)
  have hw : w.re = z.re ^ 2 := by rw [← h, hz', ← Complex.ofReal_pow, Complex.ofReal_re, Complex.ofReal_re]
  rw [hw, Real.sqrt_sq hr]
  exact hz'

/-! ## C165 -/

section
variable {n : ℕ} {f : Fin (n + n) → Op (2 ^ n)} {ρ σ : Op (2 ^ n)}

/-- C165. The overlap `Tr(ρσ)` of two states that obey Wick's theorem is not negative and its square is
`det(PQ + (1 - P)(1 - Q))`. -/
theorem C165_overlap (hf : jordanWignerAlphas n = List.ofFn f) (hρ : Spec.IsDensity ρ) (hw : Spec.ObeysWick f ρ)
    (hσ : Spec.IsDensity σ) (hw' : Spec.ObeysWick f σ) (P Q : Op (n + n))
    (hP : compute2Corr ρ n (jordanWignerAlphas n) (some 1) = .ok P)
    (hQ : compute2Corr σ n (jordanWignerAlphas n) (some 1) = .ok Q) :
    0 ≤ (ρ * σ).trace ∧ (ρ * σ).trace ^ 2 = (P * Q + (1 - P) * (1 - Q)).det ∧
    (ρ * σ).trace = ((Real.sqrt (P * Q + (1 - P) * (1 - Q)).det.re : ℝ) : ℂ) := by
  obtain rfl := corrP_code hP
  obtain rfl := corrP_code hQ
  rw [jordanWignerAlphas_eq] at hf
  obtain rfl := List.ofFn_injective hf
  have h0 := (psd_trace_mul hρ.psd hσ.psd).1
  have h := wick_overlap hρ hw hσ hw'
  exact ⟨h0, h, sqrt_of_sq h0 h⟩

/-- C165. Two such states are orthogonal exactly if this determinant is zero. -/
theorem C165_orthogonal (hf : jordanWignerAlphas n = List.ofFn f) (hρ : Spec.IsDensity ρ) (hw : Spec.ObeysWick f ρ)
    (hσ : Spec.IsDensity σ) (hw' : Spec.ObeysWick f σ) (P Q : Op (n + n))
    (hP : compute2Corr ρ n (jordanWignerAlphas n) (some 1) = .ok P)
    (hQ : compute2Corr σ n (jordanWignerAlphas n) (some 1) = .ok Q) :
    ρ * σ = 0 ↔ (P * Q + (1 - P) * (1 - Q)).det = 0 := by
  rw [← (psd_trace_mul hρ.psd hσ.psd).2, ← (C165_overlap hf hρ hw hσ hw' P Q hP hQ).2.1, sq_eq_zero_iff]

/-- C165. The squared Hilbert-Schmidt distance of two such states from the correlation matrices. -/
theorem C165_distance (hf : jordanWignerAlphas n = List.ofFn f) (hρ : Spec.IsDensity ρ) (hw : Spec.ObeysWick f ρ)
    (hσ : Spec.IsDensity σ) (hw' : Spec.ObeysWick f σ) (P Q : Op (n + n))
    (hP : compute2Corr ρ n (jordanWignerAlphas n) (some 1) = .ok P)
    (hQ : compute2Corr σ n (jordanWignerAlphas n) (some 1) = .ok Q) :
    ((ρ - σ) * (ρ - σ)).trace = ((Real.sqrt (P * P + (1 - P) * (1 - P)).det.re + Real.sqrt (Q * Q + (1 - Q) * (1 - Q)).det.re
      - 2 * Real.sqrt (P * Q + (1 - P) * (1 - Q)).det.re : ℝ) : ℂ) := by
  have h1 := (C165_overlap hf hρ hw hρ hw P P hP hP).2.2
  have h2 := (C165_overlap hf hσ hw' hσ hw' Q Q hQ hQ).2.2
  have h3 := (C165_overlap hf hρ hw hσ hw' P Q hP hQ).2.2
  have h4 : (σ * ρ).trace = (ρ * σ).trace := trace_mul_comm _ _
  rw [Matrix.mul_sub, Matrix.sub_mul, Matrix.sub_mul, trace_sub, trace_sub, trace_sub, h4, h1, h2, h3]
  push_cast
  ring

/-- C165. For two pure states the determinant is the fourth power of the modulus of their inner product. -/
theorem C165_pure (hf : jordanWignerAlphas n = List.ofFn f) {ψ φ : Fin (2 ^ n) → ℂ} (hψ : Spec.IsUnitVec ψ)
    (hw : Spec.ObeysWick f (Spec.proj ψ)) (hφ : Spec.IsUnitVec φ) (hw' : Spec.ObeysWick f (Spec.proj φ)) (P Q : Op (n + n))
    (hP : compute2Corr (Spec.proj ψ) n (jordanWignerAlphas n) (some 1) = .ok P)
    (hQ : compute2Corr (Spec.proj φ) n (jordanWignerAlphas n) (some 1) = .ok Q) :
    ((‖star ψ ⬝ᵥ φ‖ ^ 4 : ℝ) : ℂ) = (P * Q + (1 - P) * (1 - Q)).det := by
  have h1 : (Spec.proj ψ * Spec.proj φ).trace = (star ψ ⬝ᵥ φ) * star (star ψ ⬝ᵥ φ) := by
    simp only [trace, diag_apply, Matrix.mul_apply, Spec.proj, of_apply, dotProduct, Pi.star_apply, star_sum, star_mul',
      star_star, Finset.sum_mul_sum]
    rw [Finset.sum_comm]
    refine Finset.sum_congr rfl fun i _ => Finset.sum_congr rfl fun j _ => ?_
    ring
  rw [← (C165_overlap hf (proj_density hψ) hw (proj_density hφ) hw' P Q hP hQ).2.1, h1, Complex.star_def, Complex.mul_conj']
  push_cast
  ring

end

section
variable {n : ℕ}

/-- C165. In particular for the pure states of two calls of `random_FF_state`. -/
theorem C165_random {s : Type} (rng : Rng s) (logm : (d : ℕ) → Op d → Op d) (hd : Spec.DrawsOk rng) (hl : Spec.LogmOk logm)
    (hn : 1 ≤ n) (returnH returnH' : Bool) (seed seed' : Option ℤ) (s1 s1' s1'' s2 s2' s2'' : s)
    (h1 : Spec.StartState rng seed s1 s1') (h2 : Spec.StartState rng seed' s2 s2') (ψ φ : Fin (2 ^ n) → ℂ)
    (G G' : Option (Op (2 ^ n))) (hrun : (randomFFStatePure rng logm n seed returnH).exec s1 = (.ok (ψ, G), s1''))
    (hrun' : (randomFFStatePure rng logm n seed' returnH').exec s2 = (.ok (φ, G'), s2'')) (P Q : Op (n + n))
    (hP : compute2Corr (Spec.proj ψ) n (jordanWignerAlphas n) (some 1) = .ok P)
    (hQ : compute2Corr (Spec.proj φ) n (jordanWignerAlphas n) (some 1) = .ok Q) :
    ((‖star ψ ⬝ᵥ φ‖ ^ 4 : ℝ) : ℂ) = (P * Q + (1 - P) * (1 - Q)).det := by
  obtain ⟨g, hg, -⟩ := C28_majoranas n
  have a1 := (C88_random_pure rng logm hd hl hn returnH seed s1 s1' s1'' h1 ψ G hrun (jordanWignerAlphas_eq n) hg).1
  have a2 := (C88_random_pure rng logm hd hl hn returnH' seed' s2 s2' s2'' h2 φ G' hrun' (jordanWignerAlphas_eq n) hg).1
  exact C165_pure (jordanWignerAlphas_eq n) (modes_random_pure rng logm hd hl hn returnH seed s1 s1' s1'' h1 ψ G hrun).2 a1
    (modes_random_pure rng logm hd hl hn returnH' seed' s2 s2' s2'' h2 φ G' hrun').2 a2 P Q hP hQ

/-- C165. In particular for two states of `generate_gaussian_state`. -/
theorem C165_thermal (hn : 3 ≤ n) (H K : Op (n + n)) (hH : H.IsHermitian) (hK : K.IsHermitian) (ρ σ : Op (2 ^ n))
    (hρ : generateGaussianState n H none = .ok (some ρ)) (hσ : generateGaussianState n K none = .ok (some σ)) (P Q : Op (n + n))
    (hP : compute2Corr ρ n (jordanWignerAlphas n) (some 1) = .ok P)
    (hQ : compute2Corr σ n (jordanWignerAlphas n) (some 1) = .ok Q) :
    (ρ * σ).trace = ((Real.sqrt (P * Q + (1 - P) * (1 - Q)).det.re : ℝ) : ℂ) ∧ (P * Q + (1 - P) * (1 - Q)).det ≠ 0 := by
  obtain ⟨g, hg, -⟩ := C28_majoranas n
  have hw := (C88_thermal hn H hH ρ hρ (jordanWignerAlphas_eq n) hg).1
  have hw' := (C88_thermal hn K hK σ hσ (jordanWignerAlphas_eq n) hg).1
  obtain ⟨X, ρ', -, h2, -, h4, h5⟩ := C41_coefficients_partial n hn H hH (al n)
  rw [C41_default, jordanWignerAlphas_eq, h2] at hρ
  obtain rfl : ρ' = ρ := by simpa using hρ
  obtain ⟨Y, σ', -, k2, -, k4, k5⟩ := C41_coefficients_partial n hn K hK (al n)
  rw [C41_default, jordanWignerAlphas_eq, k2] at hσ
  obtain rfl : σ' = σ := by simpa using hσ
  have hd : Spec.IsDensity ρ' := ⟨h4.posSemidef, h5⟩
  have hd' : Spec.IsDensity σ' := ⟨k4.posSemidef, k5⟩
  refine ⟨(C165_overlap (jordanWignerAlphas_eq n) hd hw hd' hw' P Q hP hQ).2.2, fun h0 => ?_⟩
  have h6 := (C165_orthogonal (jordanWignerAlphas_eq n) hd hw hd' hw' P Q hP hQ).2 h0
  obtain ⟨u, hu⟩ := h4.isUnit
  rw [← hu, Units.mul_right_eq_zero] at h6
  rw [h6, trace_zero] at k5
  exact zero_ne_one k5

end

/-- The hypotheses of `C165_overlap` are met by two different states, the thermal states of two Kitaev chains of three sites. -/
example : ∃ (ρ σ : Op (2 ^ 3)) (P Q : Op (3 + 3)), Spec.IsDensity ρ ∧ Spec.ObeysWick (al 3) ρ ∧ Spec.IsDensity σ ∧
    Spec.ObeysWick (al 3) σ ∧ jordanWignerAlphas 3 = List.ofFn (al 3) ∧
    generateGaussianState 3 (kitaevChain 3 1 1 1) none = .ok (some ρ) ∧
    generateGaussianState 3 (kitaevChain 3 2 1 1) none = .ok (some σ) ∧
    compute2Corr ρ 3 (jordanWignerAlphas 3) (some 1) = .ok P ∧ compute2Corr σ 3 (jordanWignerAlphas 3) (some 1) = .ok Q := by
  obtain ⟨g, hg, -⟩ := C28_majoranas 3
  have key : ∀ mu : ℝ, ∃ (ρ : Op (2 ^ 3)) (P : Op (3 + 3)), Spec.IsDensity ρ ∧ Spec.ObeysWick (al 3) ρ ∧
      generateGaussianState 3 (kitaevChain 3 mu 1 1) none = .ok (some ρ) ∧
      compute2Corr ρ 3 (jordanWignerAlphas 3) (some 1) = .ok P := fun mu => by
    have hH := (C36_structure 3 mu 1 1).1
    obtain ⟨Q, ρ, -, h2, -, h4, h5⟩ := C41_coefficients_partial 3 le_rfl _ hH (al 3)
    rw [← jordanWignerAlphas_eq, ← C41_default] at h2
    obtain ⟨P, hP⟩ : ∃ P, compute2Corr ρ 3 (jordanWignerAlphas 3) (some 1) = .ok P := by
      rw [jordanWignerAlphas_eq]; exact ⟨_, (C43_entries ρ (al 3) 1).2⟩
    exact ⟨ρ, P, ⟨h4.posSemidef, h5⟩, (C88_thermal le_rfl _ hH ρ h2 (jordanWignerAlphas_eq 3) hg).1, h2, hP⟩
  obtain ⟨ρ, P, a1, a2, a3, a4⟩ := key 1
  obtain ⟨σ, Q, b1, b2, b3, b4⟩ := key 2
  exact ⟨ρ, σ, P, Q, a1, a2, b1, b2, jordanWignerAlphas_eq 3, a3, b3, a4, b4⟩

/-- Both cases of `C165_orthogonal` occur: the filled and the empty site, with `P = diag(1, 0)` and `Q = diag(0, 1)`, are
orthogonal, and the filled site is not orthogonal to itself. -/
example : ((diagonal ![1, 0] : Op (1 + 1)) * diagonal ![0, 1] + (1 - diagonal ![1, 0]) * (1 - diagonal ![0, 1])).det = 0 ∧
    ((diagonal ![1, 0] : Op (1 + 1)) * diagonal ![1, 0] + (1 - diagonal ![1, 0]) * (1 - diagonal ![1, 0])).det = 1 := by
  have h1 : (1 : Op (1 + 1)) = diagonal ![1, 1] := by
    ext i j; fin_cases i <;> fin_cases j <;> simp
  rw [h1]
  simp only [diagonal_sub, diagonal_mul_diagonal, diagonal_add, det_diagonal]
  constructor <;> simp

end FF.Props
