import Verif.Proofs.ManyBody
import Verif.Proofs.Gauss

/-! # Helper lemmas: the correlations of an evolved state -/

namespace FF

open Matrix
open scoped ComplexOrder

variable {n : ℕ}

theorem heis_conj {R : Op (n + n)} (hR : R.IsHermitian) (t : ℝ) {W : Op (2 ^ n)}
    (hW : W = expm ((-Complex.I * t) • Spec.quad R (al n))) :
    W * Wᴴ = 1 ∧ ∀ k, Wᴴ * al n k * W = comb (expm ((-Complex.I * t) • adM R) k) := by
  have hs : (((-Complex.I * t) • Spec.quad R (al n)))ᴴ = -((-Complex.I * t) • Spec.quad R (al n)) := by
    rw [conjTranspose_smul, (quad_herm hR (al n)).eq, ← neg_smul]
    congr 1
    simp
  have hU : W * Wᴴ = 1 := hW ▸ expm_unitary hs
  have hU' : Wᴴ * W = 1 := mul_eq_one_comm.1 hU
  refine ⟨hU, fun k => ?_⟩
  have := heis_quad R (-Complex.I * t) k
  rw [← hW] at this
  rw [Matrix.mul_assoc, this, ← Matrix.mul_assoc, hU', one_mul]
  rfl

theorem evolve_P {R : Op (n + n)} (hR : R.IsHermitian) (t : ℝ) (ρ : Op (2 ^ n)) {W : Op (2 ^ n)}
    (hW : W = expm ((-Complex.I * t) • Spec.quad R (al n))) :
    corrP (W * ρ * Wᴴ) = expm ((-Complex.I * t) • adM R) * corrP ρ * (expm ((-Complex.I * t) • adM R))ᴴ := by
  obtain ⟨hU, hc⟩ := heis_conj hR t hW
  ext i j
  rw [corr_quad, ← hc, ← hc, corrP, of_apply]
  simp only [conjTranspose_mul, conjTranspose_conjTranspose]
  have e : Wᴴ * al n i * W * (Wᴴ * ((al n j)ᴴ * W)) = Wᴴ * (al n i * (al n j)ᴴ) * W := by
    rw [show Wᴴ * al n i * W * (Wᴴ * ((al n j)ᴴ * W)) = Wᴴ * al n i * (W * Wᴴ) * ((al n j)ᴴ * W) by
      simp only [Matrix.mul_assoc], hU, mul_one]
    simp only [Matrix.mul_assoc]
  rw [e, trace_mul_comm ρ, show W * ρ * Wᴴ * al n i * (al n j)ᴴ = W * (ρ * Wᴴ * al n i * (al n j)ᴴ) by
    simp only [Matrix.mul_assoc], trace_mul_comm W, show ρ * Wᴴ * al n i * (al n j)ᴴ * W =
    ρ * (Wᴴ * (al n i * (al n j)ᴴ) * W) by simp only [Matrix.mul_assoc], trace_mul_comm ρ]

theorem evolve_G {R : Op (n + n)} (hR : R.IsHermitian) (t : ℝ) (ρ : Op (2 ^ n)) {W : Op (2 ^ n)}
    (hW : W = expm ((-Complex.I * t) • Spec.quad R (al n))) :
    gam (al n) (W * ρ * Wᴴ) =
      expm ((-Complex.I * t) • adM R) * gam (al n) ρ * (expm ((-Complex.I * t) • adM R))ᵀ := by
  obtain ⟨hU, hc⟩ := heis_conj hR t hW
  have hq : ∀ v w : Fin (n + n) → ℂ, (ρ * (comb v * comb w)).trace = ∑ k, ∑ l, v k * w l * gam (al n) ρ k l := by
    intro v w
    simp only [comb, Matrix.sum_mul, Matrix.mul_sum, trace_sum, Matrix.smul_mul, Matrix.mul_smul, trace_smul, smul_eq_mul,
      gam, of_apply, Matrix.mul_assoc]
    rw [Finset.sum_comm]
    refine Finset.sum_congr rfl fun k _ => ?_
    rw [Finset.mul_sum]
    refine Finset.sum_congr rfl fun l _ => ?_
    ring
  ext i j
  have e : Wᴴ * al n i * W * (Wᴴ * al n j * W) = Wᴴ * (al n i * al n j) * W := by
    rw [show Wᴴ * al n i * W * (Wᴴ * al n j * W) = Wᴴ * al n i * (W * Wᴴ) * (al n j * W) by
      simp only [Matrix.mul_assoc], hU, mul_one]
    simp only [Matrix.mul_assoc]
  have h1 : gam (al n) (W * ρ * Wᴴ) i j = (ρ * (comb (expm ((-Complex.I * t) • adM R) i) *
      comb (expm ((-Complex.I * t) • adM R) j))).trace := by
    rw [← hc, ← hc, e, gam, of_apply, show W * ρ * Wᴴ * al n i * al n j = W * (ρ * Wᴴ * al n i * al n j) by
      simp only [Matrix.mul_assoc], trace_mul_comm W]
    simp only [Matrix.mul_assoc]
  rw [h1, hq, mul_apply, Finset.sum_comm]
  refine Finset.sum_congr rfl fun l _ => ?_
  rw [mul_apply, Finset.sum_mul, transpose_apply]
  refine Finset.sum_congr rfl fun k _ => ?_
  ring

theorem evolve_unitary {R : Op (n + n)} (hR : R.IsHermitian) (t : ℝ) :
    expm ((-Complex.I * t) • adM R) * (expm ((-Complex.I * t) • adM R))ᴴ = 1 := by
  apply expm_unitary
  rw [conjTranspose_smul, (adM_herm hR).eq, ← neg_smul]
  congr 1
  simp

end FF
