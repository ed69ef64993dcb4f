import Verif.Proofs.Continuity
import Verif.Props.SreBounds

/-! # Lemmas for C144: continuity of the stabilizer distribution -/

namespace FF

open Finset Matrix
open scoped ComplexOrder

theorem squares_close {ι : Type} [Fintype ι] {u v : ι → ℝ} (hu : ∑ i, u i ^ 2 = 1) (hv : ∑ i, v i ^ 2 = 1) :
    1 / 2 * ∑ i, |u i ^ 2 - v i ^ 2| ≤ Real.sqrt (1 - (∑ i, u i * v i) ^ 2) := by
  apply Real.le_sqrt_of_sq_le
  have h := sum_mul_sq_le_sq_mul_sq univ (fun i => |u i - v i|) fun i => |u i + v i|
  have e0 : ∀ i, |u i - v i| * |u i + v i| = |u i ^ 2 - v i ^ 2| := fun i => by rw [← abs_mul]; congr 1; ring
  have e1 : ∑ i, |u i - v i| ^ 2 = 2 - 2 * ∑ i, u i * v i := by
    have : ∀ i, |u i - v i| ^ 2 = u i ^ 2 + v i ^ 2 - 2 * (u i * v i) := fun i => by rw [sq_abs]; ring
    rw [sum_congr rfl fun i _ => this i, sum_sub_distrib, sum_add_distrib, hu, hv, ← mul_sum]; ring
  have e2 : ∑ i, |u i + v i| ^ 2 = 2 + 2 * ∑ i, u i * v i := by
    have : ∀ i, |u i + v i| ^ 2 = u i ^ 2 + v i ^ 2 + 2 * (u i * v i) := fun i => by rw [sq_abs]; ring
    rw [sum_congr rfl fun i _ => this i, sum_add_distrib, sum_add_distrib, hu, hv, ← mul_sum]; ring
  rw [e1, e2, sum_congr rfl fun i _ => e0 i] at h
  nlinarith

section

variable {n : ℕ} {ρ σ : Op (2 ^ n)}

theorem pexp_polar (hρ : ρᴴ = ρ) (hσ : σᴴ = σ) : ∑ w, pexp ρ w * pexp σ w = 2 ^ n * ((ρ * σ).trace).re := by
  have h1 := pexp_parseval hρ
  have h2 := pexp_parseval hσ
  have h3 := pexp_parseval (ρ := ρ + σ) (by rw [conjTranspose_add, hρ, hσ])
  have e1 : ∀ w, pexp (ρ + σ) w ^ 2 = pexp ρ w ^ 2 + pexp σ w ^ 2 + 2 * (pexp ρ w * pexp σ w) := fun w => by
    have : pexp (ρ + σ) w = pexp ρ w + pexp σ w := by rw [pexp, mul_add, trace_add, Complex.add_re]; rfl
    rw [this]; ring
  have e2 : ((ρ + σ) * (ρ + σ)).trace = (ρ * ρ).trace + (σ * σ).trace + 2 * (ρ * σ).trace := by
    rw [add_mul, mul_add, mul_add, trace_add, trace_add, trace_add, trace_mul_comm σ ρ]; ring
  rw [sum_congr rfl fun w _ => e1 w, sum_add_distrib, sum_add_distrib, h1, h2, ← mul_sum, e2, Complex.add_re, Complex.add_re,
    show (2 : ℂ) = ((2 : ℝ) : ℂ) by norm_num, Complex.re_ofReal_mul] at h3
  linarith

/-- The stabilizer distributions of two states. -/
theorem xiF_close (hρ : Spec.IsDensity ρ) (hσ : Spec.IsDensity σ) :
    tvd (xiF ρ) (xiF σ) ≤ Real.sqrt (1 - ((ρ * σ).trace).re ^ 2 / (((ρ * ρ).trace).re * ((σ * σ).trace).re)) := by
  have hN : (0 : ℝ) < 2 ^ n := by positivity
  have r0 := purity_pos hρ
  have s0 := purity_pos hσ
  set r := ((ρ * ρ).trace).re
  set s := ((σ * σ).trace).re
  set u : (Fin n → Fin 4) → ℝ := fun w => pexp ρ w / Real.sqrt (2 ^ n * r)
  set v : (Fin n → Fin 4) → ℝ := fun w => pexp σ w / Real.sqrt (2 ^ n * s)
  have hu' : ∀ w, u w ^ 2 = pexp ρ w ^ 2 / (2 ^ n * r) := fun w => by
    simp only [u]; rw [div_pow, Real.sq_sqrt (by positivity)]
  have hv' : ∀ w, v w ^ 2 = pexp σ w ^ 2 / (2 ^ n * s) := fun w => by
    simp only [v]; rw [div_pow, Real.sq_sqrt (by positivity)]
  have hu : ∑ w, u w ^ 2 = 1 := by
    rw [sum_congr rfl fun w _ => hu' w, ← sum_div, pexp_parseval hρ.psd.isHermitian, div_self (by positivity)]
  have hv : ∑ w, v w ^ 2 = 1 := by
    rw [sum_congr rfl fun w _ => hv' w, ← sum_div, pexp_parseval hσ.psd.isHermitian, div_self (by positivity)]
  have huv : (∑ w, u w * v w) ^ 2 = ((ρ * σ).trace).re ^ 2 / (r * s) := by
    have : ∀ w, u w * v w = pexp ρ w * pexp σ w / (Real.sqrt (2 ^ n * r) * Real.sqrt (2 ^ n * s)) := fun w => by
      simp only [u, v]; rw [div_mul_div_comm]
    rw [sum_congr rfl fun w _ => this w, ← sum_div, pexp_polar hρ.psd.isHermitian hσ.psd.isHermitian, div_pow, mul_pow, mul_pow,
      Real.sq_sqrt (by positivity), Real.sq_sqrt (by positivity)]
    field_simp
  have h := squares_close hu hv
  rw [huv] at h
  refine le_trans (le_of_eq ?_) h
  rw [tvd, ← (wordEquiv n).sum_comp]
  norm_num
  refine sum_congr rfl fun k _ => ?_
  rw [hu', hv', wordEquiv_apply]
  rfl

/-- For a Hermitian matrix of trace zero. -/
theorem frob_le_tnorm {d : ℕ} {X : Op d} (hX : X.IsHermitian) (h0 : X.trace = 0) : 2 * ((X * X).trace).re ≤ tnorm X ^ 2 := by
  obtain ⟨U, l, h1, h2, h3, h4⟩ := herm_diag hX
  have ht : tnorm X = ∑ i, |l i| := by
    rw [tnorm_eq h4]
  have e1 : ((X * X).trace).re = ∑ i, l i ^ 2 := by
    have : X * X = U * (diagonal (fun i => (l i : ℂ)) * diagonal (fun i => (l i : ℂ))) * Uᴴ := by
      calc X * X = U * diagonal (fun i => (l i : ℂ)) * (Uᴴ * U) * diagonal (fun i => (l i : ℂ)) * Uᴴ := by
            conv_lhs => rw [h3]
            noncomm_ring
        _ = _ := by rw [h2, mul_one]; noncomm_ring
    rw [this, trace_mul_comm, ← mul_assoc, h2, one_mul, diagonal_mul_diagonal, trace_diagonal, Complex.re_sum]
    exact sum_congr rfl fun i _ => by rw [← Complex.ofReal_mul, Complex.ofReal_re, sq]
  have e0 : ∑ i, l i = 0 := by
    have : X.trace = ∑ i, (l i : ℂ) := by
      rw [h3, trace_mul_comm, ← mul_assoc, h2, one_mul, trace_diagonal]
    rw [this] at h0
    exact_mod_cast h0
  have hb : ∀ i, 2 * |l i| ≤ ∑ j, |l j| := by
    intro i
    rw [← add_sum_erase _ _ (mem_univ i)] at e0 ⊢
    have : |l i| ≤ ∑ j ∈ univ.erase i, |l j| := by
      rw [show l i = -∑ j ∈ univ.erase i, l j by linarith, abs_neg]
      exact abs_sum_le_sum_abs _ _
    linarith
  rw [e1, ht, sq, mul_sum, mul_sum]
  refine sum_le_sum fun i _ => ?_
  have := mul_le_mul_of_nonneg_right (hb i) (abs_nonneg (l i))
  rw [← sq_abs]
  nlinarith

theorem xiF_close_pure (hρ : Spec.IsDensity ρ) (hσ : Spec.IsDensity σ) (h1 : ((ρ * ρ).trace).re = 1) (h2 : ((σ * σ).trace).re = 1) :
    tvd (xiF ρ) (xiF σ) ≤ Real.sqrt 2 * (1 / 2 * tnorm (ρ - σ)) := by
  refine (xiF_close hρ hσ).trans ?_
  have ht := tnorm_nonneg (ρ - σ)
  rw [h1, h2, mul_one, div_one, Real.sqrt_le_left (by positivity), mul_pow, Real.sq_sqrt (by norm_num)]
  have hf := frob_le_tnorm (hρ.psd.isHermitian.sub hσ.psd.isHermitian) (by rw [trace_sub, hρ.trace_one, hσ.trace_one, sub_self])
  have e2 : ((ρ - σ) * (ρ - σ)).trace = (ρ * ρ).trace + (σ * σ).trace - 2 * (ρ * σ).trace := by
    rw [sub_mul, mul_sub, mul_sub, trace_sub, trace_sub, trace_sub, trace_mul_comm σ ρ]; ring
  rw [e2, Complex.sub_re, Complex.add_re, show (2 : ℂ) = ((2 : ℝ) : ℂ) by norm_num, Complex.re_ofReal_mul, h1, h2] at hf
  nlinarith [sq_nonneg (((ρ * σ).trace).re - 1)]

theorem sumsq_close_max {d : ℕ} {p q : Fin d → ℝ} (hp : Spec.IsProb p) (hq : Spec.IsProb q) {M : ℝ} (h1 : ∀ i, p i ≤ M) (h2 : ∀ i, q i ≤ M) :
    ∑ i, p i ^ 2 - ∑ i, q i ^ 2 ≤ 2 * M * tvd p q := by
  rw [← (tvd_parts hp hq).1, mul_sum, ← sum_sub_distrib]
  refine sum_le_sum fun i _ => ?_
  have h3 := hp.nonneg i
  have h4 := hq.nonneg i
  have h5 := h1 i
  have h6 := h2 i
  rw [min_def]
  split_ifs with h
  · nlinarith
  · nlinarith

end

end FF
