import Verif.Proofs.FFLaw
import Verif.Proofs.Klein
import Verif.Proofs.TraceNorm

/-! # Proofs: evolved and thermal states of nearby Hamiltonians -/

namespace FF

open Matrix Finset Spec
open scoped ComplexOrder

variable {N : ℕ}

/-- The trapezoidal rule overestimates the integral of the exponential function. -/
theorem exp_trapezoid (x y : ℝ) : |Real.exp (-x) - Real.exp (-y)| ≤ |x - y| * ((Real.exp (-x) + Real.exp (-y)) / 2) := by
  have h0 : ∀ u : ℝ, 0 ≤ u → Real.exp u - 1 ≤ u * ((Real.exp u + 1) / 2) := by
    have hd : ∀ u : ℝ, HasDerivAt (fun u : ℝ => u * ((Real.exp u + 1) / 2) - Real.exp u)
        (1 * ((Real.exp u + 1) / 2) + u * (Real.exp u / 2) - Real.exp u) u := fun u =>
      ((hasDerivAt_id u).mul (((Real.hasDerivAt_exp u).add_const 1).div_const 2)).sub (Real.hasDerivAt_exp u)
    have hm : MonotoneOn (fun u : ℝ => u * ((Real.exp u + 1) / 2) - Real.exp u) (Set.Ici 0) := by
      refine monotoneOn_of_deriv_nonneg (convex_Ici 0) (fun u _ => (hd u).continuousAt.continuousWithinAt)
        (fun u _ => (hd u).differentiableAt.differentiableWithinAt) fun u _ => ?_
      rw [(hd u).deriv]
      have h1 := Real.add_one_le_exp (-u)
      have h2 : Real.exp (-u) * Real.exp u = 1 := by rw [← Real.exp_add]; simp
      nlinarith [Real.exp_pos u]
    intro u hu
    have := hm (Set.mem_Ici.2 le_rfl) (Set.mem_Ici.2 hu) hu
    simp only [zero_mul, Real.exp_zero] at this
    linarith
  have key : ∀ {x y : ℝ}, x ≤ y → |Real.exp (-x) - Real.exp (-y)| ≤ |x - y| * ((Real.exp (-x) + Real.exp (-y)) / 2) := fun {x y} h => by
    rw [abs_of_nonneg (sub_nonneg.2 (Real.exp_le_exp.2 (neg_le_neg h))), abs_of_nonpos (sub_nonpos.2 h)]
    have h1 := h0 (y - x) (sub_nonneg.2 h)
    have e : Real.exp (-x) = Real.exp (-y) * Real.exp (y - x) := by rw [← Real.exp_add]; congr 1; ring
    rw [e]
    nlinarith [mul_le_mul_of_nonneg_left h1 (Real.exp_pos (-y)).le]
  rcases le_total x y with h | h
  · exact key h
  · have := key h
    rwa [abs_sub_comm, abs_sub_comm x y, add_comm (Real.exp (-x))]

theorem vnorm_single (k : Fin N) : vnorm (Pi.single k 1 : Fin N → ℂ) = 1 := by
  have h : vnorm (Pi.single k 1 : Fin N → ℂ) ^ 2 = 1 := by
    rw [vnorm_sq, sum_eq_single k (fun i _ hi => by simp [hi]) (by simp)]
    simp
  exact (sq_eq_sq₀ (Real.sqrt_nonneg _) zero_le_one).1 (h.trans (one_pow 2).symm)

theorem col_sq {X : Op N} (k : Fin N) : ∑ j, ‖X j k‖ ^ 2 = vnorm (X *ᵥ Pi.single k 1) ^ 2 := by
  rw [vnorm_sq]
  refine sum_congr rfl fun j _ => ?_
  rw [mulVec_single_one]
  rfl

/-- The expectation value of an operator is at most its norm. -/
theorem expectation_le {ρ D : Op N} (hρ : IsDensity ρ) {c : ℝ} (hD : ∀ x, vnorm (D *ᵥ x) ≤ c * vnorm x) : ‖(ρ * D).trace‖ ≤ c := by
  obtain ⟨V, p, hV, hp⟩ := diag_of_herm hρ.psd.isHermitian
  have hV' : Vᴴ * V = 1 := mul_eq_one_comm.1 hV
  have hc : Vᴴ * ρ * V = diagonal fun i => ((p i : ℝ) : ℂ) := by
    rw [hp, show Vᴴ * (V * diagonal (fun i => ((p i : ℝ) : ℂ)) * Vᴴ) * V = (Vᴴ * V) * diagonal (fun i => ((p i : ℝ) : ℂ)) * (Vᴴ * V) by
      simp only [Matrix.mul_assoc], hV', one_mul, mul_one]
  have h0 : ∀ i, 0 ≤ p i := fun i => by
    have := (hρ.psd.conjTranspose_mul_mul_same V).diag_nonneg (i := i)
    rw [hc, diagonal_apply_eq] at this
    exact Complex.zero_le_real.1 this
  have h1 : ∑ i, p i = 1 := by
    have h := hρ.trace_one
    rw [hp, trace_mul_comm, ← Matrix.mul_assoc, hV', one_mul, trace_diagonal] at h
    exact_mod_cast h
  have he : ∀ k, ‖(Vᴴ * D * V) k k‖ ≤ c := fun k => by
    have e : (Vᴴ * D * V) k k = Spec.inner (Pi.single k 1) ((Vᴴ * (D * V)) *ᵥ Pi.single k 1) := by
      rw [Spec.inner, sum_eq_single k (fun i _ hi => by simp [hi]) (by simp), mulVec_single_one, ← Matrix.mul_assoc]
      simp [Matrix.col]
    rw [e]
    refine (inner_le_vnorm _ _).trans ?_
    rw [vnorm_single, one_mul, ← mulVec_mulVec, vnorm_unitary (by rw [conjTranspose_conjTranspose]; exact hV), ← mulVec_mulVec]
    refine (hD _).trans ?_
    rw [vnorm_unitary hV', vnorm_single, mul_one]
  have e : (ρ * D).trace = ∑ k, ((p k : ℝ) : ℂ) * (Vᴴ * D * V) k k := by
    have : ρ * D = V * (diagonal (fun i => ((p i : ℝ) : ℂ)) * (Vᴴ * D)) := by
      conv_lhs => rw [hp]
      simp only [Matrix.mul_assoc]
    rw [this, trace_mul_comm, Matrix.mul_assoc, Matrix.trace]
    refine sum_congr rfl fun k _ => ?_
    rw [diag_apply, diagonal_mul]
  rw [e]
  refine (norm_sum_le _ _).trans ?_
  calc ∑ k, ‖((p k : ℝ) : ℂ) * (Vᴴ * D * V) k k‖ ≤ ∑ k, p k * c := sum_le_sum fun k _ => by
        rw [norm_mul, Complex.norm_real, Real.norm_eq_abs, abs_of_nonneg (h0 k)]
        exact mul_le_mul_of_nonneg_left (he k) (h0 k)
    _ = c := by rw [← sum_mul, h1, one_mul]

/-- States evolved by nearby unitaries are near. -/
theorem evolve_near {W W' ρ : Op N} (hW : W * Wᴴ = 1) (hW' : W' * W'ᴴ = 1) (hρ : IsDensity ρ) {c : ℝ}
    (h : ∀ x, vnorm ((W - W') *ᵥ x) ≤ c * vnorm x) : tnorm (W * ρ * Wᴴ - W' * ρ * W'ᴴ) ≤ 2 * c := by
  have her : ∀ {V : Op N}, (V * ρ * Vᴴ).IsHermitian := fun {V} => (hρ.psd.mul_mul_conjTranspose_same V).isHermitian
  obtain ⟨S, hS, hT⟩ := tnorm_attained (her (V := W).sub (her (V := W')))
  have hS' : Sᴴ * S = 1 := mul_eq_one_comm.1 hS
  have hWu : (Wᴴ)ᴴ * Wᴴ = 1 := by rw [conjTranspose_conjTranspose]; exact hW
  have e : S * (W * ρ * Wᴴ - W' * ρ * W'ᴴ) = S * (W - W') * ρ * Wᴴ + S * W' * ρ * (W - W')ᴴ := by
    rw [conjTranspose_sub]
    noncomm_ring
  have e2 : (S * (W - W') * ρ * Wᴴ).trace = (ρ * (Wᴴ * S * (W - W'))).trace := by
    rw [Matrix.mul_assoc, trace_mul_comm, Matrix.mul_assoc, Matrix.mul_assoc]
  have e3 : (S * W' * ρ * (W - W')ᴴ).trace = (ρ * ((W - W')ᴴ * (S * W'))).trace := by
    rw [Matrix.mul_assoc, trace_mul_comm, Matrix.mul_assoc]
  have b1 := expectation_le hρ (D := Wᴴ * S * (W - W')) (c := c) fun x => by
    rw [Matrix.mul_assoc, ← mulVec_mulVec, vnorm_unitary hWu, ← mulVec_mulVec, vnorm_unitary hS']
    exact h x
  have b2 := expectation_le hρ (D := (S * W')ᴴ * (W - W')) (c := c) fun x => by
    rw [← mulVec_mulVec, vnorm_unitary (by
      rw [conjTranspose_conjTranspose, conjTranspose_mul, Matrix.mul_assoc, ← Matrix.mul_assoc W', hW', one_mul, hS])]
    exact h x
  have b3 : ‖(ρ * ((W - W')ᴴ * (S * W'))).trace‖ ≤ c := by
    have : (ρ * ((S * W')ᴴ * (W - W'))).trace = star (ρ * ((W - W')ᴴ * (S * W'))).trace := by
      rw [← trace_conjTranspose, conjTranspose_mul ρ, conjTranspose_mul (W - W')ᴴ, conjTranspose_conjTranspose (W - W'), hρ.psd.isHermitian.eq, trace_mul_comm]
    rw [this, norm_star] at b2
    exact b2
  rw [e, trace_add, e2, e3] at hT
  have := congrArg norm hT
  rw [Complex.norm_real, Real.norm_eq_abs, abs_of_nonneg (tnorm_nonneg _)] at this
  rw [← this]
  exact (norm_add_le _ _).trans (by linarith)

theorem cauchy_le {f g : Fin N → ℝ} (hf : ∑ i, f i ^ 2 ≤ 1) {c : ℝ} (hc : 0 ≤ c) (hg : ∑ i, g i ^ 2 ≤ c ^ 2) : ∑ i, f i * g i ≤ c := by
  have h := sum_mul_sq_le_sq_mul_sq univ f g
  have h2 : (∑ i, f i * g i) ^ 2 ≤ c ^ 2 := h.trans ((mul_le_mul hf hg (sum_nonneg fun i _ => sq_nonneg _) zero_le_one).trans_eq (one_mul _))
  exact (abs_le_of_sq_le_sq' h2 hc).2

/-- Exponentials of nearby Hermitian matrices are near in trace norm. -/
theorem exp_near {U U' S : Op N} {q q' : Fin N → ℝ} (hU : U * Uᴴ = 1) (hU' : U' * U'ᴴ = 1) (hS : S * Sᴴ = 1) {c : ℝ} (hc : 0 ≤ c)
    (hD : ∀ x, vnorm ((U * diagonal (fun i => ((q i : ℝ) : ℂ)) * Uᴴ - U' * diagonal (fun i => ((q' i : ℝ) : ℂ)) * U'ᴴ) *ᵥ x) ≤ c * vnorm x) :
    ‖(S * (U * diagonal (fun i => ((Real.exp (-q i) : ℝ) : ℂ)) * Uᴴ - U' * diagonal (fun i => ((Real.exp (-q' i) : ℝ) : ℂ)) * U'ᴴ)).trace‖ ≤
      c * ((∑ i, Real.exp (-q i) + ∑ i, Real.exp (-q' i)) / 2) := by
  have hU1 : Uᴴ * U = 1 := mul_eq_one_comm.1 hU
  have hU1' : U'ᴴ * U' = 1 := mul_eq_one_comm.1 hU'
  obtain ⟨D, hDd⟩ : ∃ D, D = U * diagonal (fun i => ((q i : ℝ) : ℂ)) * Uᴴ - U' * diagonal (fun i => ((q' i : ℝ) : ℂ)) * U'ᴴ := ⟨_, rfl⟩
  rw [← hDd] at hD
  have hDh : Dᴴ = D := by
    rw [hDd, conjTranspose_sub, conjTranspose_mul, conjTranspose_mul, conjTranspose_mul, conjTranspose_mul, conjTranspose_conjTranspose,
      conjTranspose_conjTranspose, diagonal_conjTranspose, diagonal_conjTranspose]
    have e : ∀ f : Fin N → ℝ, star (fun i => ((f i : ℝ) : ℂ)) = fun i => ((f i : ℝ) : ℂ) := fun f => by funext i; simp
    rw [e, e]
    simp only [Matrix.mul_assoc]
  have mixed : ∀ f g : Fin N → ℂ, ∀ j k, (Uᴴ * (U * diagonal f * Uᴴ - U' * diagonal g * U'ᴴ) * U') j k = (f j - g k) * (Uᴴ * U') j k := fun f g j k => by
    have : Uᴴ * (U * diagonal f * Uᴴ - U' * diagonal g * U'ᴴ) * U' = diagonal f * (Uᴴ * U') - (Uᴴ * U') * diagonal g := by
      rw [Matrix.mul_sub, Matrix.sub_mul, show Uᴴ * (U * diagonal f * Uᴴ) * U' = (Uᴴ * U) * (diagonal f * (Uᴴ * U')) by simp only [Matrix.mul_assoc],
        show Uᴴ * (U' * diagonal g * U'ᴴ) * U' = Uᴴ * U' * diagonal g * (U'ᴴ * U') by simp only [Matrix.mul_assoc], hU1, hU1', one_mul, mul_one]
    rw [this, Matrix.sub_apply, diagonal_mul, mul_diagonal]
    ring
  obtain ⟨F, hF⟩ : ∃ F, F = U'ᴴ * S * U := ⟨_, rfl⟩
  obtain ⟨K, hK⟩ : ∃ K, K = Uᴴ * D * U' := ⟨_, rfl⟩
  have hFu : F * Fᴴ = 1 := by
    rw [hF, conjTranspose_mul, conjTranspose_mul, conjTranspose_conjTranspose,
      show U'ᴴ * S * U * (Uᴴ * (Sᴴ * U')) = U'ᴴ * (S * (U * Uᴴ) * Sᴴ) * U' by simp only [Matrix.mul_assoc], hU, mul_one, hS, mul_one, hU1']
  have hFu' : Fᴴ * F = 1 := mul_eq_one_comm.1 hFu
  have fcol : ∀ j, ∑ k, ‖F k j‖ ^ 2 ≤ 1 := fun j => by rw [col_sq, vnorm_unitary hFu', vnorm_single, one_pow]
  have frow : ∀ k, ∑ j, ‖F k j‖ ^ 2 ≤ 1 := fun k => by
    have : ∑ j, ‖F k j‖ ^ 2 = ∑ j, ‖Fᴴ j k‖ ^ 2 := sum_congr rfl fun j _ => by rw [conjTranspose_apply, norm_star]
    rw [this, col_sq, vnorm_unitary (by rw [conjTranspose_conjTranspose]; exact hFu), vnorm_single, one_pow]
  have kcol : ∀ k, ∑ j, ‖K j k‖ ^ 2 ≤ c ^ 2 := fun k => by
    rw [col_sq, hK, Matrix.mul_assoc, ← mulVec_mulVec, vnorm_unitary (by rw [conjTranspose_conjTranspose]; exact hU), ← mulVec_mulVec]
    refine pow_le_pow_left₀ (Real.sqrt_nonneg _) ((hD _).trans ?_) 2
    rw [vnorm_unitary hU1', vnorm_single, mul_one]
  have krow : ∀ j, ∑ k, ‖K j k‖ ^ 2 ≤ c ^ 2 := fun j => by
    have : ∑ k, ‖K j k‖ ^ 2 = ∑ k, ‖Kᴴ k j‖ ^ 2 := sum_congr rfl fun k _ => by rw [conjTranspose_apply, norm_star]
    rw [this, col_sq, hK, conjTranspose_mul, conjTranspose_mul, conjTranspose_conjTranspose, hDh, ← mulVec_mulVec,
      vnorm_unitary (by rw [conjTranspose_conjTranspose]; exact hU'), ← mulVec_mulVec]
    refine pow_le_pow_left₀ (Real.sqrt_nonneg _) ((hD _).trans ?_) 2
    rw [vnorm_unitary hU1, vnorm_single, mul_one]
  obtain ⟨G, hG⟩ : ∃ G, G = U * diagonal (fun i => ((Real.exp (-q i) : ℝ) : ℂ)) * Uᴴ - U' * diagonal (fun i => ((Real.exp (-q' i) : ℝ) : ℂ)) * U'ᴴ := ⟨_, rfl⟩
  have htr : (S * G).trace = ∑ k, ∑ j, F k j * (Uᴴ * G * U') j k := by
    have : S * G = U' * (F * (Uᴴ * G)) := by
      rw [hF, show U' * (U'ᴴ * S * U * (Uᴴ * G)) = (U' * U'ᴴ) * (S * ((U * Uᴴ) * G)) by simp only [Matrix.mul_assoc], hU, hU', one_mul, one_mul]
    rw [this, trace_mul_comm, Matrix.mul_assoc, Matrix.trace]
    refine sum_congr rfl fun k _ => ?_
    rw [diag_apply, mul_apply]
  have hGK : ∀ j k, ‖(Uᴴ * G * U') j k‖ ≤ ‖K j k‖ * ((Real.exp (-q j) + Real.exp (-q' k)) / 2) := fun j k => by
    rw [hG, mixed, hK, hDd, mixed, norm_mul, norm_mul, ← Complex.ofReal_sub, ← Complex.ofReal_sub, Complex.norm_real, Complex.norm_real,
      Real.norm_eq_abs, Real.norm_eq_abs]
    have := mul_le_mul_of_nonneg_right (exp_trapezoid (q j) (q' k)) (norm_nonneg ((Uᴴ * U') j k))
    linarith
  rw [← hG, htr]
  calc ‖∑ k, ∑ j, F k j * (Uᴴ * G * U') j k‖
      ≤ ∑ k, ∑ j, ‖F k j‖ * (‖K j k‖ * ((Real.exp (-q j) + Real.exp (-q' k)) / 2)) := by
        refine (norm_sum_le _ _).trans (sum_le_sum fun k _ => (norm_sum_le _ _).trans (sum_le_sum fun j _ => ?_))
        rw [norm_mul]
        exact mul_le_mul_of_nonneg_left (hGK j k) (norm_nonneg _)
    _ = (∑ j, Real.exp (-q j) / 2 * ∑ k, ‖F k j‖ * ‖K j k‖) + ∑ k, Real.exp (-q' k) / 2 * ∑ j, ‖F k j‖ * ‖K j k‖ := by
        simp only [mul_sum]
        rw [sum_comm (f := fun j k => Real.exp (-q j) / 2 * (‖F k j‖ * ‖K j k‖)), ← sum_add_distrib]
        refine sum_congr rfl fun k _ => ?_
        rw [← sum_add_distrib]
        exact sum_congr rfl fun j _ => by ring
    _ ≤ (∑ j, Real.exp (-q j) / 2 * c) + ∑ k, Real.exp (-q' k) / 2 * c := by
        refine add_le_add (sum_le_sum fun j _ => mul_le_mul_of_nonneg_left ?_ (by positivity)) (sum_le_sum fun k _ => mul_le_mul_of_nonneg_left ?_ (by positivity))
        · exact cauchy_le (fcol j) hc (krow j)
        · exact cauchy_le (frow k) hc (kcol k)
    _ = c * ((∑ i, Real.exp (-q i) + ∑ i, Real.exp (-q' i)) / 2) := by
        rw [← sum_mul, ← sum_mul, ← sum_div, ← sum_div]
        ring

end FF
