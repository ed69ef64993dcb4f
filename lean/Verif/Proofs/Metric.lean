import Verif.Proofs.Info
import Mathlib.Analysis.Convex.Deriv
import Mathlib.Analysis.SpecialFunctions.Log.NegMulLog
import Mathlib.Analysis.SpecialFunctions.Complex.LogBounds
import Mathlib.Analysis.InnerProductSpace.PiL2

/-! # Lemmas for C143: square roots of the divergences are distances -/

namespace FF

open Finset Filter Topology

section

variable {k : ℕ} {c y : Fin k → ℝ}

/-- Cauchy matrices are positive. -/
theorem cauchy_psd (hy : ∀ i, 0 < y i) : 0 ≤ ∑ i, ∑ j, c i * c j / (y i + y j) := by
  set a : Fin k → ℝ := fun i => (y i - 1) / (y i + 1) with ha
  have ha1 : ∀ i, |a i| < 1 := by
    intro i
    have := hy i
    rw [ha, abs_lt]
    constructor
    · rw [lt_div_iff₀ (by linarith)]; linarith
    · rw [div_lt_one (by linarith)]; linarith
  have h : ∀ i j, HasSum (fun t : ℕ => 2 * (c i * a i ^ t / (y i + 1)) * (c j * a j ^ t / (y j + 1))) (c i * c j / (y i + y j)) := by
    intro i j
    have hi := hy i
    have hj := hy j
    have h1 : |a i * a j| < 1 := by
      rw [abs_mul]
      nlinarith [abs_nonneg (a i), abs_nonneg (a j), ha1 i, ha1 j]
    have h2 := (hasSum_geometric_of_abs_lt_one h1).mul_left (2 * c i * c j / ((y i + 1) * (y j + 1)))
    have e1 : 2 * c i * c j / ((y i + 1) * (y j + 1)) * (1 - a i * a j)⁻¹ = c i * c j / (y i + y j) := by
      have : 1 - a i * a j = 2 * (y i + y j) / ((y i + 1) * (y j + 1)) := by
        rw [ha]
        field_simp
        ring
      rw [this]
      field_simp
    rw [e1] at h2
    refine h2.congr_fun ?_
    intro t
    rw [mul_pow]
    field_simp
  have h3 := hasSum_sum (s := univ) fun i _ => hasSum_sum (s := univ) fun j _ => h i j
  refine h3.nonneg fun t => ?_
  have : ∑ i, ∑ j, 2 * (c i * a i ^ t / (y i + 1)) * (c j * a j ^ t / (y j + 1)) = 2 * (∑ i, c i * a i ^ t / (y i + 1)) ^ 2 := by
    rw [sq, sum_mul_sum, mul_sum]
    refine sum_congr rfl fun i _ => ?_
    rw [mul_sum]
    exact sum_congr rfl fun j _ => by ring
  rw [this]
  positivity

/-- The form that is moved to infinity. -/
noncomputable def shifted (c y : Fin k → ℝ) (t : ℝ) : ℝ := ∑ i, ∑ j, c i * c j * ((y i + y j + 2 * t) * Real.log (y i + y j + 2 * t))

theorem shifted_deriv (hy : ∀ i, 0 ≤ y i) {t : ℝ} (ht : 0 < t) :
    HasDerivAt (shifted c y) (∑ i, ∑ j, c i * c j * (2 * (Real.log (y i + y j + 2 * t) + 1))) t := by
  unfold shifted
  refine HasDerivAt.fun_sum fun i _ => HasDerivAt.fun_sum fun j _ => HasDerivAt.const_mul _ ?_
  have hpos : y i + y j + 2 * t ≠ 0 := by have := hy i; have := hy j; positivity
  have h1 : HasDerivAt (fun t : ℝ => y i + y j + 2 * t) 2 t := by
    simpa using ((hasDerivAt_id t).const_mul 2).const_add (y i + y j)
  have := (Real.hasDerivAt_mul_log hpos).comp t h1
  rw [mul_comm] at this
  exact this

theorem shifted_deriv2 (hy : ∀ i, 0 ≤ y i) {t : ℝ} (ht : 0 < t) :
    HasDerivAt (fun t => ∑ i, ∑ j, c i * c j * (2 * (Real.log (y i + y j + 2 * t) + 1)))
      (∑ i, ∑ j, c i * c j * (2 * (2 / (y i + y j + 2 * t)))) t := by
  refine HasDerivAt.fun_sum fun i _ => HasDerivAt.fun_sum fun j _ => HasDerivAt.const_mul _ (HasDerivAt.const_mul _ ?_)
  have hpos : y i + y j + 2 * t ≠ 0 := by have := hy i; have := hy j; positivity
  have h1 : HasDerivAt (fun t : ℝ => y i + y j + 2 * t) 2 t := by
    simpa using ((hasDerivAt_id t).const_mul 2).const_add (y i + y j)
  exact (h1.log hpos).add_const 1

theorem shifted_convex (hy : ∀ i, 0 ≤ y i) : ConvexOn ℝ (Set.Ici 0) (shifted c y) := by
  refine convexOn_of_hasDerivWithinAt2_nonneg (f' := fun t => ∑ i, ∑ j, c i * c j * (2 * (Real.log (y i + y j + 2 * t) + 1)))
    (f'' := fun t => ∑ i, ∑ j, c i * c j * (2 * (2 / (y i + y j + 2 * t)))) (convex_Ici 0) ?_ ?_ ?_ ?_
  · refine Continuous.continuousOn ?_
    unfold shifted
    refine continuous_finset_sum _ fun i _ => continuous_finset_sum _ fun j _ => continuous_const.mul ?_
    exact Real.continuous_mul_log.comp (by fun_prop)
  · intro t ht
    rw [interior_Ici, Set.mem_Ioi] at ht
    exact (shifted_deriv hy ht).hasDerivWithinAt
  · intro t ht
    rw [interior_Ici, Set.mem_Ioi] at ht
    exact (shifted_deriv2 hy ht).hasDerivWithinAt
  · intro t ht
    rw [interior_Ici, Set.mem_Ioi] at ht
    have := cauchy_psd (c := c) (y := fun i => y i + t) fun i => by have := hy i; positivity
    have e : ∑ i, ∑ j, c i * c j * (2 * (2 / (y i + y j + 2 * t))) = 4 * ∑ i, ∑ j, c i * c j / (y i + t + (y j + t)) := by
      rw [mul_sum]
      refine sum_congr rfl fun i _ => ?_
      rw [mul_sum]
      refine sum_congr rfl fun j _ => ?_
      rw [show y i + t + (y j + t) = y i + y j + 2 * t by ring]
      ring
    rw [e]
    positivity

theorem mul_log_far (s : ℝ) :
    Tendsto (fun t : ℝ => (s + 2 * t) * Real.log (s + 2 * t) - 2 * t * Real.log (2 * t) - s * Real.log (2 * t)) atTop (𝓝 s) := by
  have h2 : Tendsto (fun t : ℝ => 2 * t) atTop atTop := tendsto_id.const_mul_atTop two_pos
  have h1 := (Real.tendsto_mul_log_one_add_div_atTop s).comp h2
  have h3 : Tendsto (fun t : ℝ => s * Real.log (1 + s / (2 * t))) atTop (𝓝 (s * Real.log (1 + 0))) := by
    refine Tendsto.const_mul _ (Tendsto.log (tendsto_const_nhds.add ?_) (by norm_num))
    exact tendsto_const_nhds.div_atTop h2
  have h4 := h1.add h3
  rw [add_zero, Real.log_one, mul_zero, add_zero] at h4
  refine h4.congr' ?_
  filter_upwards [eventually_gt_atTop (max 0 (-s))] with t ht
  have ht0 : 0 < t := lt_of_le_of_lt (le_max_left _ _) ht
  have hts : -s < t := lt_of_le_of_lt (le_max_right _ _) ht
  have e : s + 2 * t = 2 * t * (1 + s / (2 * t)) := by field_simp; ring
  have hp : 1 + s / (2 * t) ≠ 0 := by
    intro h
    rw [h, mul_zero] at e
    linarith
  have : Real.log (s + 2 * t) = Real.log (2 * t) + Real.log (1 + s / (2 * t)) := by
    conv_lhs => rw [e]
    exact Real.log_mul (by positivity) hp
  rw [this]
  simp only [Function.comp]
  ring

theorem sums_zero (hc : ∑ i, c i = 0) (u v : ℝ) : ∑ i, ∑ j, c i * c j * (u + (y i + y j) * v) = 0 := by
  have h1 : ∀ i, ∑ j, c i * c j * (u + (y i + y j) * v) = c i * v * ∑ j, c j * y j := by
    intro i
    have : ∀ j, c i * c j * (u + (y i + y j) * v) = c i * (u + y i * v) * c j + c i * v * (c j * y j) := fun j => by ring
    rw [sum_congr rfl fun j _ => this j, sum_add_distrib, ← mul_sum, ← mul_sum, hc, mul_zero, zero_add]
  rw [sum_congr rfl fun i _ => h1 i, ← sum_mul, ← sum_mul, hc, zero_mul, zero_mul]

theorem shifted_tends (hc : ∑ i, c i = 0) : Tendsto (shifted c y) atTop (𝓝 0) := by
  have h : Tendsto (fun t : ℝ => ∑ i, ∑ j, c i * c j * ((y i + y j + 2 * t) * Real.log (y i + y j + 2 * t) - 2 * t * Real.log (2 * t) -
      (y i + y j) * Real.log (2 * t))) atTop (𝓝 (∑ i, ∑ j, c i * c j * (y i + y j))) :=
    tendsto_finset_sum _ fun i _ => tendsto_finset_sum _ fun j _ => (mul_log_far _).const_mul _
  have e0 := sums_zero (y := y) hc 0 1
  simp only [zero_add, mul_one] at e0
  rw [e0] at h
  refine h.congr fun t => ?_
  rw [shifted, ← sub_zero (∑ i, ∑ j, c i * c j * ((y i + y j + 2 * t) * Real.log (y i + y j + 2 * t))),
    ← sums_zero (y := y) hc (2 * t * Real.log (2 * t)) (Real.log (2 * t)), ← sum_sub_distrib]
  refine sum_congr rfl fun i _ => ?_
  rw [← sum_sub_distrib]
  exact sum_congr rfl fun j _ => by ring

/-- The sum `y i + y j` times its logarithm is a positive form on vectors of sum zero. -/
theorem mul_log_form (hy : ∀ i, 0 ≤ y i) (hc : ∑ i, c i = 0) :
    0 ≤ ∑ i, ∑ j, c i * c j * ((y i + y j) * Real.log (y i + y j)) := by
  have h0 : shifted c y 0 = ∑ i, ∑ j, c i * c j * ((y i + y j) * Real.log (y i + y j)) := by simp [shifted]
  rw [← h0]
  by_contra hneg
  rw [not_le] at hneg
  have hcv := shifted_convex (c := c) hy
  -- some value beyond is above half the value at zero, then the line through the two points is unbounded
  obtain ⟨t, ht0, ht⟩ : ∃ t, 0 < t ∧ shifted c y 0 / 2 < shifted c y t := by
    have := ((shifted_tends (y := y) hc).eventually_const_lt (show shifted c y 0 / 2 < 0 by linarith)).and (eventually_gt_atTop 0)
    obtain ⟨t, h1, h2⟩ := this.exists
    exact ⟨t, h2, h1⟩
  obtain ⟨T, hT0, hT⟩ : ∃ T, max t (3 * t) < T ∧ shifted c y T < -(shifted c y 0) / 2 := by
    have := ((shifted_tends (y := y) hc).eventually_lt_const (show (0 : ℝ) < -(shifted c y 0) / 2 by linarith)).and
      (eventually_gt_atTop (max t (3 * t)))
    obtain ⟨T, h1, h2⟩ := this.exists
    exact ⟨T, h2, h1⟩
  have h3 : 3 * t < T := lt_of_le_of_lt (le_max_right _ _) hT0
  have hTp : 0 < T := by linarith
  have := hcv.2 (Set.mem_Ici.2 le_rfl) (Set.mem_Ici.2 hTp.le) (show 0 ≤ 1 - t / T by rw [sub_nonneg, div_le_one hTp]; linarith)
    (show 0 ≤ t / T by positivity) (by ring)
  have e : (1 - t / T) • (0 : ℝ) + (t / T) • T = t := by simp [hTp.ne']
  rw [e, smul_eq_mul, smul_eq_mul] at this
  have hr : t / T < 1 / 3 := by rw [div_lt_div_iff₀ hTp (by norm_num)]; linarith
  have hr0 : 0 < t / T := by positivity
  nlinarith

end

/-- Twice the summand of the Jensen-Shannon divergence. -/
noncomputable def jsTerm (x y : ℝ) : ℝ := 2 * x * Real.log (2 * x) + 2 * y * Real.log (2 * y) - 2 * ((x + y) * Real.log (x + y))

theorem jsTerm_form {x y z a b : ℝ} (hx : 0 ≤ x) (hy : 0 ≤ y) (hz : 0 ≤ z) :
    0 ≤ a ^ 2 * jsTerm x y + a * b * (jsTerm x z - jsTerm x y - jsTerm y z) + b ^ 2 * jsTerm y z := by
  have h := mul_log_form (c := ![a, b - a, -b]) (y := ![x, y, z]) (by intro i; fin_cases i <;> assumption) (by simp [Fin.sum_univ_three])
  simp only [Fin.sum_univ_three, Matrix.cons_val_zero, Matrix.cons_val_one, Matrix.cons_val_two, Matrix.cons_val,
    Matrix.tail_cons, Matrix.head_cons] at h
  rw [add_comm y x, add_comm z x, add_comm z y, ← two_mul x, ← two_mul y, ← two_mul z] at h
  unfold jsTerm
  linarith

theorem jsTerm_nonneg {x y : ℝ} (hx : 0 ≤ x) (hy : 0 ≤ y) : 0 ≤ jsTerm x y := by
  have := jsTerm_form (a := 1) (b := 0) hx hy hy
  simpa using this

theorem jsTerm_triangle {x y z : ℝ} (hx : 0 ≤ x) (hy : 0 ≤ y) (hz : 0 ≤ z) :
    Real.sqrt (jsTerm x z) ≤ Real.sqrt (jsTerm x y) + Real.sqrt (jsTerm y z) := by
  have h1 := jsTerm_nonneg hx hy
  have h2 := jsTerm_nonneg hy hz
  have hs1 := Real.sq_sqrt h1
  have hs2 := Real.sq_sqrt h2
  set u := Real.sqrt (jsTerm x y)
  set v := Real.sqrt (jsTerm y z)
  have hu : 0 ≤ u := Real.sqrt_nonneg _
  have hv : 0 ≤ v := Real.sqrt_nonneg _
  apply Real.sqrt_le_iff.2
  refine ⟨by positivity, ?_⟩
  have hQ := fun a b : ℝ => jsTerm_form (a := a) (b := b) hx hy hz
  rw [← hs1, ← hs2] at hQ
  generalize jsTerm x z = w at *
  rcases eq_or_lt_of_le hu with h0 | h0
  · rw [← h0] at hQ ⊢
    by_contra hlt
    rw [not_le] at hlt
    have := hQ (-(v ^ 2 + 1) / (w - v ^ 2)) 1
    have hpos : 0 < w - v ^ 2 := by nlinarith
    have e : -(v ^ 2 + 1) / (w - v ^ 2) * 1 * (w - 0 ^ 2 - v ^ 2) = -(v ^ 2 + 1) := by
      field_simp
      ring
    rw [e] at this
    nlinarith
  · rcases eq_or_lt_of_le hv with h0' | h0'
    · rw [← h0'] at hQ ⊢
      by_contra hlt
      rw [not_le] at hlt
      have := hQ 1 (-(u ^ 2 + 1) / (w - u ^ 2))
      have hpos : 0 < w - u ^ 2 := by nlinarith
      have e : 1 * (-(u ^ 2 + 1) / (w - u ^ 2)) * (w - u ^ 2 - 0 ^ 2) = -(u ^ 2 + 1) := by
        field_simp
        ring
      rw [e] at this
      nlinarith
    · have := hQ v (-u)
      have hp : 0 < u * v := by positivity
      nlinarith

theorem jsTerm_eq {x y : ℝ} (hx : 0 ≤ x) (hy : 0 ≤ y) :
    x * Real.log (x / ((x + y) / 2)) + y * Real.log (y / ((x + y) / 2)) = 1 / 2 * jsTerm x y := by
  rcases eq_or_lt_of_le hx with rfl | hx
  · rcases eq_or_lt_of_le hy with rfl | hy
    · simp [jsTerm]
    · simp only [jsTerm, zero_add, mul_zero, zero_mul]
      rw [show y / (y / 2) = 2 by field_simp, Real.log_mul two_ne_zero hy.ne']
      ring
  · rcases eq_or_lt_of_le hy with rfl | hy
    · simp only [jsTerm, add_zero, mul_zero, zero_mul]
      rw [show x / (x / 2) = 2 by field_simp, Real.log_mul two_ne_zero hx.ne']
      ring
    · have e1 : x / ((x + y) / 2) = 2 * x / (x + y) := by field_simp
      have e2 : y / ((x + y) / 2) = 2 * y / (x + y) := by field_simp
      rw [e1, e2, Real.log_div (by positivity) (by positivity), Real.log_div (by positivity) (by positivity), jsTerm]
      ring

variable {d : ℕ} {p q r : Fin d → ℝ}

theorem l2_triangle {a b c : Fin d → ℝ} (ha : ∀ i, 0 ≤ a i) (h : ∀ i, a i ≤ b i + c i) :
    Real.sqrt (∑ i, a i ^ 2) ≤ Real.sqrt (∑ i, b i ^ 2) + Real.sqrt (∑ i, c i ^ 2) := by
  have h1 := norm_add_le (WithLp.toLp 2 b) (WithLp.toLp 2 c : EuclideanSpace ℝ (Fin d))
  simp only [EuclideanSpace.norm_eq, PiLp.add_apply, Real.norm_eq_abs, sq_abs] at h1
  refine le_trans (Real.sqrt_le_sqrt (sum_le_sum fun i _ => ?_)) h1
  exact pow_le_pow_left₀ (ha i) (h i) 2

theorem js_terms (hp : Spec.IsProb p) (hq : Spec.IsProb q) : jsReal p q = 1 / 4 * ∑ i, jsTerm (p i) (q i) := by
  rw [jsReal, klReal, klReal, ← sum_add_distrib]
  have : ∀ i, p i * Real.log (p i / mid p q i) + q i * Real.log (q i / mid p q i) = 1 / 2 * jsTerm (p i) (q i) := by
    intro i
    rw [← jsTerm_eq (hp.nonneg i) (hq.nonneg i), show mid p q i = (p i + q i) / 2 by unfold mid; ring]
  rw [sum_congr rfl fun i _ => this i, ← mul_sum]
  ring

theorem js_triangle (hp : Spec.IsProb p) (hq : Spec.IsProb q) (hr : Spec.IsProb r) :
    Real.sqrt (jsReal p r) ≤ Real.sqrt (jsReal p q) + Real.sqrt (jsReal q r) := by
  have key : ∀ {u v : Fin d → ℝ}, Spec.IsProb u → Spec.IsProb v →
      Real.sqrt (jsReal u v) = 1 / 2 * Real.sqrt (∑ i, Real.sqrt (jsTerm (u i) (v i)) ^ 2) := by
    intro u v hu hv
    rw [js_terms hu hv, Real.sqrt_mul (by norm_num), show (1 / 4 : ℝ) = (1 / 2) ^ 2 by norm_num, Real.sqrt_sq (by norm_num)]
    congr 2
    exact sum_congr rfl fun i _ => (Real.sq_sqrt (jsTerm_nonneg (hu.nonneg i) (hv.nonneg i))).symm
  rw [key hp hr, key hp hq, key hq hr, ← mul_add]
  refine mul_le_mul_of_nonneg_left ?_ (by norm_num)
  exact l2_triangle (fun i => Real.sqrt_nonneg _) fun i => jsTerm_triangle (hp.nonneg i) (hq.nonneg i) (hr.nonneg i)

theorem bc_sq (hp : Spec.IsProb p) (hq : Spec.IsProb q) : 1 - bc p q = 1 / 2 * ∑ i, |Real.sqrt (p i) - Real.sqrt (q i)| ^ 2 := by
  have : ∀ i, |Real.sqrt (p i) - Real.sqrt (q i)| ^ 2 = p i + q i - 2 * Real.sqrt (p i * q i) := by
    intro i
    rw [sq_abs, sub_sq, Real.sq_sqrt (hp.nonneg i), Real.sq_sqrt (hq.nonneg i), Real.sqrt_mul (hp.nonneg i)]
    ring
  rw [sum_congr rfl fun i _ => this i, sum_sub_distrib, sum_add_distrib, hp.sum_one, hq.sum_one, ← mul_sum, bc]
  ring

theorem hellinger_triangle (hp : Spec.IsProb p) (hq : Spec.IsProb q) (hr : Spec.IsProb r) :
    Real.sqrt (1 - bc p r) ≤ Real.sqrt (1 - bc p q) + Real.sqrt (1 - bc q r) := by
  rw [bc_sq hp hr, bc_sq hp hq, bc_sq hq hr, Real.sqrt_mul (by norm_num), Real.sqrt_mul (by norm_num), Real.sqrt_mul (by norm_num), ← mul_add]
  refine mul_le_mul_of_nonneg_left ?_ (Real.sqrt_nonneg _)
  refine l2_triangle (fun i => abs_nonneg _) fun i => ?_
  exact abs_sub_le _ _ _

end FF
