import Verif.Props.Paths
import Verif.Spec.Geodesic

/-! # Property C161: `build_linear_path` runs along the great circle arc -/

namespace FF.Props

open Matrix
open scoped ComplexConjugate

theorem inner_swap {n : ℕ} (x y : Fin n → ℂ) : Spec.inner y x = conj (Spec.inner x y) := by
  rw [Spec.inner, Spec.inner, map_sum]
  refine Finset.sum_congr rfl fun i _ => ?_
  rw [map_mul, RCLike.star_def, Complex.conj_conj, mul_comm]

theorem combo_inner {n : ℕ} {x y : Fin n → ℂ} (hx : Spec.IsUnitVec x) (hy : Spec.IsUnitVec y) (a b c d : ℝ) :
    (Spec.inner ((a : ℂ) • x + (b : ℂ) • y) ((c : ℂ) • x + (d : ℂ) • y)).re =
      a * c + b * d + (a * d + b * c) * (Spec.inner x y).re := by
  rw [inner_add_left, inner_add_right, inner_add_right]
  simp only [inner_smul_left, inner_smul_right, unit_iff_inner.1 hx, unit_iff_inner.1 hy, inner_swap x y, Complex.conj_ofReal]
  simp
  ring

theorem combo_norm {n : ℕ} {x y : Fin n → ℂ} (hx : Spec.IsUnitVec x) (hy : Spec.IsUnitVec y) (a b : ℝ) :
    ∑ i, ‖((a : ℂ) • x + (b : ℂ) • y) i‖ ^ 2 = a ^ 2 + b ^ 2 + 2 * a * b * (Spec.inner x y).re := by
  have h := combo_inner hx hy a b a b
  rw [inner_self, Complex.ofReal_re] at h
  rw [h]
  ring

/-- The angle between two unit vectors that are neither equal nor opposite. -/
theorem angle_bounds {n : ℕ} {x y : Fin n → ℂ} (hx : Spec.IsUnitVec x) (hy : Spec.IsUnitVec y) (h1 : y ≠ x) (h2 : y ≠ -x) :
    0 < Real.arccos (Spec.inner x y).re ∧ Real.arccos (Spec.inner x y).re < Real.pi ∧
      Real.cos (Real.arccos (Spec.inner x y).re) = (Spec.inner x y).re := by
  have key : ∀ e : ℝ, e ^ 2 = 1 → y ≠ (-(e : ℂ)) • x → 0 < 1 + e * (Spec.inner x y).re := by
    intro e he hne
    have h3 := combo_norm hx hy e 1
    have h4 : 0 < ∑ i, ‖((e : ℂ) • x + ((1 : ℝ) : ℂ) • y) i‖ ^ 2 := by
      refine lt_of_le_of_ne (Finset.sum_nonneg fun i _ => by positivity) fun h0 => hne ?_
      have h5 : (e : ℂ) • x + ((1 : ℝ) : ℂ) • y = 0 := by
        refine inner_self_zero ?_
        rw [inner_self, ← h0, Complex.ofReal_zero]
      rw [Complex.ofReal_one, one_smul] at h5
      rw [neg_smul]
      exact eq_neg_of_add_eq_zero_right h5
    rw [h3, he] at h4
    linarith
  have h3 := key 1 (by norm_num) (by simpa using h2)
  have h4 := key (-1) (by norm_num) (by simpa using h1)
  refine ⟨Real.arccos_pos.2 (by linarith), ?_, Real.cos_arccos (by linarith) (by linarith)⟩
  refine lt_of_le_of_ne (Real.arccos_le_pi _) fun h => ?_
  rw [Real.arccos_eq_pi] at h
  linarith

/-- The arc of the specification: its end points are the two vectors, and the angle between two of its points is proportional
to the difference of the times. -/
theorem C161_spec {n : ℕ} {x y : Fin n → ℂ} (hx : Spec.IsUnitVec x) (hy : Spec.IsUnitVec y) (h1 : y ≠ x) (h2 : y ≠ -x) :
    Spec.greatArc x y 0 = x ∧ Spec.greatArc x y 1 = y ∧ ∀ s t : ℝ,
      (Spec.inner (Spec.greatArc x y s) (Spec.greatArc x y t)).re = Real.cos ((t - s) * Real.arccos (Spec.inner x y).re) := by
  obtain ⟨h3, h4, h5⟩ := angle_bounds hx hy h1 h2
  have hs := (Real.sin_pos_of_pos_of_lt_pi h3 h4).ne'
  refine ⟨?_, ?_, fun s t => ?_⟩
  · simp [Spec.greatArc, hs]
  · simp [Spec.greatArc, hs]
  · rw [Spec.greatArc, Spec.greatArc]
    rw [combo_inner hx hy]
    generalize Real.arccos (Spec.inner x y).re = θ at hs h5 ⊢
    rw [← h5]
    rw [show (1 - s) * θ = θ - s * θ by ring, show (1 - t) * θ = θ - t * θ by ring, show (t - s) * θ = t * θ - s * θ by ring,
      Real.sin_sub, Real.sin_sub, Real.cos_sub]
    have e := Real.sin_sq_add_cos_sq θ
    rw [div_mul_div_comm, div_mul_div_comm, div_mul_div_comm, div_mul_div_comm, ← add_div, ← add_div, div_mul_eq_mul_div, ← add_div,
      div_eq_iff (mul_ne_zero hs hs)]
    have e' : Real.cos θ ^ 2 = 1 - Real.sin θ ^ 2 := by linarith
    linear_combination (Real.sin (s * θ) * Real.sin (t * θ)) * (-e)

theorem normalise_smul {n : ℕ} {u : Fin n → ℂ} (hu : Spec.IsUnitVec u) {k : ℝ} (hk : 0 < k) :
    ((vnorm ((k : ℂ) • u) : ℝ) : ℂ)⁻¹ • ((k : ℂ) • u) = u := by
  have h1 : vnorm ((k : ℂ) • u) = k := by
    rw [vnorm]
    have : ∑ i, ‖((k : ℂ) • u) i‖ ^ 2 = k ^ 2 := by
      rw [Spec.IsUnitVec] at hu
      simp only [Pi.smul_apply, smul_eq_mul, norm_mul, mul_pow, ← Finset.mul_sum, hu, mul_one, Complex.norm_real, Real.norm_eq_abs,
        sq_abs]
    rw [this, Real.sqrt_sq hk.le]
  rw [h1, smul_smul, inv_mul_cancel₀ (by exact_mod_cast hk.ne'), one_smul]

/-- The times at which the two paths are at the same point. -/
theorem linear_eq_arc {n : ℕ} {w v : Fin n → ℂ} (hw : w ≠ 0) (hv : v ≠ 0) (h1 : unitVec v ≠ unitVec w)
    (h2 : unitVec v ≠ -unitVec w) {t : ℝ} (ht : t ∈ Set.Icc (0 : ℝ) 1) :
    let θ := Real.arccos (Spec.inner (unitVec w) (unitVec v)).re
    0 ≤ Real.sin (t * θ) ∧ 0 ≤ Real.sin ((1 - t) * θ) ∧ 0 < Real.sin (t * θ) + Real.sin ((1 - t) * θ) ∧
      buildLinearPath w v (Real.sin (t * θ) / (Real.sin (t * θ) + Real.sin ((1 - t) * θ))) =
        Spec.greatArc (unitVec w) (unitVec v) t := by
  intro θ
  have hwu : Spec.IsUnitVec (unitVec w) := unit_normalise hw
  have hvu : Spec.IsUnitVec (unitVec v) := unit_normalise hv
  obtain ⟨h3, h4, h5⟩ := angle_bounds hwu hvu h1 h2
  change 0 < θ at h3
  change θ < Real.pi at h4
  have hs := Real.sin_pos_of_pos_of_lt_pi h3 h4
  have p1 : 0 ≤ Real.sin (t * θ) := Real.sin_nonneg_of_nonneg_of_le_pi (mul_nonneg ht.1 h3.le) (by nlinarith [ht.2])
  have p2 : 0 ≤ Real.sin ((1 - t) * θ) :=
    Real.sin_nonneg_of_nonneg_of_le_pi (mul_nonneg (by linarith [ht.2]) h3.le) (by nlinarith [ht.1])
  have p3 : 0 < Real.sin (t * θ) + Real.sin ((1 - t) * θ) := by
    rcases eq_or_lt_of_le ht.1 with h0 | h0
    · rw [← h0]; simpa using hs
    · have : 0 < Real.sin (t * θ) := Real.sin_pos_of_pos_of_lt_pi (mul_pos h0 h3) (by nlinarith [ht.2])
      linarith
  refine ⟨p1, p2, p3, ?_⟩
  have hu : Spec.IsUnitVec (Spec.greatArc (unitVec w) (unitVec v) t) := by
    have h6 := (C161_spec hwu hvu h1 h2).2.2 t t
    rw [sub_self, zero_mul, Real.cos_zero, inner_self, Complex.ofReal_re] at h6
    exact h6
  have hk := normalise_smul hu (div_pos hs p3)
  rw [buildLinearPath]
  simp only [show ((vnorm w : ℝ) : ℂ)⁻¹ • w = unitVec w from rfl, show ((vnorm v : ℝ) : ℂ)⁻¹ • v = unitVec v from rfl]
  rw [← hk]
  have hvec : ((Real.sin (t * θ) / (Real.sin (t * θ) + Real.sin ((1 - t) * θ)) : ℝ) : ℂ) • unitVec v +
      (1 - ((Real.sin (t * θ) / (Real.sin (t * θ) + Real.sin ((1 - t) * θ)) : ℝ) : ℂ)) • unitVec w =
      ((Real.sin θ / (Real.sin (t * θ) + Real.sin ((1 - t) * θ)) : ℝ) : ℂ) • Spec.greatArc (unitVec w) (unitVec v) t := by
    rw [Spec.greatArc, smul_add, smul_smul, smul_smul, ← Complex.ofReal_mul, ← Complex.ofReal_mul, ← Complex.ofReal_one,
      ← Complex.ofReal_sub, add_comm]
    have hs' := hs.ne'
    have p3' := p3.ne'
    change _ = ((Real.sin θ / (Real.sin (t * θ) + Real.sin ((1 - t) * θ)) * (Real.sin ((1 - t) * θ) / Real.sin θ) : ℝ) : ℂ) • unitVec w +
      ((Real.sin θ / (Real.sin (t * θ) + Real.sin ((1 - t) * θ)) * (Real.sin (t * θ) / Real.sin θ) : ℝ) : ℂ) • unitVec v
    have e1 : 1 - Real.sin (t * θ) / (Real.sin (t * θ) + Real.sin ((1 - t) * θ)) =
        Real.sin θ / (Real.sin (t * θ) + Real.sin ((1 - t) * θ)) * (Real.sin ((1 - t) * θ) / Real.sin θ) := by
      rw [div_mul_div_cancel₀' hs', eq_div_iff p3', sub_mul, div_mul_cancel₀ _ p3']
      ring
    have e2 : Real.sin (t * θ) / (Real.sin (t * θ) + Real.sin ((1 - t) * θ)) =
        Real.sin θ / (Real.sin (t * θ) + Real.sin ((1 - t) * θ)) * (Real.sin (t * θ) / Real.sin θ) := by
      rw [div_mul_div_cancel₀' hs']
    rw [← e1, ← e2]
  rw [hvec]

/-- C161. For vectors whose directions are neither equal nor opposite, every point of the path for `s` in `[0, 1]` is on the great
circle arc from `w/|w|` to `v/|v|`. -/
theorem C161_arc (n : ℕ) (w v : Fin n → ℂ) (hw : w ≠ 0) (hv : v ≠ 0) (h1 : unitVec v ≠ unitVec w)
    (h2 : unitVec v ≠ -unitVec w) (s : ℝ) (hs : s ∈ Set.Icc (0 : ℝ) 1) :
    ∃ t ∈ Set.Icc (0 : ℝ) 1, buildLinearPath w v s = Spec.greatArc (unitVec w) (unitVec v) t := by
  set θ := Real.arccos (Spec.inner (unitVec w) (unitVec v)).re with hθ
  have hc : ContinuousOn (fun t : ℝ => Real.sin (t * θ) / (Real.sin (t * θ) + Real.sin ((1 - t) * θ))) (Set.Icc 0 1) := by
    refine ContinuousOn.div (by fun_prop) (by fun_prop) fun t ht => ?_
    exact (linear_eq_arc hw hv h1 h2 ht).2.2.1.ne'
  have hi := intermediate_value_Icc (zero_le_one (α := ℝ)) hc
  have hsin : Real.sin θ ≠ 0 := by
    have := (linear_eq_arc hw hv h1 h2 (t := 0) (by simp)).2.2.1
    simp only [zero_mul, Real.sin_zero, zero_add, sub_zero, one_mul] at this
    exact this.ne'
  simp only [zero_mul, Real.sin_zero, zero_div, one_mul, sub_self, add_zero, div_self hsin] at hi
  obtain ⟨t, ht, rfl⟩ := hi hs
  exact ⟨t, ht, (linear_eq_arc hw hv h1 h2 ht).2.2.2⟩

/-- C161. Every point of the arc is reached, and the middle of the path is the middle of the arc. -/
theorem C161_onto (n : ℕ) (w v : Fin n → ℂ) (hw : w ≠ 0) (hv : v ≠ 0) (h1 : unitVec v ≠ unitVec w)
    (h2 : unitVec v ≠ -unitVec w) :
    (∀ t ∈ Set.Icc (0 : ℝ) 1, ∃ s ∈ Set.Icc (0 : ℝ) 1, buildLinearPath w v s = Spec.greatArc (unitVec w) (unitVec v) t) ∧
      buildLinearPath w v (1 / 2) = Spec.greatArc (unitVec w) (unitVec v) (1 / 2) := by
  constructor
  · intro t ht
    obtain ⟨p1, p2, p3, p4⟩ := linear_eq_arc hw hv h1 h2 ht
    refine ⟨_, ⟨div_nonneg p1 p3.le, ?_⟩, p4⟩
    rw [div_le_one p3]
    linarith
  · obtain ⟨p1, p2, p3, p4⟩ := linear_eq_arc hw hv h1 h2 (t := 1 / 2) ⟨by norm_num, by norm_num⟩
    rw [show (1 : ℝ) - 1 / 2 = 1 / 2 by norm_num] at p3 p4
    rw [← p4]
    congr 1
    rw [eq_div_iff p3.ne']
    ring

/-- C161. For equal directions the path stands still. -/
theorem C161_same (n : ℕ) (w v : Fin n → ℂ) (hw : w ≠ 0) (h : unitVec v = unitVec w) (s : ℝ) :
    buildLinearPath w v s = unitVec w := by
  have hwu : Spec.IsUnitVec (unitVec w) := unit_normalise hw
  rw [buildLinearPath]
  simp only [show ((vnorm w : ℝ) : ℂ)⁻¹ • w = unitVec w from rfl, show ((vnorm v : ℝ) : ℂ)⁻¹ • v = unitVec v from rfl, h]
  rw [← add_smul, add_sub_cancel, one_smul, vnorm_unit hwu, Complex.ofReal_one, inv_one, one_smul]

theorem linear_axes (s : ℝ) : buildLinearPath (![1, 0] : Fin 2 → ℂ) ![0, 1] s =
    (((Real.sqrt ((1 - s) ^ 2 + s ^ 2))⁻¹ : ℝ) : ℂ) • ![((1 - s : ℝ) : ℂ), (s : ℂ)] := by
  have h1 : vnorm (![1, 0] : Fin 2 → ℂ) = 1 := by simp [vnorm]
  have h2 : vnorm (![0, 1] : Fin 2 → ℂ) = 1 := by simp [vnorm]
  have h3 : (s : ℂ) • (![0, 1] : Fin 2 → ℂ) + (1 - (s : ℂ)) • ![1, 0] = ![((1 - s : ℝ) : ℂ), (s : ℂ)] := by
    funext i
    fin_cases i <;> simp
  have h4 : vnorm ![((1 - s : ℝ) : ℂ), (s : ℂ)] = Real.sqrt ((1 - s) ^ 2 + s ^ 2) := by
    rw [vnorm, Fin.sum_univ_two]
    simp only [cons_val_zero, cons_val_one, Complex.norm_real, Real.norm_eq_abs, sq_abs]
  rw [buildLinearPath]
  simp only [h1, h2, Complex.ofReal_one, inv_one, one_smul]
  rw [h3, h4, Complex.ofReal_inv]

theorem linear_axes_inner (s t : ℝ) : (Spec.inner (buildLinearPath (![1, 0] : Fin 2 → ℂ) ![0, 1] s) (buildLinearPath ![1, 0] ![0, 1] t)).re =
    (Real.sqrt ((1 - s) ^ 2 + s ^ 2))⁻¹ * (Real.sqrt ((1 - t) ^ 2 + t ^ 2))⁻¹ * ((1 - s) * (1 - t) + s * t) := by
  rw [linear_axes, linear_axes, inner_smul_left, inner_smul_right, Complex.conj_ofReal, Spec.inner, Fin.sum_univ_two]
  simp only [cons_val_zero, cons_val_one, RCLike.star_def, Complex.conj_ofReal, ← Complex.ofReal_mul, ← Complex.ofReal_add,
    Complex.ofReal_re]
  ring

/-- C161. The speed is not constant: from `(1, 0)` to `(0, 1)` the first quarter of the time covers a smaller angle than the
second. -/
theorem C161_speed_violation :
    (Spec.inner (buildLinearPath (![1, 0] : Fin 2 → ℂ) ![0, 1] (1 / 4)) (buildLinearPath ![1, 0] ![0, 1] (1 / 2))).re <
      (Spec.inner (buildLinearPath (![1, 0] : Fin 2 → ℂ) ![0, 1] 0) (buildLinearPath ![1, 0] ![0, 1] (1 / 4))).re := by
  rw [linear_axes_inner, linear_axes_inner]
  norm_num
  have h1 : (0 : ℝ) < Real.sqrt 8 / Real.sqrt 5 := by positivity
  have h2 : Real.sqrt 2 < 3 / 2 := by
    rw [Real.sqrt_lt' (by norm_num)]
    norm_num
  nlinarith

example : (![1, 0] : Fin 2 → ℂ) ≠ 0 ∧ (![0, Complex.I] : Fin 2 → ℂ) ≠ 0 ∧ unitVec ![0, Complex.I] ≠ unitVec (![1, 0] : Fin 2 → ℂ) ∧
    unitVec ![0, Complex.I] ≠ -unitVec (![1, 0] : Fin 2 → ℂ) ∧ (1 / 3 : ℝ) ∈ Set.Icc (0 : ℝ) 1 := by
  refine ⟨fun h => by simpa using congrFun h 0, fun h => by simpa using congrFun h 1, fun h => ?_, fun h => ?_, by norm_num, by norm_num⟩
  · have := congrFun h 0
    simp [unitVec] at this
  · have := congrFun h 0
    simp [unitVec] at this

end FF.Props
