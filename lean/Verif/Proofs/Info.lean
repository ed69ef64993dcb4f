import Verif.Spec.Info
import Verif.Proofs.Distance2
import Mathlib.Analysis.Calculus.Deriv.MeanValue
import Mathlib.Analysis.SpecialFunctions.Log.Deriv
import Mathlib.Analysis.Convex.SpecificFunctions.Basic
import Mathlib.Analysis.Convex.SpecificFunctions.Pow
import Mathlib.Analysis.SpecialFunctions.Log.NegMulLog

/-! # Helper lemmas: inequalities between distances, data processing -/

namespace FF

open Finset

variable {d e : ℕ} {p q : Fin d → ℝ}

/-! ## Pinsker -/

theorem log_ge {x : ℝ} (hx : 1 ≤ x) : 2 * (x - 1) ≤ (x + 1) * Real.log x := by
  have hm : MonotoneOn (fun x : ℝ => (x + 1) * Real.log x - 2 * (x - 1)) (Set.Ici 1) := by
    refine monotoneOn_of_hasDerivWithinAt_nonneg (f' := fun x => 1 * Real.log x + (x + 1) * x⁻¹ - 2 * 1) (convex_Ici 1) ?_ ?_ ?_
    · intro x hx
      have : (0 : ℝ) < x := lt_of_lt_of_le one_pos hx
      exact ((continuousAt_id.add continuousAt_const).mul (Real.continuousAt_log this.ne')).sub
        (continuousAt_const.mul (continuousAt_id.sub continuousAt_const)) |>.continuousWithinAt
    · intro x hx
      rw [interior_Ici] at hx
      have : (0 : ℝ) < x := lt_trans one_pos hx
      exact ((((hasDerivAt_id x).add_const 1).mul (Real.hasDerivAt_log this.ne')).sub
        (((hasDerivAt_id x).sub_const 1).const_mul 2)).hasDerivWithinAt
    · intro x hx
      rw [interior_Ici] at hx
      have h0 : (0 : ℝ) < x := lt_trans one_pos hx
      have := Real.one_sub_inv_le_log_of_pos h0
      have h2 : (x + 1) * x⁻¹ = 1 + x⁻¹ := by field_simp
      rw [h2]
      linarith
  have := hm (Set.mem_Ici.2 le_rfl) (Set.mem_Ici.2 hx) hx
  simp only [Real.log_one, mul_zero, sub_self] at this
  linarith

theorem log_le {x : ℝ} (h0 : 0 < x) (hx : x ≤ 1) : (x + 1) * Real.log x ≤ 2 * (x - 1) := by
  have := log_ge ((one_le_inv₀ h0).2 hx)
  rw [Real.log_inv] at this
  have h1 : x * (2 * (x⁻¹ - 1)) ≤ x * ((x⁻¹ + 1) * -Real.log x) := mul_le_mul_of_nonneg_left this h0.le
  have h2 : x * (2 * (x⁻¹ - 1)) = 2 * (1 - x) := by field_simp
  have h3 : x * ((x⁻¹ + 1) * -Real.log x) = -((x + 1) * Real.log x) := by field_simp; ring
  rw [h2, h3] at h1
  linarith

theorem pinsker_point {x : ℝ} (hx : 0 < x) : 3 * (x - 1) ^ 2 ≤ (4 + 2 * x) * (x * Real.log x - x + 1) := by
  let h : ℝ → ℝ := fun x => (4 + 2 * x) * (x * Real.log x - x + 1) - 3 * (x - 1) ^ 2
  let h' : ℝ → ℝ := fun x => 4 * ((x + 1) * Real.log x - 2 * (x - 1))
  have hd : ∀ x : ℝ, 0 < x → HasDerivAt h (h' x) x := by
    intro x hx
    have e1 : HasDerivAt (fun x : ℝ => 4 + 2 * x) (2 * 1) x := ((hasDerivAt_id x).const_mul 2).const_add 4
    have e2 : HasDerivAt (fun x : ℝ => x * Real.log x - x + 1) (1 * Real.log x + x * x⁻¹ - 1) x :=
      ((((hasDerivAt_id x).mul (Real.hasDerivAt_log hx.ne'))).sub (hasDerivAt_id x)).add_const 1
    have e3 : HasDerivAt (fun x : ℝ => 3 * (x - 1) ^ 2) (3 * (2 * (x - 1) ^ 1 * 1)) x := by
      simpa using (((hasDerivAt_id x).sub_const 1).pow 2).const_mul 3
    have := (e1.mul e2).sub e3
    refine this.congr_deriv ?_
    simp only [h']
    rw [mul_inv_cancel₀ hx.ne']
    ring
  have hc : ∀ s : Set ℝ, (∀ x ∈ s, 0 < x) → ContinuousOn h s := fun s hs x hx =>
    (hd x (hs x hx)).continuousAt.continuousWithinAt
  have h1 : h 1 = 0 := by simp [h]
  suffices 0 ≤ h x by simp only [h] at this; linarith
  rw [← h1]
  rcases le_total 1 x with hx1 | hx1
  · have hm : MonotoneOn h (Set.Ici 1) := by
      refine monotoneOn_of_hasDerivWithinAt_nonneg (f' := h') (convex_Ici 1) (hc _ fun x hx => lt_of_lt_of_le one_pos hx) ?_ ?_
      · intro x hx
        rw [interior_Ici] at hx
        exact (hd x (lt_trans one_pos hx)).hasDerivWithinAt
      · intro x hx
        rw [interior_Ici] at hx
        have := log_ge (le_of_lt hx)
        simp only [h']
        linarith
    exact hm (Set.mem_Ici.2 le_rfl) hx1 hx1
  · have hm : AntitoneOn h (Set.Ioc 0 1) := by
      refine antitoneOn_of_hasDerivWithinAt_nonpos (f' := h') (convex_Ioc 0 1) (hc _ fun x hx => hx.1) ?_ ?_
      · intro x hx
        rw [interior_Ioc] at hx
        exact (hd x hx.1).hasDerivWithinAt
      · intro x hx
        rw [interior_Ioc] at hx
        have := log_le hx.1 hx.2.le
        simp only [h']
        linarith
    exact hm ⟨hx, hx1⟩ ⟨one_pos, le_rfl⟩ hx1

theorem pinsker (hp : Spec.IsProb p) (hq : Spec.IsProb q) (h : ∀ i, q i = 0 → p i = 0) :
    2 * tvd p q ^ 2 ≤ klReal p q := by
  have key : ∀ i, 3 * (p i - q i) ^ 2 / (2 * p i + 4 * q i) ≤ p i * Real.log (p i / q i) - p i + q i := by
    intro i
    have hp0 := hp.nonneg i
    by_cases hq0 : q i = 0
    · rw [hq0, h i hq0]; simp
    have hq1 : 0 < q i := lt_of_le_of_ne (hq.nonneg i) (Ne.symm hq0)
    rcases eq_or_lt_of_le hp0 with h0 | h0
    · rw [← h0]
      have : 3 * (0 - q i) ^ 2 / (2 * 0 + 4 * q i) = 3 / 4 * q i := by field_simp; ring
      rw [this]; simp; linarith
    · have := pinsker_point (x := p i / q i) (by positivity)
      rw [div_le_iff₀ (by positivity)]
      have e1 : q i ^ 2 * (3 * (p i / q i - 1) ^ 2) = 3 * (p i - q i) ^ 2 := by field_simp
      have e2 : q i ^ 2 * ((4 + 2 * (p i / q i)) * (p i / q i * Real.log (p i / q i) - p i / q i + 1)) =
          (p i * Real.log (p i / q i) - p i + q i) * (2 * p i + 4 * q i) := by field_simp; ring
      rw [← e1, ← e2]
      exact mul_le_mul_of_nonneg_left this (by positivity)
  have hs : ∑ i, 3 * (p i - q i) ^ 2 / (2 * p i + 4 * q i) ≤ klReal p q := by
    calc _ ≤ ∑ i, (p i * Real.log (p i / q i) - p i + q i) := sum_le_sum fun i _ => key i
      _ = klReal p q := by rw [sum_add_distrib, sum_sub_distrib, hp.sum_one, hq.sum_one, klReal]; ring
  have hw : ∑ i, (2 * p i + 4 * q i) / 3 = 2 := by
    rw [← sum_div, sum_add_distrib, ← mul_sum, ← mul_sum, hp.sum_one, hq.sum_one]; norm_num
  have hcs := sum_sq_le_sum_mul_sum_of_sq_eq_mul univ (r := fun i => |p i - q i|)
    (f := fun i => 3 * (p i - q i) ^ 2 / (2 * p i + 4 * q i)) (g := fun i => (2 * p i + 4 * q i) / 3)
    (fun i _ => by have := hp.nonneg i; have := hq.nonneg i; positivity)
    (fun i _ => by have := hp.nonneg i; have := hq.nonneg i; positivity)
    (fun i _ => by
      have h1 := hp.nonneg i
      have h2 := hq.nonneg i
      rw [sq_abs]
      by_cases hz : 2 * p i + 4 * q i = 0
      · have : p i = 0 := by linarith
        have : q i = 0 := by linarith
        simp_all
      · rw [div_mul_div_comm, eq_div_iff (mul_ne_zero hz three_ne_zero)]; ring)
  rw [hw] at hcs
  rw [tvd, mul_pow]
  norm_num
  linarith

/-! ## data processing -/

theorem log_sum {n : ℕ} {a b : Fin n → ℝ} (ha : ∀ i, 0 ≤ a i) (hb : ∀ i, 0 ≤ b i) (h : ∀ i, b i = 0 → a i = 0) :
    (∑ i, a i) * Real.log ((∑ i, a i) / ∑ i, b i) ≤ ∑ i, a i * Real.log (a i / b i) := by
  rcases eq_or_lt_of_le (sum_nonneg fun i _ => ha i : 0 ≤ ∑ i, a i) with h0 | h0
  · rw [← h0, zero_mul]
    have := (sum_eq_zero_iff_of_nonneg fun i _ => ha i).1 h0.symm
    refine (sum_eq_zero fun i hi => ?_).ge
    rw [this i hi, zero_mul]
  have hb0 : 0 < ∑ i, b i := by
    refine lt_of_le_of_ne (sum_nonneg fun i _ => hb i) fun e => ?_
    have := (sum_eq_zero_iff_of_nonneg fun i _ => hb i).1 e.symm
    exact h0.ne' (sum_eq_zero fun i hi => h i (this i hi))
  set A := ∑ i, a i with hA
  set B := ∑ i, b i with hB
  have hpa : Spec.IsProb fun i => a i / A := ⟨fun i => div_nonneg (ha i) h0.le, by rw [← sum_div, div_self h0.ne']⟩
  have hpb : Spec.IsProb fun i => b i / B := ⟨fun i => div_nonneg (hb i) hb0.le, by rw [← sum_div, div_self hb0.ne']⟩
  have hk := (klReal_nonneg hpa hpb (fun i hi => by
    have : b i = 0 := by simpa [hb0.ne'] using hi
    rw [h i this, zero_div])).1
  have e : klReal (fun i => a i / A) (fun i => b i / B) = (∑ i, a i * Real.log (a i / b i)) / A - Real.log (A / B) := by
    rw [klReal]
    have : ∀ i, a i / A * Real.log (a i / A / (b i / B)) = a i * Real.log (a i / b i) / A - a i / A * Real.log (A / B) := by
      intro i
      rcases eq_or_ne (a i) 0 with h1 | h1
      · simp [h1]
      have h2 : b i ≠ 0 := fun e => h1 (h i e)
      have : a i / A / (b i / B) = (a i / b i) / (A / B) := by field_simp
      rw [this, Real.log_div (div_ne_zero h1 h2) (div_ne_zero h0.ne' hb0.ne')]
      ring
    rw [sum_congr rfl fun i _ => this i, sum_sub_distrib, ← sum_div, ← sum_mul, ← sum_div, ← hA, div_self h0.ne', one_mul]
  rw [e] at hk
  have : A * Real.log (A / B) ≤ A * ((∑ i, a i * Real.log (a i / b i)) / A) :=
    mul_le_mul_of_nonneg_left (by linarith) h0.le
  rwa [mul_div_cancel₀ _ h0.ne'] at this

variable {W : Fin d → Fin e → ℝ}

theorem push_prob (hW : Spec.IsChannel W) (hp : Spec.IsProb p) : Spec.IsProb (Spec.push W p) := by
  refine ⟨fun j => sum_nonneg fun i _ => mul_nonneg (hp.nonneg i) (hW.nonneg i j), ?_⟩
  simp only [Spec.push]
  rw [sum_comm]
  simp only [← mul_sum, hW.sum_one, mul_one, hp.sum_one]

theorem push_zero (hW : Spec.IsChannel W) (hq : Spec.IsProb q) (h : ∀ i, q i = 0 → p i = 0) (j : Fin e)
    (hj : Spec.push W q j = 0) : Spec.push W p j = 0 := by
  have := (sum_eq_zero_iff_of_nonneg fun i _ => mul_nonneg (hq.nonneg i) (hW.nonneg i j)).1 hj
  refine sum_eq_zero fun i hi => ?_
  rcases mul_eq_zero.1 (this i hi) with h1 | h1
  · rw [h i h1, zero_mul]
  · rw [h1, mul_zero]

theorem kl_push (hW : Spec.IsChannel W) (hp : Spec.IsProb p) (hq : Spec.IsProb q) (h : ∀ i, q i = 0 → p i = 0) :
    klReal (Spec.push W p) (Spec.push W q) ≤ klReal p q := by
  have h1 : ∀ j, Spec.push W p j * Real.log (Spec.push W p j / Spec.push W q j) ≤
      ∑ i, p i * W i j * Real.log (p i / q i) := by
    intro j
    refine (log_sum (fun i => mul_nonneg (hp.nonneg i) (hW.nonneg i j)) (fun i => mul_nonneg (hq.nonneg i) (hW.nonneg i j))
      (fun i hi => ?_)).trans (sum_le_sum fun i _ => ?_)
    · rcases mul_eq_zero.1 hi with h1 | h1
      · rw [h i h1, zero_mul]
      · rw [h1, mul_zero]
    · rcases eq_or_ne (W i j) 0 with h1 | h1
      · rw [h1]; simp
      · rw [mul_div_mul_right _ _ h1]
  rw [klReal, klReal]
  refine (sum_le_sum fun j _ => h1 j).trans ?_
  rw [sum_comm]
  refine (sum_congr rfl fun i _ => ?_).le
  have : ∀ j, p i * W i j * Real.log (p i / q i) = W i j * (p i * Real.log (p i / q i)) := fun j => by ring
  rw [sum_congr rfl fun j _ => this j, ← sum_mul, hW.sum_one, one_mul]

theorem push_mid (p q : Fin d → ℝ) : Spec.push W (mid p q) = mid (Spec.push W p) (Spec.push W q) := by
  funext j
  simp only [Spec.push, mid]
  rw [← sum_add_distrib, mul_sum]
  exact sum_congr rfl fun i _ => by ring

theorem js_push (hW : Spec.IsChannel W) (hp : Spec.IsProb p) (hq : Spec.IsProb q) :
    jsReal (Spec.push W p) (Spec.push W q) ≤ jsReal p q := by
  have h1 := kl_push hW hp (prob_mid hp hq) (mid_zero hp hq)
  have h2 := kl_push hW hq (prob_mid hp hq) (fun i h => mid_zero hq hp i (mid_comm p q ▸ h))
  rw [push_mid] at h1 h2
  rw [jsReal, jsReal]
  linarith

theorem tvd_push (hW : Spec.IsChannel W) (p q : Fin d → ℝ) : tvd (Spec.push W p) (Spec.push W q) ≤ tvd p q := by
  rw [tvd, tvd]
  have : ∑ j, |Spec.push W p j - Spec.push W q j| ≤ ∑ i, |p i - q i| := by
    calc _ ≤ ∑ j, ∑ i, |p i - q i| * W i j := sum_le_sum fun j _ => by
          rw [Spec.push, Spec.push, ← sum_sub_distrib]
          refine (abs_sum_le_sum_abs _ _).trans (sum_le_sum fun i _ => ?_)
          rw [← sub_mul, abs_mul, abs_of_nonneg (hW.nonneg i j)]
      _ = _ := by
        rw [sum_comm]
        simp only [← mul_sum, hW.sum_one, mul_one]
  linarith

theorem bc_push (hW : Spec.IsChannel W) (hp : Spec.IsProb p) (hq : Spec.IsProb q) :
    bc p q ≤ bc (Spec.push W p) (Spec.push W q) := by
  rw [bc, bc]
  have : ∀ j, ∑ i, W i j * Real.sqrt (p i * q i) ≤ Real.sqrt (Spec.push W p j * Spec.push W q j) := by
    intro j
    apply Real.le_sqrt_of_sq_le
    refine sum_sq_le_sum_mul_sum_of_sq_eq_mul univ (fun i _ => mul_nonneg (hp.nonneg i) (hW.nonneg i j))
      (fun i _ => mul_nonneg (hq.nonneg i) (hW.nonneg i j)) fun i _ => ?_
    rw [mul_pow, Real.sq_sqrt (mul_nonneg (hp.nonneg i) (hq.nonneg i))]
    ring
  calc ∑ i, Real.sqrt (p i * q i) = ∑ j, ∑ i, W i j * Real.sqrt (p i * q i) := by
        rw [sum_comm]; simp only [← sum_mul, hW.sum_one, one_mul]
    _ ≤ _ := sum_le_sum fun j _ => this j

/-! ## other relations -/

theorem js_pinsker (hp : Spec.IsProb p) (hq : Spec.IsProb q) : tvd p q ^ 2 / 2 ≤ jsReal p q := by
  have h1 := pinsker hp (prob_mid hp hq) (mid_zero hp hq)
  have h2 := pinsker hq (prob_mid hp hq) (fun i h => mid_zero hq hp i (mid_comm p q ▸ h))
  have e1 : tvd p (mid p q) = tvd p q / 2 := by
    rw [tvd, tvd, mul_div_assoc, sum_div]
    congr 1
    refine sum_congr rfl fun i _ => ?_
    rw [show p i - mid p q i = (p i - q i) / 2 by simp only [mid]; ring, abs_div, abs_two]
  have e2 : tvd q (mid p q) = tvd p q / 2 := by
    rw [tvd, tvd, mul_div_assoc, sum_div]
    congr 1
    refine sum_congr rfl fun i _ => ?_
    rw [show q i - mid p q i = -((p i - q i) / 2) by simp only [mid]; ring, abs_neg, abs_div, abs_two]
  rw [e1] at h1
  rw [e2] at h2
  rw [jsReal]
  nlinarith

/-- `x log (2x/(x+y)) + y log (2y/(x+y)) ≤ |x-y| log 2`. -/
theorem js_point {x y : ℝ} (hx : 0 ≤ x) (hy : 0 ≤ y) :
    x * Real.log (x / (0.5 * (x + y))) + y * Real.log (y / (0.5 * (x + y))) ≤ |x - y| * Real.log 2 := by
  wlog hxy : y ≤ x generalizing x y
  · have := this hy hx (le_of_not_ge hxy)
    rw [abs_sub_comm, add_comm]
    rwa [add_comm y x] at this
  rw [abs_of_nonneg (by linarith)]
  rcases eq_or_lt_of_le hy with h0 | h0
  · rw [← h0]
    rcases eq_or_lt_of_le hx with h1 | h1
    · rw [← h1]; simp
    · have : x / (0.5 * (x + 0)) = 2 := by rw [div_eq_iff (by positivity)]; ring
      rw [this]; simp
  have hx0 : 0 < x := lt_of_lt_of_le h0 hxy
  have hs : 0 < x + y := by linarith
  -- concavity of the binary entropy
  have hc : ∀ u : ℝ, 0 < u → u / (0.5 * (x + y)) = 2 * (u / (x + y)) := fun u _ => by field_simp; norm_num
  rw [hc x hx0, hc y h0, Real.log_mul two_ne_zero (by positivity), Real.log_mul two_ne_zero (by positivity)]
  have hconc := Real.concaveOn_negMulLog.2
  -- t = y/(x+y) ≤ 1/2; entropy h(t) ≥ 2 t log 2
  set t := y / (x + y) with ht
  have ht' : x / (x + y) = 1 - t := by rw [ht]; field_simp; ring
  have ht0 : 0 < t := by positivity
  have ht1 : t ≤ 1 / 2 := by rw [ht, div_le_iff₀ hs]; linarith
  have key : 2 * t * Real.log 2 ≤ Real.negMulLog t + Real.negMulLog (1 - t) := by
    have h1 := hconc (x := 0) (y := 1 / 2) (Set.mem_Ici.2 le_rfl) (Set.mem_Ici.2 (by norm_num))
      (a := 1 - 2 * t) (b := 2 * t) (by linarith) (by linarith) (by ring)
    have h2 := hconc (x := 1) (y := 1 / 2) (Set.mem_Ici.2 zero_le_one) (Set.mem_Ici.2 (by norm_num))
      (a := 1 - 2 * t) (b := 2 * t) (by linarith) (by linarith) (by ring)
    simp only [smul_eq_mul, Real.negMulLog_zero, Real.negMulLog_one, mul_zero, zero_add] at h1 h2
    have e1 : 2 * t * (1 / 2) = t := by ring
    have e2 : (1 - 2 * t) * 1 + t = 1 - t := by ring
    rw [e1] at h1 h2
    rw [e2] at h2
    have e3 : Real.negMulLog (1 / 2) = 1 / 2 * Real.log 2 := by
      rw [Real.negMulLog, one_div, Real.log_inv]; ring
    rw [e3] at h1 h2
    linarith
  rw [Real.negMulLog, Real.negMulLog, ← ht'] at key
  have hmul := mul_le_mul_of_nonneg_left key hs.le
  have e4 : (x + y) * (2 * t * Real.log 2) = 2 * y * Real.log 2 := by rw [ht]; field_simp
  have e5 : (x + y) * (-t * Real.log t + -(x / (x + y)) * Real.log (x / (x + y))) =
      -(y * Real.log t) - x * Real.log (x / (x + y)) := by rw [ht]; field_simp; ring
  rw [e4, e5] at hmul
  nlinarith

theorem js_le_tvd (hp : Spec.IsProb p) (hq : Spec.IsProb q) : jsReal p q ≤ tvd p q * Real.log 2 := by
  rw [jsReal, klReal, klReal, ← sum_add_distrib, tvd, mul_assoc, sum_mul]
  refine mul_le_mul_of_nonneg_left (sum_le_sum fun i _ => ?_) (by norm_num)
  exact js_point (hp.nonneg i) (hq.nonneg i)

/-- `-2 log BC ≤ KL`. -/
theorem bc_kl (hp : Spec.IsProb p) (hq : Spec.IsProb q) (h : ∀ i, q i = 0 → p i = 0) :
    0 < bc p q ∧ -2 * Real.log (bc p q) ≤ klReal p q := by
  have hb : 0 < bc p q := by
    refine lt_of_le_of_ne (bc_facts hp hq).1 fun e => ?_
    have := (bc_facts hp hq).2.2.2.1 e.symm
    have h0 : ∀ i, p i = 0 := fun i => (this i).elim id (h i)
    have := hp.sum_one
    simp [h0] at this
  refine ⟨hb, ?_⟩
  have key : ∀ i, p i * (1 - Real.log (bc p q)) - p i * Real.log (p i / q i) / 2 ≤ Real.sqrt (p i * q i) / bc p q + 0 := by
    intro i
    rcases eq_or_ne (p i) 0 with h1 | h1
    · rw [h1]; simp
    have h2 : q i ≠ 0 := fun e => h1 (h i e)
    have hp0 : 0 < p i := lt_of_le_of_ne (hp.nonneg i) (Ne.symm h1)
    have hq0 : 0 < q i := lt_of_le_of_ne (hq.nonneg i) (Ne.symm h2)
    have hs : Real.sqrt (p i * q i) = p i * Real.sqrt (q i / p i) := by
      rw [show p i * q i = p i ^ 2 * (q i / p i) by field_simp, Real.sqrt_mul (by positivity), Real.sqrt_sq hp0.le]
    have hr : 0 < Real.sqrt (q i / p i) := Real.sqrt_pos.2 (by positivity)
    have := Real.log_le_sub_one_of_pos (x := Real.sqrt (q i / p i) / bc p q) (by positivity)
    rw [Real.log_div hr.ne' hb.ne', Real.log_sqrt (by positivity), Real.log_div h2 h1] at this
    rw [hs, add_zero, mul_div_assoc, Real.log_div h1 h2]
    have := mul_le_mul_of_nonneg_left this hp0.le
    rw [mul_div_assoc] at *
    nlinarith
  have hsum := sum_le_sum fun i (_ : i ∈ univ) => key i
  rw [sum_sub_distrib, ← sum_mul, hp.sum_one, ← sum_div] at hsum
  simp only [add_zero] at hsum
  rw [← sum_div] at hsum
  have e : (∑ i, Real.sqrt (p i * q i)) / bc p q = 1 := div_self hb.ne'
  rw [e] at hsum
  rw [klReal]
  linarith

/-! ## mixing -/

theorem renyi_push {W : Fin d → Fin d → ℝ} (hW : Spec.IsChannel W) (hu : Spec.Unital W) (hp : Spec.IsProb p) {a : ℝ}
    (ha : 0 ≤ a) : Spec.renyi p a ≤ Spec.renyi (Spec.push W p) a := by
  have hq := push_prob hW hp
  have hpush : ∀ j, Spec.push W p j = ∑ i, W i j • p i := fun j =>
    sum_congr rfl fun i _ => by rw [smul_eq_mul, mul_comm]
  have swap : ∀ g : Fin d → ℝ, ∑ j, ∑ i, W i j • g i = ∑ i, g i := by
    intro g
    rw [sum_comm]
    refine sum_congr rfl fun i _ => ?_
    simp only [smul_eq_mul]
    rw [← sum_mul, hW.sum_one, one_mul]
  have hpow : ∀ (r : Fin d → ℝ), a ≠ 0 → powSum r a = ∑ i, r i ^ a := by
    intro r h0
    rw [powSum_univ]
    refine sum_congr rfl fun i _ => ?_
    split_ifs with h
    · rw [h, Real.zero_rpow h0]
    · rfl
  rcases lt_trichotomy a 1 with h1 | h1 | h1
  · rw [renyi_of_ne _ h1.ne, renyi_of_ne _ h1.ne]
    refine mul_le_mul_of_nonneg_left (Real.log_le_log (powSum_pos hp a) ?_) (by
      rw [one_div]; exact inv_nonneg.2 (by linarith))
    rcases eq_or_lt_of_le ha with h0 | h0
    · subst h0
      simp only [powSum, Real.rpow_zero, sum_const, nsmul_eq_mul, mul_one]
      have key : ((supp p).card : ℝ) ≤ (supp (Spec.push W p)).card := by
        calc ((supp p).card : ℝ) = ∑ i ∈ supp p, ∑ j, W i j := by simp [hW.sum_one]
          _ = ∑ i ∈ supp p, ∑ j ∈ supp (Spec.push W p), W i j := by
            refine sum_congr rfl fun i hi => ?_
            symm
            refine sum_subset (subset_univ _) fun j _ hj => ?_
            have hj0 : Spec.push W p j = 0 := by simpa [mem_supp] using hj
            have := (sum_eq_zero_iff_of_nonneg fun i _ => mul_nonneg (hp.nonneg i) (hW.nonneg i j)).1 hj0 i (mem_univ i)
            exact (mul_eq_zero.1 this).resolve_left (mem_supp.1 hi)
          _ = ∑ j ∈ supp (Spec.push W p), ∑ i ∈ supp p, W i j := sum_comm
          _ ≤ ∑ j ∈ supp (Spec.push W p), ∑ i, W i j := sum_le_sum fun j _ =>
            sum_le_univ_sum_of_nonneg fun i => hW.nonneg i j
          _ = _ := by rw [sum_congr rfl fun j _ => hu j]; simp
      exact key
    · rw [hpow _ h0.ne', hpow _ h0.ne', ← swap fun i => p i ^ a]
      refine sum_le_sum fun j _ => ?_
      rw [hpush]
      exact (Real.concaveOn_rpow ha h1.le).le_map_sum (fun i _ => hW.nonneg i j) (hu j) fun i _ => hp.nonneg i
  · subst h1
    rw [Spec.renyi, Spec.renyi, if_pos rfl, if_pos rfl, neg_le_neg_iff]
    have hx := swap fun i => p i * Real.log (p i)
    rw [← hx]
    refine sum_le_sum fun j _ => ?_
    rw [hpush]
    exact Real.convexOn_mul_log.map_sum_le (fun i _ => hW.nonneg i j) (hu j) fun i _ => hp.nonneg i
  · rw [renyi_of_ne _ h1.ne', renyi_of_ne _ h1.ne']
    refine mul_le_mul_of_nonpos_left (Real.log_le_log (powSum_pos hq a) ?_) (by
      rw [one_div]; exact inv_nonpos.2 (by linarith))
    rw [hpow _ (by linarith), hpow _ (by linarith), ← swap fun i => p i ^ a]
    refine sum_le_sum fun j _ => ?_
    rw [hpush]
    exact (convexOn_rpow h1.le).map_sum_le (fun i _ => hW.nonneg i j) (hu j) fun i _ => hp.nonneg i

theorem max_push {W : Fin d → Fin d → ℝ} (hW : Spec.IsChannel W) (hu : Spec.Unital W) {m k : ℝ}
    (hm : Spec.IsMax p m) (hk : Spec.IsMax (Spec.push W p) k) : k ≤ m := by
  obtain ⟨⟨j, hj⟩, -⟩ := hk
  rw [← hj]
  calc Spec.push W p j ≤ ∑ i, m * W i j := sum_le_sum fun i _ => mul_le_mul_of_nonneg_right (hm.2 i) (hW.nonneg i j)
    _ = m := by rw [← mul_sum, hu, mul_one]

/-! ## products -/

theorem bc_product {p' q' : Fin e → ℝ} (hp : Spec.IsProb p) (hq : Spec.IsProb q) :
    bc (Spec.product p p') (Spec.product q q') = bc p q * bc p' q' := by
  rw [bc, bc, bc, sum_mul_sum, ← sum_product fun i j => Real.sqrt (p i * q i) * Real.sqrt (p' j * q' j)]
  refine sum_congr rfl fun i _ => ?_
  rw [← Real.sqrt_mul (mul_nonneg (hp.nonneg _) (hq.nonneg _))]
  congr 1
  simp only [Spec.product]
  ring

theorem kl_product {p' q' : Fin e → ℝ} (hp : Spec.IsProb p) (hp' : Spec.IsProb p')
    (h : ∀ i, q i = 0 → p i = 0) (h' : ∀ i, q' i = 0 → p' i = 0) :
    klReal (Spec.product p p') (Spec.product q q') = klReal p q + klReal p' q' := by
  have key : ∀ i : Fin (d * e), Spec.product p p' i * Real.log (Spec.product p p' i / Spec.product q q' i) =
      p i.divNat * Real.log (p i.divNat / q i.divNat) * p' i.modNat +
        p i.divNat * (p' i.modNat * Real.log (p' i.modNat / q' i.modNat)) := by
    intro i
    by_cases h1 : p i.divNat = 0
    · simp [Spec.product, h1]
    by_cases h2 : p' i.modNat = 0
    · simp [Spec.product, h2]
    have h3 : q i.divNat ≠ 0 := fun e => h1 (h _ e)
    have h4 : q' i.modNat ≠ 0 := fun e => h2 (h' _ e)
    rw [Spec.product, Spec.product, mul_div_mul_comm, Real.log_mul (div_ne_zero h1 h3) (div_ne_zero h2 h4)]
    ring
  rw [klReal, sum_congr rfl fun i _ => key i,
    sum_product fun i j => p i * Real.log (p i / q i) * p' j + p i * (p' j * Real.log (p' j / q' j))]
  simp_rw [sum_add_distrib, ← mul_sum, ← sum_mul, hp'.sum_one, hp.sum_one, one_mul, mul_one]
  rfl

theorem tvd_product {p' q' : Fin e → ℝ} (hp' : Spec.IsProb p') (hq : Spec.IsProb q) :
    tvd (Spec.product p p') (Spec.product q q') ≤ tvd p q + tvd p' q' := by
  rw [tvd, tvd, tvd, ← mul_add]
  refine mul_le_mul_of_nonneg_left ?_ (by norm_num)
  calc ∑ i, |Spec.product p p' i - Spec.product q q' i|
      ≤ ∑ i : Fin (d * e), (|p i.divNat - q i.divNat| * p' i.modNat + q i.divNat * |p' i.modNat - q' i.modNat|) := by
        refine sum_le_sum fun i _ => ?_
        simp only [Spec.product]
        have : p i.divNat * p' i.modNat - q i.divNat * q' i.modNat =
            (p i.divNat - q i.divNat) * p' i.modNat + q i.divNat * (p' i.modNat - q' i.modNat) := by ring
        rw [this]
        refine (abs_add_le _ _).trans ?_
        rw [abs_mul, abs_mul, abs_of_nonneg (hp'.nonneg _), abs_of_nonneg (hq.nonneg _)]
    _ = _ := by
      rw [sum_product fun i j => |p i - q i| * p' j + q i * |p' j - q' j|]
      simp_rw [sum_add_distrib, ← mul_sum, ← sum_mul, hp'.sum_one, hq.sum_one, one_mul, mul_one]

end FF
