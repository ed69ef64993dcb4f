import Verif.Proofs.Metric
import Verif.Props.Mix

/-! # Property C143: square roots of the divergences are distances -/

namespace FF.Props

open Finset

section

variable {d : ℕ} {p q r : Fin d → ℝ} {x y z : Arr}

/-- C143. The square root of the Jensen-Shannon divergence satisfies the triangle inequality. -/
theorem C143_jensen_shannon (hx : Spec.Represents x p) (hy : Spec.Represents y q) (hz : Spec.Represents z r) :
    ∃ u v w : ℝ, jensenShannonDivergence x y = .ok (u : EReal) ∧ jensenShannonDivergence y z = .ok (v : EReal) ∧
      jensenShannonDivergence x z = .ok (w : EReal) ∧ Real.sqrt w ≤ Real.sqrt u + Real.sqrt v :=
  ⟨_, _, _, js_val hx hy, js_val hy hz, js_val hx hz, js_triangle (represents_cast hx).2 (represents_cast hy).2 (represents_cast hz).2⟩

/-- C143. The Hellinger distance, the square root of one minus the Bhattacharyya coefficient, satisfies the triangle inequality. -/
theorem C143_hellinger (hx : Spec.Represents x p) (hy : Spec.Represents y q) (hz : Spec.Represents z r) :
    ∃ u v w : ℝ, bhattacharyyaCoeff x y = .ok (some u) ∧ bhattacharyyaCoeff y z = .ok (some v) ∧ bhattacharyyaCoeff x z = .ok (some w) ∧
      Real.sqrt (1 - w) ≤ Real.sqrt (1 - u) + Real.sqrt (1 - v) :=
  ⟨_, _, _, bc_val hx hy, bc_val hy hz, bc_val hx hz, hellinger_triangle (represents_cast hx).2 (represents_cast hy).2 (represents_cast hz).2⟩

end

/-- The even distribution on two outcomes and the two deterministic ones. -/
theorem coin_prob : Spec.IsProb (![1, 0] : Fin 2 → ℝ) ∧ Spec.IsProb (![1 / 2, 1 / 2] : Fin 2 → ℝ) ∧ Spec.IsProb (![0, 1] : Fin 2 → ℝ) := by
  refine ⟨⟨?_, ?_⟩, ⟨?_, ?_⟩, ⟨?_, ?_⟩⟩
  all_goals first | (intro i; fin_cases i <;> norm_num) | (rw [Fin.sum_univ_two]; norm_num)

/-- Three different distributions meet the hypotheses of the two theorems. -/
example : ∃ (x y z : Arr) (p q r : Fin 2 → ℝ), Spec.Represents x p ∧ Spec.Represents y q ∧ Spec.Represents z r ∧ p ≠ q ∧ q ≠ r ∧ p ≠ r := by
  refine ⟨_, _, _, _, _, _, prob_rep coin_prob.1, prob_rep coin_prob.2.1, prob_rep coin_prob.2.2, ?_, ?_, ?_⟩ <;>
  · intro h
    have := congrFun h 0
    norm_num at this

/-- C143. Without the square roots the triangle inequality fails. -/
theorem C143_roots_needed : ∃ (x y z : Arr) (p q r : Fin 2 → ℝ), Spec.Represents x p ∧ Spec.Represents y q ∧ Spec.Represents z r ∧
    (∃ u v w : ℝ, jensenShannonDivergence x y = .ok (u : EReal) ∧ jensenShannonDivergence y z = .ok (v : EReal) ∧
      jensenShannonDivergence x z = .ok (w : EReal) ∧ u + v < w) ∧
    (∃ u v w : ℝ, bhattacharyyaCoeff x y = .ok (some u) ∧ bhattacharyyaCoeff y z = .ok (some v) ∧ bhattacharyyaCoeff x z = .ok (some w) ∧
      (1 - u) + (1 - v) < 1 - w) := by
  obtain ⟨h1, h2, h3⟩ := coin_prob
  refine ⟨_, _, _, _, _, _, prob_rep h1, prob_rep h2, prob_rep h3,
    ⟨_, _, _, js_val (prob_rep h1) (prob_rep h2), js_val (prob_rep h2) (prob_rep h3), js_val (prob_rep h1) (prob_rep h3), ?_⟩,
    ⟨_, _, _, bc_val (prob_rep h1) (prob_rep h2), bc_val (prob_rep h2) (prob_rep h3), bc_val (prob_rep h1) (prob_rep h3), ?_⟩⟩
  · rw [js_terms h1 h2, js_terms h2 h3, js_terms h1 h3]
    simp only [Fin.sum_univ_two, jsTerm, Matrix.cons_val_zero, Matrix.cons_val_one]
    have e : Real.log (1 + 1 / 2) = Real.log 3 - Real.log 2 := by
      rw [← Real.log_div (by norm_num) (by norm_num)]; norm_num
    have e' : Real.log (1 / 2) = -Real.log 2 := by rw [one_div, Real.log_inv]
    have e'' : Real.log (1 / 2 + 1) = Real.log 3 - Real.log 2 := by rw [add_comm, e]
    simp only [mul_zero, zero_mul, mul_one, add_zero, zero_add, Real.log_one, sub_zero, e, e', e'']
    rw [show (2 : ℝ) * (1 / 2) = 1 by norm_num, Real.log_one]
    have h9 : Real.log 8 < Real.log 9 := Real.log_lt_log (by norm_num) (by norm_num)
    rw [show (8 : ℝ) = 2 ^ 3 by norm_num, show (9 : ℝ) = 3 ^ 2 by norm_num, Real.log_pow, Real.log_pow] at h9
    have h2 := Real.log_pos (show (1 : ℝ) < 2 by norm_num)
    push_cast at h9
    linarith
  · simp only [bc, Fin.sum_univ_two, Matrix.cons_val_zero, Matrix.cons_val_one, one_mul, zero_mul, mul_zero, mul_one, Real.sqrt_zero]
    have : (1 / 2 : ℝ) < Real.sqrt (1 / 2) := by
      rw [Real.lt_sqrt (by norm_num)]; norm_num
    linarith

/-- C17. Although nearly deterministic probability vectors are read as wavefunctions (`C17_violation`), whatever `cast_to_pdf` returns for a
probability vector is close to it: no entry grows and the changes add up to at most 1.001e-5. -/
theorem C17_close {n : ℕ} {p r : Fin n → ℝ} (hp : Spec.IsProb p) (h : castToPdf (.vec n fun i => (p i : ℂ)) = .ok ⟨n, r⟩) :
    (∀ i, 0 ≤ r i ∧ r i ≤ p i) ∧ ∑ i, |r i - p i| ≤ 1.001e-5 := by
  obtain ⟨h1, h2, h3⟩ := C17_outcome n p hp
  have inj : ∀ {s : Fin n → ℝ}, (Except.ok ⟨n, s⟩ : Except PyErr (Σ n, Fin n → ℝ)) = .ok ⟨n, r⟩ → s = r := fun h => by
    have := Except.ok.inj h
    simpa using this
  rcases le_or_gt |Real.sqrt (∑ i, p i ^ 2) - 1| (1e-8 + 1e-5) with g | g
  · rcases le_or_gt |1 - ∑ i, p i ^ 2| (1e-8 + 1e-5 * ∑ i, p i ^ 2) with k | k
    · rw [h2 g k] at h
      obtain rfl := inj h
      have hle : ∀ i, p i ≤ 1 := fun i => by
        rw [← hp.sum_one]
        exact single_le_sum (fun j _ => hp.nonneg j) (mem_univ i)
      have hsq : ∀ i, p i ^ 2 ≤ p i := fun i => by nlinarith [hp.nonneg i, hle i]
      refine ⟨fun i => ⟨sq_nonneg _, hsq i⟩, ?_⟩
      have e : ∑ i, |p i ^ 2 - p i| = 1 - ∑ i, p i ^ 2 := by
        rw [← hp.sum_one, ← sum_sub_distrib]
        exact sum_congr rfl fun i _ => by rw [abs_sub_comm, abs_of_nonneg (sub_nonneg.2 (hsq i))]
      have hs : ∑ i, p i ^ 2 ≤ 1 := hp.sum_one ▸ sum_le_sum fun i _ => hsq i
      rw [e]
      calc _ ≤ |1 - ∑ i, p i ^ 2| := le_abs_self _
        _ ≤ _ := k
        _ ≤ _ := by linarith
    · rw [h3 g k] at h
      cases h
  · rw [h1 g] at h
    obtain rfl := inj h
    exact ⟨fun i => ⟨hp.nonneg i, le_rfl⟩, by simp; norm_num⟩

/-- A vector that is misread meets the hypotheses. -/
example : ∃ (p r : Fin 2 → ℝ), Spec.IsProb p ∧ castToPdf (.vec 2 fun i => (p i : ℂ)) = .ok ⟨2, r⟩ ∧ r ≠ p := by
  obtain ⟨p, h1, h2, h3, -⟩ := C17_violation
  exact ⟨p, _, h1, h2, h3⟩

end FF.Props
