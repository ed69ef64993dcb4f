import Verif.Proofs.Distance3

/-! # Properties of the entropies and of the distances between distributions (C64-C66, C68, C70-C72, C86) -/

namespace FF.Props

open Finset

variable {d e : ℕ} {p q r : Fin d → ℝ} {x y z : Arr}

/-- The distribution used in the examples. -/
noncomputable def halves : Fin 4 → ℝ := ![1 / 2, 1 / 4, 1 / 4, 0]

theorem halves_prob : Spec.IsProb halves := by
  refine ⟨fun i => ?_, ?_⟩
  · fin_cases i <;> simp [halves]
  · simp [halves, Fin.sum_univ_four]; norm_num

theorem halves_rep : Spec.Represents (realVec halves) halves :=
  represents_self halves_prob (by simp [halves, Fin.sum_univ_four]; norm_num)

/-- The uniform distribution on four outcomes. -/
noncomputable def quarter : Fin 4 → ℝ := fun _ => 1 / 4

theorem quarter_rep : Spec.Uniform quarter ∧ Spec.Represents (realVec quarter) quarter := by
  have h : Spec.Uniform quarter := fun i => by simp [quarter]
  exact ⟨h, represents_self (prob_uniform (by norm_num) h) (by simp [quarter]; norm_num)⟩

/-! ## C64 -/

/-- C64. For every distribution, given as a wavefunction, a density matrix or a vector, and every order `a ≥ 0`,
`renyi_entropy` returns `(1/(1-a)) log Σ p^a` over the support, respectively the Shannon entropy for `a = 1`. -/
theorem C64_formula (h : Spec.Represents x p) (a : ℝ) (ha : 0 ≤ a) :
    renyiEntropy x (.num a) = .ok ((Spec.renyi p a : ℝ) : EReal) := by
  rw [renyiEntropy_eq h, renyiCore_num (represents_cast h).2 ha]

/-- C64. At infinite order the result is `-log max p`. -/
theorem C64_inf (h : Spec.Represents x p) (m : ℝ) (hm : Spec.IsMax p m) :
    renyiEntropy x .inf = .ok ((-Real.log m : ℝ) : EReal) := by
  rw [renyiEntropy_eq h, renyiCore_inf hm]

/-- The orders for which the entropy is defined. -/
def OrderOk : Order → Prop
  | .num a => 0 ≤ a
  | .inf => True

/-- C64. Every Rényi entropy is a real number between 0 and `log d`, and 0 exactly for deterministic distributions. -/
theorem C64_bounds (h : Spec.Represents x p) (o : Order) (ho : OrderOk o) :
    ∃ v : ℝ, renyiEntropy x o = .ok (v : EReal) ∧ 0 ≤ v ∧ v ≤ Real.log d ∧ (v = 0 ↔ Spec.Deterministic p) := by
  have hp := (represents_cast h).2
  obtain ⟨m, hm⟩ := exists_max hp
  have hm0 := max_pos hp hm
  have hm1 : m ≤ 1 := by obtain ⟨⟨i, hi⟩, -⟩ := hm; rw [← hi]; exact prob_le_one hp i
  have hlog := Real.log_nonpos hm0.le hm1
  have hdet : -Real.log m = 0 → Spec.Deterministic p := fun h0 =>
    deterministic_of_max hp hm (Real.eq_one_of_pos_of_log_eq_zero hm0 (by linarith)).ge
  cases o with
  | num a =>
    refine ⟨_, C64_formula h a ho, renyi_nonneg hp a, renyi_le hp ho, fun h0 => hdet ?_, fun h0 => renyi_deterministic h0 a⟩
    have := minEntropy_le hp hm a
    linarith
  | inf =>
    refine ⟨_, C64_inf h m hm, by linarith, (minEntropy_le hp hm 0).trans (renyi_le hp le_rfl), hdet, fun h0 => ?_⟩
    obtain ⟨k, hk⟩ := h0
    have : m = 1 := by
      refine le_antisymm hm1 ?_
      have := hm.2 k
      rw [hk, if_pos rfl] at this
      exact this
    rw [this, Real.log_one, neg_zero]

/-- C64. The uniform distribution has every entropy equal to `log d`. -/
theorem C64_uniform (h : Spec.Represents x p) (hu : Spec.Uniform p) (o : Order) (ho : OrderOk o) :
    renyiEntropy x o = .ok ((Real.log d : ℝ) : EReal) := by
  have hp := (represents_cast h).2
  have hd := prob_pos hp
  cases o with
  | num a => rw [C64_formula h a ho, renyi_uniform hd hu]
  | inf =>
    have hm : Spec.IsMax p (1 / (d : ℝ)) := ⟨⟨⟨0, hd⟩, hu _⟩, fun i => (hu i).le⟩
    rw [C64_inf h _ hm, one_div, Real.log_inv, neg_neg]

/-- C64. Additivity: the entropy of a product distribution is the sum of the entropies, at every order. -/
theorem C64_product {q : Fin e → ℝ} (hx : Spec.Represents x p) (hy : Spec.Represents y q)
    (hz : Spec.Represents z (Spec.product p q)) (o : Order) (ho : OrderOk o) :
    ∃ u v : ℝ, renyiEntropy x o = .ok (u : EReal) ∧ renyiEntropy y o = .ok (v : EReal) ∧
      renyiEntropy z o = .ok ((u + v : ℝ) : EReal) := by
  have hp := (represents_cast hx).2
  have hq := (represents_cast hy).2
  cases o with
  | num a =>
    refine ⟨_, _, C64_formula hx a ho, C64_formula hy a ho, ?_⟩
    rw [C64_formula hz a ho, renyi_product hp hq]
  | inf =>
    obtain ⟨m, hm⟩ := exists_max hp
    obtain ⟨k, hk⟩ := exists_max hq
    refine ⟨_, _, C64_inf hx m hm, C64_inf hy k hk, ?_⟩
    rw [C64_inf hz _ (max_product hp hq hm hk), Real.log_mul (max_pos hp hm).ne' (max_pos hq hk).ne', neg_add]

example : Spec.Represents (realVec halves) halves ∧ OrderOk (.num 2) ∧ ¬ Spec.Deterministic halves ∧
    Spec.Represents (realVec (Spec.product halves halves)) (Spec.product halves halves) := by
  refine ⟨halves_rep, by norm_num [OrderOk], fun ⟨k, hk⟩ => ?_, represents_self (prob_product halves_prob halves_prob) ?_⟩
  · have := hk 0
    simp only [halves, Matrix.cons_val_zero] at this
    split at this <;> norm_num at this
  · simp only [Spec.product, mul_pow]
    rw [sum_product fun i j => halves i ^ 2 * halves j ^ 2]
    simp [halves, Fin.sum_univ_four]
    norm_num

/-! ## C65 -/

/-- C65. The Rényi entropies of a distribution decrease with the order, from 0 through 1 to infinity. -/
theorem C65_monotone (h : Spec.Represents x p) :
    (∀ a b : ℝ, 0 ≤ a → a ≤ b → ∃ u v : ℝ, renyiEntropy x (.num a) = .ok (u : EReal) ∧
      renyiEntropy x (.num b) = .ok (v : EReal) ∧ v ≤ u) ∧
    (∀ a : ℝ, 0 ≤ a → ∃ u v : ℝ, renyiEntropy x (.num a) = .ok (u : EReal) ∧
      renyiEntropy x .inf = .ok (v : EReal) ∧ v ≤ u) := by
  have hp := (represents_cast h).2
  obtain ⟨m, hm⟩ := exists_max hp
  exact ⟨fun a b ha hab => ⟨_, _, C64_formula h a ha, C64_formula h b (ha.trans hab), renyi_anti hp hab⟩,
    fun a ha => ⟨_, _, C64_formula h a ha, C64_inf h m hm, minEntropy_le hp hm a⟩⟩

example : Spec.Represents (realVec halves) halves := halves_rep

/-! ## C66 -/

/-- C66. If the length is a perfect square `linear_entropy` returns `1 - Σ p²`, which lies between 0 and `1 - 1/d`,
is 0 exactly for deterministic and `1 - 1/d` exactly for uniform distributions. -/
theorem C66_value (h : Spec.Represents x p) (hd : IsSquare d) :
    linearEntropy x = .ok (1 - ∑ i, p i ^ 2) ∧ 0 ≤ 1 - ∑ i, p i ^ 2 ∧ 1 - ∑ i, p i ^ 2 ≤ 1 - 1 / (d : ℝ) ∧
      (1 - ∑ i, p i ^ 2 = 0 ↔ Spec.Deterministic p) ∧ (1 - ∑ i, p i ^ 2 = 1 - 1 / (d : ℝ) ↔ Spec.Uniform p) := by
  obtain ⟨h1, h2, h3, h4⟩ := sumsq_facts (represents_cast h).2
  refine ⟨(linearEntropy_eq h).1 ?_, by linarith, by linarith, ?_, ?_⟩
  · obtain ⟨m, hm⟩ := hd
    rw [hm]; exact sqrt_square m
  · rw [← h3]; constructor <;> intro <;> linarith
  · rw [← h4]; constructor <;> intro <;> linarith

/-- C66. For a length up to `10^15` that is not a perfect square the call raises AssertionError. -/
theorem C66_nonsquare (h : Spec.Represents x p) (hd : ¬ IsSquare d) (hb : d ≤ 10 ^ 15) :
    linearEntropy x = .error .assertionError :=
  (linearEntropy_eq h).2 (sqrt_nonsquare hd hb)

/-- C66. The bound is needed: the tolerance of the check accepts the length `10^16 + 1`, which is not a square. -/
theorem C66_large (p : Fin (10 ^ 16 + 1) → ℝ) (h : Spec.Represents x p) :
    linearEntropy x = .ok (1 - ∑ i, p i ^ 2) ∧ ¬ IsSquare (10 ^ 16 + 1) := by
  refine ⟨(linearEntropy_eq h).1 ?_, ?_⟩
  · set s := Real.sqrt ((10 ^ 16 + 1 : ℕ) : ℝ) with hs
    have h1 : (10 : ℝ) ^ 8 ≤ s := by
      rw [hs]
      apply Real.le_sqrt_of_sq_le
      push_cast; norm_num
    have h2 : s ≤ 10 ^ 8 + 1e-8 := by
      rw [hs, Real.sqrt_le_left (by norm_num)]
      push_cast; norm_num
    clear_value s
    have h3 : ⌊s⌋₊ = 10 ^ 8 := by
      rw [Nat.floor_eq_iff (le_trans (by norm_num) h1)]
      push_cast
      constructor <;> linarith
    rw [h3, abs_le]
    push_cast
    constructor <;> linarith
  · rintro ⟨r, hr⟩
    have h1 : r ≤ 10 ^ 8 := by nlinarith
    have h2 : 10 ^ 8 < r := by nlinarith
    omega

example : Spec.Represents (realVec halves) halves ∧ IsSquare 4 ∧ Spec.Uniform quarter :=
  ⟨halves_rep, ⟨2, rfl⟩, quarter_rep.1⟩

example : ∃ p : Fin 2 → ℝ, Spec.Represents (realVec p) p ∧ ¬ IsSquare 2 ∧ 2 ≤ 10 ^ 15 := by
  refine ⟨fun _ => 1 / 2, represents_self ⟨fun _ => by norm_num, by simp⟩ (by simp; norm_num), ?_, by norm_num⟩
  rintro ⟨r, hr⟩
  have : r < 2 := by nlinarith
  interval_cases r <;> omega

/-! ## C68 -/

/-- C68. The value: half the sum of the absolute differences. -/
theorem C68_value (hx : Spec.Represents x p) (hy : Spec.Represents y q) :
    totalVariationDistance x y = .ok (1 / 2 * ∑ i, |p i - q i|) := by
  rw [totalVariationDistance, (represents_cast hx).1, (represents_cast hy).1]
  simp only [bind, Except.bind]
  rw [broadcast_same]
  simp only [pure, Except.pure]
  norm_num

/-- C68. For all distributions on the same number of outcomes the distance is symmetric, in `[0, 1]`, 0 exactly for
equal distributions, 1 exactly for disjoint supports, and satisfies the triangle inequality. -/
theorem C68_metric (hx : Spec.Represents x p) (hy : Spec.Represents y q) (hz : Spec.Represents z r) :
    ∃ a b c : ℝ, totalVariationDistance x y = .ok a ∧ totalVariationDistance y x = .ok a ∧
      totalVariationDistance y z = .ok b ∧ totalVariationDistance x z = .ok c ∧
      0 ≤ a ∧ a ≤ 1 ∧ (a = 0 ↔ p = q) ∧ (a = 1 ↔ Spec.DisjointSupports p q) ∧ c ≤ a + b := by
  have hp := (represents_cast hx).2
  have hq := (represents_cast hy).2
  have hr := (represents_cast hz).2
  have e : ∀ u v : Fin d → ℝ, 1 / 2 * ∑ i, |u i - v i| = tvd u v := fun u v => by rw [tvd]; norm_num
  obtain ⟨h1, h2, h3, h4, -⟩ := tvd_facts hp hq r
  refine ⟨tvd p q, tvd q r, tvd p r, ?_, ?_, ?_, ?_, h2, h3, h4, tvd_one hp hq, (tvd_facts hp hr q).2.2.2.2⟩
  · rw [C68_value hx hy, e]
  · rw [C68_value hy hx, e, h1]
  · rw [C68_value hy hz, e]
  · rw [C68_value hx hz, e]

example : Spec.Represents (realVec halves) halves ∧ Spec.Represents (realVec quarter) quarter ∧ halves ≠ quarter := by
  refine ⟨halves_rep, quarter_rep.2, fun h => ?_⟩
  have := congrFun h 0
  norm_num [halves, quarter] at this

/-! ## C70 -/

/-- C70. The relative entropy is `Σ p log (p/q)` where `q` is positive on the support of `p`, and `+∞` otherwise. -/
theorem C70_value (hx : Spec.Represents x p) (hy : Spec.Represents y q) :
    ((∀ i, q i = 0 → p i = 0) → relativeEntropy x y = .ok ((∑ i, p i * Real.log (p i / q i) : ℝ) : EReal)) ∧
      (relativeEntropy x y = .ok ⊤ ↔ ∃ i, q i = 0 ∧ p i ≠ 0) := by
  have hp := (represents_cast hx).2
  have hq := (represents_cast hy).2
  have e : relativeEntropy x y = .ok (entropy2 p q) := by
    rw [relativeEntropy, (represents_cast hx).1, (represents_cast hy).1]
    simp only [bind, Except.bind]
    rw [broadcast_same]
    rfl
  have h1 : (∀ i, q i = 0 → p i = 0) → relativeEntropy x y = .ok ((∑ i, p i * Real.log (p i / q i) : ℝ) : EReal) := by
    intro h
    rw [e, entropy2_finite hp hq h]; rfl
  refine ⟨h1, fun h => ?_, fun ⟨i, h2, h3⟩ => by rw [e, entropy2_top hp hq h2 h3]⟩
  by_contra hc
  push Not at hc
  rw [h1 hc] at h
  exact EReal.coe_ne_top _ (Except.ok.inj h)

/-- C70. It is never negative, and 0 exactly for equal distributions. -/
theorem C70_gibbs (hx : Spec.Represents x p) (hy : Spec.Represents y q) :
    ∃ v : EReal, relativeEntropy x y = .ok v ∧ 0 ≤ v ∧ (v = 0 ↔ p = q) := by
  have hp := (represents_cast hx).2
  have hq := (represents_cast hy).2
  obtain ⟨h1, h2⟩ := C70_value hx hy
  by_cases hc : ∃ i, q i = 0 ∧ p i ≠ 0
  · refine ⟨⊤, h2.2 hc, le_top, fun h => absurd h EReal.top_ne_zero, fun h => ?_⟩
    obtain ⟨i, h3, h4⟩ := hc
    rw [h] at h4; exact absurd h3 h4
  · push Not at hc
    obtain ⟨h3, h4⟩ := klReal_nonneg hp hq hc
    refine ⟨_, h1 hc, EReal.coe_nonneg.2 h3, ?_⟩
    rw [← h4]
    exact EReal.coe_eq_zero

example : Spec.Represents (realVec halves) halves ∧ Spec.Represents (realVec quarter) quarter ∧
    (∀ i, quarter i = 0 → halves i = 0) ∧ ∃ i, halves i = 0 ∧ quarter i ≠ 0 := by
  refine ⟨halves_rep, quarter_rep.2, fun i h => ?_, 3, ?_, ?_⟩
  · norm_num [quarter] at h
  · simp [halves]
  · norm_num [quarter]

/-! ## C71 -/

/-- C71. The coefficient is `Σ sqrt(p q)`: symmetric, in `[0, 1]`, 1 exactly for equal distributions, 0 exactly for
disjoint supports, and it bounds the total variation distance on both sides. -/
theorem C71_bhattacharyya (hx : Spec.Represents x p) (hy : Spec.Represents y q) :
    ∃ b t : ℝ, bhattacharyyaCoeff x y = .ok (some b) ∧ bhattacharyyaCoeff y x = .ok (some b) ∧ totalVariationDistance x y = .ok t ∧
      b = ∑ i, Real.sqrt (p i * q i) ∧ 0 ≤ b ∧ b ≤ 1 ∧ (b = 1 ↔ p = q) ∧ (b = 0 ↔ Spec.DisjointSupports p q) ∧
      1 - b ≤ t ∧ t ≤ Real.sqrt (1 - b ^ 2) := by
  have hp := (represents_cast hx).2
  have hq := (represents_cast hy).2
  obtain ⟨h1, h2, h3, h4⟩ := bc_facts hp hq
  obtain ⟨h5, h6⟩ := bc_tvd hp hq
  refine ⟨bc p q, tvd p q, ?_, ?_, ?_, rfl, h1, h2, h3, h4, h5, h6⟩
  · rw [bhattacharyyaCoeff, (represents_cast hx).1, (represents_cast hy).1]
    simp only [bind, Except.bind]
    rw [broadcast_same]
    exact congrArg Except.ok (nanSum_sqrt fun i => mul_nonneg (hp.nonneg i) (hq.nonneg i))
  · rw [bhattacharyyaCoeff, (represents_cast hx).1, (represents_cast hy).1]
    simp only [bind, Except.bind]
    rw [broadcast_same]
    simp only [mul_comm (q _)]
    exact congrArg Except.ok (nanSum_sqrt fun i => mul_nonneg (hp.nonneg i) (hq.nonneg i))
  · rw [C68_value hx hy, tvd]; norm_num

example : Spec.Represents (realVec halves) halves ∧ Spec.Represents (realVec quarter) quarter := ⟨halves_rep, quarter_rep.2⟩

/-! ## C72 -/

/-- C72. The Jensen-Shannon divergence is a real number: symmetric, in `[0, log 2]`, 0 exactly for equal distributions
and `log 2` exactly for disjoint supports. -/
theorem C72_jensen_shannon (hx : Spec.Represents x p) (hy : Spec.Represents y q) :
    ∃ v : ℝ, jensenShannonDivergence x y = .ok (v : EReal) ∧ jensenShannonDivergence y x = .ok (v : EReal) ∧
      0 ≤ v ∧ v ≤ Real.log 2 ∧ (v = 0 ↔ p = q) ∧ (v = Real.log 2 ↔ Spec.DisjointSupports p q) := by
  have hp := (represents_cast hx).2
  have hq := (represents_cast hy).2
  have e : ∀ {u v : Fin d → ℝ} {x y : Arr}, Spec.Represents x u → Spec.Represents y v →
      jensenShannonDivergence x y = .ok ((jsReal u v : ℝ) : EReal) := by
    intro u v x y hx hy
    rw [jensenShannonDivergence, (represents_cast hx).1, (represents_cast hy).1]
    simp only [bind, Except.bind]
    rw [broadcast_same]
    exact congrArg Except.ok (jsd_eq (represents_cast hx).2 (represents_cast hy).2)
  obtain ⟨h1, h2, h3, h4⟩ := js_facts hp hq
  exact ⟨jsReal p q, e hx hy, by rw [e hy hx, js_comm], h1, h2, h3, h4⟩

/-- C72. Its value: the mean of the relative entropies to the midpoint. -/
theorem C72_value (hx : Spec.Represents x p) (hy : Spec.Represents y q) :
    jensenShannonDivergence x y = .ok ((1 / 2 * ∑ i, p i * Real.log (p i / ((p i + q i) / 2)) +
      1 / 2 * ∑ i, q i * Real.log (q i / ((p i + q i) / 2)) : ℝ) : EReal) := by
  rw [jensenShannonDivergence, (represents_cast hx).1, (represents_cast hy).1]
  simp only [bind, Except.bind]
  rw [broadcast_same]
  refine (congrArg Except.ok (jsd_eq (represents_cast hx).2 (represents_cast hy).2)).trans ?_
  congr 2
  rw [jsReal, klReal, klReal]
  have : ∀ i, mid p q i = (p i + q i) / 2 := fun i => by rw [mid]; ring
  simp_rw [this]
  ring

example : Spec.Represents (realVec halves) halves ∧ Spec.Represents (realVec quarter) quarter := ⟨halves_rep, quarter_rep.2⟩

/-! ## C86 -/

/-- C86 (proved part). Distributions of different lengths, neither of length one, are rejected with ValueError by all
four comparisons. What is missing: lengths one (see `C86_violation`). -/
theorem C86_lengths_partial {q : Fin e → ℝ} (hx : Spec.Represents x p) (hy : Spec.Represents y q) (hde : d ≠ e)
    (hd : d ≠ 1) (he : e ≠ 1) :
    totalVariationDistance x y = .error .valueError ∧ bhattacharyyaCoeff x y = .error .valueError ∧
      relativeEntropy x y = .error .valueError ∧ jensenShannonDivergence x y = .error .valueError := by
  have hb : broadcast ⟨d, p⟩ ⟨e, q⟩ = .error .valueError := by
    simp [broadcast, Ne.symm hde, hd, he]
  refine ⟨?_, ?_, ?_, ?_⟩
  · rw [totalVariationDistance, (represents_cast hx).1, (represents_cast hy).1]
    simp only [bind, Except.bind]
    rw [hb]
  · rw [bhattacharyyaCoeff, (represents_cast hx).1, (represents_cast hy).1]
    simp only [bind, Except.bind]
    rw [hb]
  · rw [relativeEntropy, (represents_cast hx).1, (represents_cast hy).1]
    simp only [bind, Except.bind]
    rw [hb]
  · rw [jensenShannonDivergence, (represents_cast hx).1, (represents_cast hy).1]
    simp only [bind, Except.bind]
    rw [hb]

/-- C86 is violated for length one: the single-outcome distribution is broadcast, and its "total variation distance"
from the uniform distribution on four outcomes is 3/2. -/
theorem C86_violation : ∃ (x y : Arr) (p : Fin 1 → ℝ) (q : Fin 4 → ℝ), Spec.Represents x p ∧ Spec.Represents y q ∧
    totalVariationDistance x y = .ok (3 / 2) := by
  have h1 : Spec.Represents (realVec fun _ : Fin 1 => (1 : ℝ)) fun _ => 1 :=
    representsDet ⟨0, fun i => by rw [Subsingleton.elim i 0, if_pos rfl]⟩
  refine ⟨_, _, _, _, h1, quarter_rep.2, ?_⟩
  rw [totalVariationDistance, (represents_cast h1).1, (represents_cast quarter_rep.2).1]
  simp only [bind, Except.bind, broadcast]
  norm_num [quarter, pure, Except.pure]

theorem sum_one_sub {q : Fin e → ℝ} (hq : Spec.IsProb q) : ∑ i, |1 - q i| = (e : ℝ) - 1 := by
  have h : ∀ i, |1 - q i| = 1 - q i := fun i => abs_of_nonneg (by
    have := Finset.single_le_sum (fun j _ => hq.nonneg j) (Finset.mem_univ i)
    rw [hq.sum_one] at this
    linarith)
  simp [h, hq.sum_one]

/-- C86, exactly, for distributions of different lengths: the comparison of lengths `1` and `m` succeeds, with the
"total variation distance" `(m - 1) / 2` whatever the second distribution is, and the "Bhattacharyya coefficient"
`∑ √(q i)`; the others raise ValueError. -/
theorem C86_outcome {q : Fin e → ℝ} (hx : Spec.Represents x p) (hy : Spec.Represents y q) (hde : d ≠ e) :
    (d = 1 → totalVariationDistance x y = .ok (((e : ℝ) - 1) / 2) ∧ bhattacharyyaCoeff x y = .ok (some (∑ i, Real.sqrt (q i)))) ∧
    (e = 1 → totalVariationDistance x y = .ok (((d : ℝ) - 1) / 2) ∧ bhattacharyyaCoeff x y = .ok (some (∑ i, Real.sqrt (p i)))) ∧
    (d ≠ 1 → e ≠ 1 → totalVariationDistance x y = .error .valueError ∧ bhattacharyyaCoeff x y = .error .valueError) := by
  have hp := (represents_cast hx).2
  have hq := (represents_cast hy).2
  refine ⟨?_, ?_, fun h1 h2 => ⟨(C86_lengths_partial hx hy hde h1 h2).1, (C86_lengths_partial hx hy hde h1 h2).2.1⟩⟩
  · intro h
    subst h
    have hp1 : p 0 = 1 := by simpa using hp.sum_one
    have hb : broadcast ⟨1, p⟩ ⟨e, q⟩ = .ok ⟨e, fun _ => 1, q⟩ := by
      simp [broadcast, Ne.symm hde, hp1]
    constructor
    · rw [totalVariationDistance, (represents_cast hx).1, (represents_cast hy).1]
      simp only [bind, Except.bind]
      rw [hb]
      simp only [sum_one_sub hq, pure, Except.pure]
      congr 1; ring
    · rw [bhattacharyyaCoeff, (represents_cast hx).1, (represents_cast hy).1]
      simp only [bind, Except.bind]
      rw [hb]
      refine (congrArg Except.ok (nanSum_sqrt fun i => ?_)).trans (by simp)
      rw [one_mul]; exact hq.nonneg i
  · intro h
    subst h
    have hq1 : q 0 = 1 := by simpa using hq.sum_one
    have hb : broadcast ⟨d, p⟩ ⟨1, q⟩ = .ok ⟨d, p, fun _ => 1⟩ := by
      simp [broadcast, Ne.symm hde, hq1]
    constructor
    · rw [totalVariationDistance, (represents_cast hx).1, (represents_cast hy).1]
      simp only [bind, Except.bind]
      rw [hb]
      simp only [abs_sub_comm _ (1 : ℝ), sum_one_sub hp, pure, Except.pure]
      congr 1; ring
    · rw [bhattacharyyaCoeff, (represents_cast hx).1, (represents_cast hy).1]
      simp only [bind, Except.bind]
      rw [hb]
      refine (congrArg Except.ok (nanSum_sqrt fun i => ?_)).trans (by simp)
      rw [mul_one]; exact hp.nonneg i

/-- C86, exactly: distributions of different lengths are rejected with ValueError iff neither has length one. -/
theorem C86_iff {q : Fin e → ℝ} (hx : Spec.Represents x p) (hy : Spec.Represents y q) (hde : d ≠ e) :
    totalVariationDistance x y = .error .valueError ↔ d ≠ 1 ∧ e ≠ 1 := by
  obtain ⟨h1, h2, h3⟩ := C86_outcome hx hy hde
  refine ⟨fun h => ⟨fun hd => ?_, fun he => ?_⟩, fun h => (h3 h.1 h.2).1⟩
  · rw [(h1 hd).1] at h; cases h
  · rw [(h2 he).1] at h; cases h

example : ∃ (x y : Arr) (p : Fin 2 → ℝ) (q : Fin 4 → ℝ), Spec.Represents x p ∧ Spec.Represents y q :=
  ⟨_, _, _, _, represents_self (p := fun _ : Fin 2 => 1 / 2) ⟨fun _ => by norm_num, by simp⟩ (by simp; norm_num), halves_rep⟩

end FF.Props
