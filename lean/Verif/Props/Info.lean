import Verif.Proofs.Info
import Verif.Proofs.Majorize
import Verif.Props.Entropy

/-! # Properties C100-C103: inequalities between the distances, data processing, products and mixing -/

namespace FF.Props

open Finset
open scoped ComplexOrder

variable {d e : ℕ} {p q : Fin d → ℝ} {x y x' y' : Arr}

theorem tvd_val (hx : Spec.Represents x p) (hy : Spec.Represents y q) : totalVariationDistance x y = .ok (tvd p q) := by
  rw [C68_value hx hy, tvd]; norm_num

theorem js_val (hx : Spec.Represents x p) (hy : Spec.Represents y q) :
    jensenShannonDivergence x y = .ok ((jsReal p q : ℝ) : EReal) := by
  rw [jensenShannonDivergence, (represents_cast hx).1, (represents_cast hy).1]
  simp only [bind, Except.bind]
  rw [broadcast_same]
  exact congrArg Except.ok (jsd_eq (represents_cast hx).2 (represents_cast hy).2)

theorem bc_val (hx : Spec.Represents x p) (hy : Spec.Represents y q) : bhattacharyyaCoeff x y = .ok (some (bc p q)) := by
  obtain ⟨b, t, h1, -, -, h2, -⟩ := C71_bhattacharyya hx hy
  rw [h1, h2]; rfl

theorem kl_val (hx : Spec.Represents x p) (hy : Spec.Represents y q) :
    (∃ i, q i = 0 ∧ p i ≠ 0) ∧ relativeEntropy x y = .ok ⊤ ∨
      (∀ i, q i = 0 → p i = 0) ∧ relativeEntropy x y = .ok ((klReal p q : ℝ) : EReal) := by
  by_cases h : ∃ i, q i = 0 ∧ p i ≠ 0
  · exact .inl ⟨h, (C70_value hx hy).2.2 h⟩
  · push Not at h
    exact .inr ⟨h, (C70_value hx hy).1 h⟩

/-! ## C100 -/

/-- C100. Pinsker's inequality: twice the square of `total_variation_distance` is at most `relative_entropy`, for every pair
of distributions on the same number of outcomes. -/
theorem C100_pinsker (hx : Spec.Represents x p) (hy : Spec.Represents y q) :
    ∃ (t : ℝ) (s : EReal), totalVariationDistance x y = .ok t ∧ relativeEntropy x y = .ok s ∧
      ((2 * t ^ 2 : ℝ) : EReal) ≤ s := by
  rcases kl_val hx hy with ⟨-, h⟩ | ⟨h0, h⟩
  · exact ⟨_, _, tvd_val hx hy, h, le_top⟩
  · exact ⟨_, _, tvd_val hx hy, h, EReal.coe_le_coe_iff.2 (pinsker (represents_cast hx).2 (represents_cast hy).2 h0)⟩

/-- C100. The Jensen-Shannon divergence lies between half the square of the total variation distance and the distance times
`log 2`. -/
theorem C100_jensen_shannon (hx : Spec.Represents x p) (hy : Spec.Represents y q) :
    ∃ t v : ℝ, totalVariationDistance x y = .ok t ∧ jensenShannonDivergence x y = .ok (v : EReal) ∧
      t ^ 2 / 2 ≤ v ∧ v ≤ t * Real.log 2 :=
  ⟨_, _, tvd_val hx hy, js_val hx hy, js_pinsker (represents_cast hx).2 (represents_cast hy).2,
    js_le_tvd (represents_cast hx).2 (represents_cast hy).2⟩

/-- C100. If the relative entropy is finite the Bhattacharyya coefficient is positive, and minus twice its logarithm is at
most the relative entropy. -/
theorem C100_bhattacharyya (hx : Spec.Represents x p) (hy : Spec.Represents y q) (s : ℝ)
    (hs : relativeEntropy x y = .ok (s : EReal)) :
    ∃ b : ℝ, bhattacharyyaCoeff x y = .ok (some b) ∧ 0 < b ∧ -2 * Real.log b ≤ s := by
  rcases kl_val hx hy with ⟨-, h⟩ | ⟨h0, h⟩
  · rw [h] at hs
    exact absurd (Except.ok.inj hs).symm (EReal.coe_ne_top s)
  · rw [h] at hs
    have hs' : klReal p q = s := EReal.coe_eq_coe_iff.1 (Except.ok.inj hs)
    obtain ⟨h1, h2⟩ := bc_kl (represents_cast hx).2 (represents_cast hy).2 h0
    exact ⟨_, bc_val hx hy, h1, hs' ▸ h2⟩

example : Spec.Represents (realVec halves) halves ∧ Spec.Represents (realVec quarter) quarter ∧
    ∃ s : ℝ, relativeEntropy (realVec halves) (realVec quarter) = .ok (s : EReal) :=
  ⟨halves_rep, quarter_rep.2, _, (C70_value halves_rep quarter_rep.2).1 fun i h => by norm_num [quarter] at h⟩

/-! ## C101 -/

/-- C101. Data processing: if both distributions are sent through the same channel, the total variation distance, the
relative entropy and the Jensen-Shannon divergence do not increase and the Bhattacharyya coefficient does not decrease. -/
theorem C101_data_processing (W : Fin d → Fin e → ℝ) (hW : Spec.IsChannel W) (hx : Spec.Represents x p)
    (hy : Spec.Represents y q) (hx' : Spec.Represents x' (Spec.push W p)) (hy' : Spec.Represents y' (Spec.push W q)) :
    (∃ t t' : ℝ, totalVariationDistance x y = .ok t ∧ totalVariationDistance x' y' = .ok t' ∧ t' ≤ t) ∧
    (∃ s s' : EReal, relativeEntropy x y = .ok s ∧ relativeEntropy x' y' = .ok s' ∧ s' ≤ s) ∧
    (∃ v v' : ℝ, jensenShannonDivergence x y = .ok (v : EReal) ∧ jensenShannonDivergence x' y' = .ok (v' : EReal) ∧ v' ≤ v) ∧
    ∃ b b' : ℝ, bhattacharyyaCoeff x y = .ok (some b) ∧ bhattacharyyaCoeff x' y' = .ok (some b') ∧ b ≤ b' := by
  have hp := (represents_cast hx).2
  have hq := (represents_cast hy).2
  refine ⟨⟨_, _, tvd_val hx hy, tvd_val hx' hy', tvd_push hW p q⟩, ?_,
    ⟨_, _, js_val hx hy, js_val hx' hy', js_push hW hp hq⟩, ⟨_, _, bc_val hx hy, bc_val hx' hy', bc_push hW hp hq⟩⟩
  rcases kl_val hx hy with ⟨-, h⟩ | ⟨h0, h⟩
  · rcases kl_val hx' hy' with ⟨-, h'⟩ | ⟨-, h'⟩
    · exact ⟨_, _, h, h', le_rfl⟩
    · exact ⟨_, _, h, h', le_top⟩
  · rcases kl_val hx' hy' with ⟨⟨j, h1, h2⟩, -⟩ | ⟨-, h'⟩
    · exact absurd (push_zero hW hq h0 j h1) h2
    · exact ⟨_, _, h, h', EReal.coe_le_coe_iff.2 (kl_push hW hp hq h0)⟩

/-- The channel used in the examples: it replaces each outcome by a uniform one with probability one half. -/
noncomputable def blur : Fin 4 → Fin 4 → ℝ := fun i j => if i = j then 5 / 8 else 1 / 8

theorem blur_channel : Spec.IsChannel blur ∧ Spec.Unital blur := by
  refine ⟨⟨fun i j => by rw [blur]; split_ifs <;> norm_num, fun i => ?_⟩, fun j => ?_⟩
  · fin_cases i <;> simp [Fin.sum_univ_four, blur] <;> norm_num
  · fin_cases j <;> simp [Fin.sum_univ_four, blur] <;> norm_num

theorem blur_halves : Spec.Represents (realVec (Spec.push blur halves)) (Spec.push blur halves) := by
  refine represents_self (push_prob blur_channel.1 halves_prob) ?_
  simp [Spec.push, blur, halves, Fin.sum_univ_four]
  norm_num

theorem blur_quarter : Spec.Represents (realVec (Spec.push blur quarter)) (Spec.push blur quarter) := by
  refine represents_self (push_prob blur_channel.1 (represents_cast quarter_rep.2).2) ?_
  simp [Spec.push, blur, quarter, Fin.sum_univ_four]
  norm_num

example : Spec.IsChannel blur ∧ Spec.Represents (realVec halves) halves ∧ Spec.Represents (realVec quarter) quarter ∧
    Spec.Represents (realVec (Spec.push blur halves)) (Spec.push blur halves) ∧
    Spec.Represents (realVec (Spec.push blur quarter)) (Spec.push blur quarter) :=
  ⟨blur_channel.1, halves_rep, quarter_rep.2, blur_halves, blur_quarter⟩

/-! ## C102 -/

/-- C102. Independent products: the Bhattacharyya coefficient multiplies, the relative entropy adds (also when it is
infinite) and the total variation distance is subadditive. -/
theorem C102_products {p' q' : Fin e → ℝ} {z w : Arr} (hx : Spec.Represents x p) (hy : Spec.Represents y q)
    (hx' : Spec.Represents x' p') (hy' : Spec.Represents y' q') (hz : Spec.Represents z (Spec.product p p'))
    (hw : Spec.Represents w (Spec.product q q')) :
    (∃ b b' : ℝ, bhattacharyyaCoeff x y = .ok (some b) ∧ bhattacharyyaCoeff x' y' = .ok (some b') ∧
      bhattacharyyaCoeff z w = .ok (some (b * b'))) ∧
    (∃ s s' : EReal, relativeEntropy x y = .ok s ∧ relativeEntropy x' y' = .ok s' ∧ relativeEntropy z w = .ok (s + s')) ∧
    ∃ t t' u : ℝ, totalVariationDistance x y = .ok t ∧ totalVariationDistance x' y' = .ok t' ∧
      totalVariationDistance z w = .ok u ∧ u ≤ t + t' := by
  have hp := (represents_cast hx).2
  have hq := (represents_cast hy).2
  have hp' := (represents_cast hx').2
  have hq' := (represents_cast hy').2
  refine ⟨⟨_, _, bc_val hx hy, bc_val hx' hy', ?_⟩, ?_,
    ⟨_, _, _, tvd_val hx hy, tvd_val hx' hy', tvd_val hz hw, tvd_product hp' hq⟩⟩
  · rw [bc_val hz hw, bc_product hp hq]
  · have ex : ∀ {m : ℕ} {r : Fin m → ℝ}, Spec.IsProb r → ∃ i, r i ≠ 0 := by
      intro m r hr
      obtain ⟨k, hk⟩ := exists_max hr
      obtain ⟨⟨i, hi⟩, -⟩ := id hk
      exact ⟨i, hi ▸ (max_pos hr hk).ne'⟩
    rcases kl_val hx hy with ⟨⟨i, h1, h2⟩, h⟩ | ⟨h0, h⟩
    · have hzw : relativeEntropy z w = .ok ⊤ := by
        obtain ⟨j, hj⟩ := ex hp'
        refine (C70_value hz hw).2.2 ⟨finProdFinEquiv (i, j), ?_, ?_⟩
        · change q (finProdFinEquiv.symm (finProdFinEquiv (i, j))).1 * q' (finProdFinEquiv.symm (finProdFinEquiv (i, j))).2 = 0
          rw [Equiv.symm_apply_apply, h1, zero_mul]
        · change p (finProdFinEquiv.symm (finProdFinEquiv (i, j))).1 * p' (finProdFinEquiv.symm (finProdFinEquiv (i, j))).2 ≠ 0
          rw [Equiv.symm_apply_apply]
          exact mul_ne_zero h2 hj
      rcases kl_val hx' hy' with ⟨-, h'⟩ | ⟨-, h'⟩
      · exact ⟨_, _, h, h', hzw⟩
      · exact ⟨_, _, h, h', hzw.trans (by rw [EReal.top_add_coe])⟩
    · rcases kl_val hx' hy' with ⟨⟨j, h1, h2⟩, h'⟩ | ⟨h0', h'⟩
      · obtain ⟨i, hi⟩ := ex hp
        have hzw : relativeEntropy z w = .ok ⊤ := by
          refine (C70_value hz hw).2.2 ⟨finProdFinEquiv (i, j), ?_, ?_⟩
          · change q (finProdFinEquiv.symm (finProdFinEquiv (i, j))).1 * q' (finProdFinEquiv.symm (finProdFinEquiv (i, j))).2 = 0
            rw [Equiv.symm_apply_apply, h1, mul_zero]
          · change p (finProdFinEquiv.symm (finProdFinEquiv (i, j))).1 * p' (finProdFinEquiv.symm (finProdFinEquiv (i, j))).2 ≠ 0
            rw [Equiv.symm_apply_apply]
            exact mul_ne_zero hi h2
        exact ⟨_, _, h, h', hzw.trans (by rw [EReal.coe_add_top])⟩
      · refine ⟨_, _, h, h', ?_⟩
        rw [(C70_value hz hw).1 fun i hi => ?_]
        · rw [← EReal.coe_add, ← kl_product hp hp' h0 h0']; rfl
        · rcases mul_eq_zero.1 hi with hi | hi
          · rw [Spec.product, h0 _ hi, zero_mul]
          · rw [Spec.product, h0' _ hi, mul_zero]

theorem product_rep {u v : Fin 4 → ℝ} (hu : Spec.IsProb u) (hv : Spec.IsProb v) (h : (∑ i, u i ^ 2) * ∑ j, v j ^ 2 ≤ 24 / 25) :
    Spec.Represents (realVec (Spec.product u v)) (Spec.product u v) := by
  refine represents_self (prob_product hu hv) ?_
  simp only [Spec.product, mul_pow]
  rw [sum_product fun i j => u i ^ 2 * v j ^ 2, ← sum_mul_sum]
  refine h.trans (by norm_num)

example : Spec.Represents (realVec halves) halves ∧ Spec.Represents (realVec quarter) quarter ∧
    Spec.Represents (realVec (Spec.product halves quarter)) (Spec.product halves quarter) ∧
    Spec.Represents (realVec (Spec.product quarter halves)) (Spec.product quarter halves) := by
  have hq := (represents_cast quarter_rep.2).2
  refine ⟨halves_rep, quarter_rep.2, product_rep halves_prob hq ?_, product_rep hq halves_prob ?_⟩ <;>
  · simp [halves, quarter, Fin.sum_univ_four]
    norm_num

/-! ## C103 -/

/-- C103. Mixing: a channel that leaves the uniform distribution alone does not decrease `renyi_entropy`, at any order. -/
theorem C103_mixing (W : Fin d → Fin d → ℝ) (hW : Spec.IsChannel W) (hu : Spec.Unital W) (hx : Spec.Represents x p)
    (hx' : Spec.Represents x' (Spec.push W p)) (o : Order) (ho : OrderOk o) :
    ∃ u v : ℝ, renyiEntropy x o = .ok (u : EReal) ∧ renyiEntropy x' o = .ok (v : EReal) ∧ u ≤ v := by
  have hp := (represents_cast hx).2
  cases o with
  | num a => exact ⟨_, _, C64_formula hx a ho, C64_formula hx' a ho, renyi_push hW hu hp ho⟩
  | inf =>
    obtain ⟨m, hm⟩ := exists_max hp
    obtain ⟨k, hk⟩ := exists_max (push_prob hW hp)
    refine ⟨_, _, C64_inf hx m hm, C64_inf hx' k hk, neg_le_neg ?_⟩
    exact Real.log_le_log (max_pos (push_prob hW hp) hk) (max_push hW hu hm hk)

/-- C103. `renyi_entropy` of a density matrix is the entropy of its diagonal, the outcomes of a measurement; it is never below
the entropy of the eigenvalues, the entropy of the state itself. -/
theorem C103_diagonal_above_spectrum {ρ : Op d} (hx : Spec.IsState x ρ) (l : Fin d → ℝ) (hl : Spec.IsSpectrum ρ l)
    (hy : Spec.Represents y l) (o : Order) (ho : OrderOk o) :
    ∃ u v : ℝ, renyiEntropy x o = .ok (u : EReal) ∧ renyiEntropy y o = .ok (v : EReal) ∧ v ≤ u := by
  have hh : ρ.IsHermitian := (state_cast hx).2.psd.isHermitian
  obtain ⟨W, w1, w2, w3, w4⟩ := diag_average hh
  rw [isSpectrum_unique hh hl] at w4
  have hr : (fun i => (ρ i i).re) = Spec.push (fun i j => W j i) l := by
    funext i
    rw [w4, Spec.push]
    exact sum_congr rfl fun j _ => mul_comm _ _
  have hxr := state_represents hx
  rw [hr] at hxr
  obtain ⟨u, v, h1, h2, h3⟩ := C103_mixing (fun i j => W j i) ⟨fun i j => w1 j i, w3⟩ w2 hy hxr o ho
  exact ⟨v, u, h2, h1, h3⟩

example : Spec.IsChannel blur ∧ Spec.Unital blur ∧ Spec.Represents (realVec halves) halves ∧
    Spec.Represents (realVec (Spec.push blur halves)) (Spec.push blur halves) ∧ OrderOk (.num 2) :=
  ⟨blur_channel.1, blur_channel.2, halves_rep, blur_halves, by norm_num [OrderOk]⟩

/-- Every state has a spectrum and an argument that stands for it. -/
example {ρ : Op d} (hx : Spec.IsState x ρ) : ∃ (l : Fin d → ℝ) (y : Arr), Spec.IsSpectrum ρ l ∧ Spec.Represents y l := by
  have h2 := (state_cast hx).2
  have hh : ρ.IsHermitian := h2.psd.isHermitian
  refine ⟨specDesc ρ, .mat d d (Matrix.diagonal fun i => (specDesc ρ i : ℂ)), specDesc_isSpectrum hh,
    .inr (.inl ⟨_, ⟨?_, ?_⟩, rfl, fun i => by rw [Matrix.diagonal_apply_eq]⟩)⟩
  · refine Matrix.PosSemidef.diagonal fun i => ?_
    have : 0 ≤ specDesc ρ i := eigvalsh_nonneg (by rw [lowerHerm_eq hh]; exact h2.psd) _
    exact Complex.zero_le_real.2 this
  · have h1 : ∑ i, (ρ i i).re = 1 := by
      have := congrArg Complex.re h2.trace_one
      rwa [Matrix.trace, Complex.re_sum, Complex.one_re] at this
    rw [Matrix.trace_diagonal, ← Complex.ofReal_sum, sum_specDesc hh, h1, Complex.ofReal_one]

end FF.Props
