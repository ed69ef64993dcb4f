import Verif.Proofs.Accepted
import Verif.Props.Entropy

/-! # Property C129: the entropies and distances on every input that the casts accept

The checks of the casts have tolerances, so they accept arrays that are not exactly normalised and not exactly positive.
Here every accepted input is considered, not only the exact distributions of C64-C72. -/

namespace FF.Props

open Finset

variable {d : ℕ} {p q : Fin d → ℝ} {x y z : Arr}

/-- A list of numbers that passes for a distribution: its sum is close to one and no entry is below `-1e-12`. -/
def NearlyProb (p : Fin d → ℝ) : Prop := |1 - ∑ i, p i| ≤ 1e-8 + 1e-5 * |∑ i, p i| ∧ ∀ i, -1e-12 ≤ p i

/-- The list divided by its sum. -/
noncomputable def normalised (p : Fin d → ℝ) : Fin d → ℝ := fun i => p i / ∑ j, p j

/-- The absolute values of the list, divided by their sum. -/
noncomputable def absNormalised (p : Fin d → ℝ) : Fin d → ℝ := fun i => |p i| / ∑ j, |p j|

/-- A distribution with one entry that is slightly negative. -/
noncomputable def slightlyNegative : Fin 2 → ℝ := ![1 + 1 / 2 * 1e-12, -(1 / 2 * 1e-12)]

/-- A distribution with a total slightly above one. -/
noncomputable def slightlyHeavy : Fin 2 → ℝ := ![1 / 2, 1 / 2 + 5e-6]

/-- C129. The lists that `cast_to_pdf` returns, over all inputs, are exactly those whose sum is close to one and whose
entries are not below `-1e-12`. -/
theorem C129_accepted (d : ℕ) (p : Fin d → ℝ) : (∃ x, castToPdf x = .ok ⟨d, p⟩) ↔ NearlyProb p :=
  ⟨fun ⟨_, h⟩ => cast_accepted h, fun h => accepted_cast h.1 h.2⟩

theorem slightlyNegative_ok : NearlyProb slightlyNegative := by
  have e : ∑ i, slightlyNegative i = 1 := by simp [slightlyNegative, Fin.sum_univ_two]
  refine ⟨by rw [e]; norm_num, fun i => ?_⟩
  fin_cases i <;> simp [slightlyNegative] <;> norm_num

theorem slightlyHeavy_sum : ∑ i, slightlyHeavy i = 1 + 5e-6 := by
  simp [slightlyHeavy, Fin.sum_univ_two]; norm_num

theorem slightlyHeavy_ok : NearlyProb slightlyHeavy := by
  refine ⟨?_, fun i => ?_⟩
  · rw [slightlyHeavy_sum, abs_of_nonneg (by norm_num : (0 : ℝ) ≤ 1 + 5e-6),
      abs_of_nonpos (by norm_num : (1 : ℝ) - (1 + 5e-6) ≤ 0)]
    norm_num
  · fin_cases i <;> simp [slightlyHeavy] <;> norm_num

theorem pos_total (hx : castToPdf x = .ok ⟨d, p⟩) : 0 < ∑ i, p i :=
  lt_of_lt_of_le (by norm_num) (accepted_total (cast_accepted hx).1).1

/-- C129. Shannon entropy of an accepted input: the entropy of the normalised list, between 0 and `log d`, if no entry is
negative; `-inf` if one is. -/
theorem C129_shannon_partial (hx : castToPdf x = .ok ⟨d, p⟩) :
    ((∀ i, 0 ≤ p i) → renyiEntropy x (.num 1) = .ok ((Spec.renyi (normalised p) 1 : ℝ) : EReal) ∧
      0 ≤ Spec.renyi (normalised p) 1 ∧ Spec.renyi (normalised p) 1 ≤ Real.log d) ∧
    ((∃ i, p i < 0) → renyiEntropy x (.num 1) = .ok ⊥) := by
  have hs := pos_total hx
  rw [renyi_of_cast hx, renyiCore, if_pos rfl]
  refine ⟨fun h => ?_, fun ⟨i, hi⟩ => by rw [entropy1_neg hs hi]⟩
  have hp := normal_prob hs h
  rw [← entropy1_scale hs.ne', entropy1_eq hp]
  exact ⟨rfl, renyi_nonneg hp 1, renyi_le hp zero_le_one⟩

/-- C129 is violated: an accepted input whose Shannon entropy is `-inf`, whose relative entropy to itself is `inf` instead of
0, whose Jensen-Shannon divergence from itself is `inf`, and whose Bhattacharyya coefficient with the uniform distribution
is `nan`. -/
theorem C129_violation : ∃ x y : Arr, castToPdf x = .ok ⟨2, slightlyNegative⟩ ∧ castToPdf y = .ok ⟨2, fun _ => 1 / 2⟩ ∧
    renyiEntropy x (.num 1) = .ok ⊥ ∧ relativeEntropy x x = .ok ⊤ ∧ jensenShannonDivergence x x = .ok ⊤ ∧
    bhattacharyyaCoeff x y = .ok none := by
  obtain ⟨x, hx⟩ := (C129_accepted 2 slightlyNegative).2 slightlyNegative_ok
  obtain ⟨y, hy⟩ := (C129_accepted 2 fun _ => 1 / 2).2 ⟨by norm_num, fun _ => by norm_num⟩
  have hneg : slightlyNegative 1 < 0 := by simp [slightlyNegative]; norm_num
  have hs := pos_total hx
  have htop := entropy2_top' (i := 1) hs hs (.inl hneg)
  refine ⟨x, y, hx, hy, (C129_shannon_partial hx).2 ⟨1, hneg⟩, ?_, ?_, ?_⟩
  · rw [rel_of_cast hx hx, htop]
  · have : mid slightlyNegative slightlyNegative = slightlyNegative := by
      funext i; simp only [mid]; ring
    rw [jsd_of_cast hx hx, this, htop, EReal.top_add_top, EReal.coe_mul_top_of_pos (by norm_num)]
  · rw [bc_of_cast hx hy, nanSum_none (i := 1)]
    linarith

/-- C129. Rényi entropy of finite order other than one of an accepted input: a real number, the entropy of the normalised
absolute values shifted by `a / (1 - a)` times the logarithm of their sum. -/
theorem C129_renyi (hx : castToPdf x = .ok ⟨d, p⟩) (a : ℝ) (ha : 0 ≤ a) (h1 : a ≠ 1) :
    Spec.IsProb (absNormalised p) ∧ renyiEntropy x (.num a) =
      .ok ((Spec.renyi (absNormalised p) a + a / (1 - a) * Real.log (∑ i, |p i|) : ℝ) : EReal) := by
  refine ⟨absv_prob (pos_total hx), ?_⟩
  rw [renyi_of_cast hx, renyiCore_shift (pos_total hx) ha h1]
  rfl

/-- C129. At infinite order: minus the logarithm of the largest entry, which is positive. -/
theorem C129_renyi_inf (hx : castToPdf x = .ok ⟨d, p⟩) :
    ∃ m, Spec.IsMax p m ∧ 0 < m ∧ renyiEntropy x .inf = .ok ((-Real.log m : ℝ) : EReal) := by
  have hs := pos_total hx
  have hne : (univ : Finset (Fin d)).Nonempty := by
    by_contra h
    rw [not_nonempty_iff_eq_empty] at h
    rw [h, sum_empty] at hs
    exact lt_irrefl _ hs
  obtain ⟨i, -, hi⟩ := exists_max_image univ p hne
  have hm : Spec.IsMax p (p i) := ⟨⟨i, rfl⟩, fun j => hi j (mem_univ j)⟩
  refine ⟨p i, hm, ?_, by rw [renyi_of_cast hx, renyiCore_inf hm]⟩
  by_contra h
  exact absurd hs (not_lt.2 (sum_nonpos fun j _ => (hm.2 j).trans (not_lt.1 h)))

/-- C129. The entropies of orders just above one stay bounded exactly if the absolute values add up to one: otherwise they
tend to minus or plus infinity as the order tends to one, however close to one the sum is. -/
theorem C129_orders_near_one (hx : castToPdf x = .ok ⟨d, p⟩) :
    (1 < ∑ i, |p i| → ∀ B : ℝ, ∃ e : ℝ, 1 < e ∧ ∀ a, 1 < a → a < e →
      ∃ v : ℝ, renyiEntropy x (.num a) = .ok (v : EReal) ∧ v < -B) ∧
    (∑ i, |p i| < 1 → ∀ B : ℝ, ∃ e : ℝ, 1 < e ∧ ∀ a, 1 < a → a < e →
      ∃ v : ℝ, renyiEntropy x (.num a) = .ok (v : EReal) ∧ B < v) ∧
    (∑ i, |p i| = 1 → ∀ a, 1 < a → ∃ v : ℝ, renyiEntropy x (.num a) = .ok (v : EReal) ∧ 0 ≤ v ∧ v ≤ Real.log d) := by
  have hval := fun a (h : 1 < a) => C129_renyi hx a (by linarith) h.ne'
  have hS : 0 < ∑ i, |p i| := absv_total (pos_total hx)
  have hd : 0 ≤ Real.log d := Real.log_natCast_nonneg d
  refine ⟨fun h B => ?_, fun h B => ?_, fun h a ha => ?_⟩
  · have hL := Real.log_pos h
    set L := Real.log (∑ i, |p i|)
    refine ⟨1 + L / (|B| + Real.log d + 1), lt_add_of_pos_right 1 (by positivity), fun a h1 h2 => ⟨_, (hval a h1).2, ?_⟩⟩
    have hr := renyi_le (hval a h1).1 (a := a) (by linarith)
    have hB := neg_abs_le B
    have hB' := le_abs_self B
    have h3 : (a - 1) * (|B| + Real.log d + 1) < L := by
      rw [← lt_div_iff₀ (by positivity)]; linarith
    have h4 : a / (1 - a) * L = -(a * L / (a - 1)) := by
      rw [← neg_sub a 1]; field_simp
    have h5 : |B| + Real.log d + 1 < a * L / (a - 1) := by
      rw [lt_div_iff₀ (by linarith)]; nlinarith
    rw [h4]; linarith
  · have hL := Real.log_neg hS h
    set L := Real.log (∑ i, |p i|)
    refine ⟨1 + -L / (|B| + 1), lt_add_of_pos_right 1 (div_pos (by linarith) (by positivity)), fun a h1 h2 => ⟨_, (hval a h1).2, ?_⟩⟩
    have hr := renyi_nonneg (hval a h1).1 a
    have hB' := le_abs_self B
    have h3 : (a - 1) * (|B| + 1) < -L := by
      rw [← lt_div_iff₀ (by positivity)]; linarith
    have h4 : a / (1 - a) * L = a * -L / (a - 1) := by
      rw [← neg_sub a 1]; field_simp
    have h5 : |B| + 1 < a * -L / (a - 1) := by
      rw [lt_div_iff₀ (by linarith)]; nlinarith
    rw [h4]; linarith
  · refine ⟨_, (hval a ha).2, ?_⟩
    rw [h, Real.log_one, mul_zero, add_zero]
    exact ⟨renyi_nonneg (hval a ha).1 a, renyi_le (hval a ha).1 (by linarith)⟩

/-- C129. Relative entropy of accepted inputs of equal length: infinite exactly if one list has a negative entry, or the first
has weight where the second has none; otherwise the relative entropy of the normalised lists, which is not negative, and 0
exactly if these are equal. -/
theorem C129_relative_entropy_partial (hx : castToPdf x = .ok ⟨d, p⟩) (hy : castToPdf y = .ok ⟨d, q⟩) :
    ((∃ i, p i < 0 ∨ q i < 0 ∨ (q i = 0 ∧ p i ≠ 0)) → relativeEntropy x y = .ok ⊤) ∧
    ((∀ i, 0 ≤ p i ∧ 0 ≤ q i ∧ (q i = 0 → p i = 0)) → ∃ v : ℝ, relativeEntropy x y = .ok (v : EReal) ∧
      v = ∑ i, normalised p i * Real.log (normalised p i / normalised q i) ∧ 0 ≤ v ∧ (v = 0 ↔ normalised p = normalised q)) := by
  have hs := pos_total hx
  have ht := pos_total hy
  rw [rel_of_cast hx hy]
  refine ⟨fun ⟨i, hi⟩ => by rw [entropy2_top' hs ht hi], fun h => ?_⟩
  have hp := normal_prob hs fun i => (h i).1
  have hq := normal_prob ht fun i => (h i).2.1
  have h0 : ∀ i, q i / ∑ j, q j = 0 → p i / ∑ j, p j = 0 := fun i hi => by
    rw [(h i).2.2 (by simpa [ht.ne'] using hi), zero_div]
  have := klReal_nonneg hp hq h0
  exact ⟨_, congrArg Except.ok ((entropy2_scale hs.ne' ht.ne').symm.trans (entropy2_finite hp hq h0)), rfl, this.1, this.2⟩

/-- C129. Bhattacharyya coefficient of accepted inputs of equal length: `nan` exactly if some product of entries is negative;
otherwise a number that is not negative and at most the geometric mean of the sums of the absolute values; of an input with
itself the sum of the absolute values. -/
theorem C129_bhattacharyya_partial (hx : castToPdf x = .ok ⟨d, p⟩) (hy : castToPdf y = .ok ⟨d, q⟩) :
    (bhattacharyyaCoeff x y = .ok none ↔ ∃ i, p i * q i < 0) ∧
    ((∀ i, 0 ≤ p i * q i) → ∃ b : ℝ, bhattacharyyaCoeff x y = .ok (some b) ∧ b = ∑ i, Real.sqrt (p i * q i) ∧ 0 ≤ b ∧
      b ≤ Real.sqrt ((∑ i, |p i|) * ∑ i, |q i|)) ∧
    bhattacharyyaCoeff x x = .ok (some (∑ i, |p i|)) := by
  rw [bc_of_cast hx hy, bc_of_cast hx hx]
  refine ⟨⟨fun h => ?_, fun ⟨i, hi⟩ => by rw [nanSum_none hi]⟩, fun h => ?_, ?_⟩
  · by_contra hc
    push Not at hc
    rw [nanSum_sqrt hc] at h
    cases h
  · refine ⟨_, by rw [nanSum_sqrt h], rfl, sum_nonneg fun i _ => Real.sqrt_nonneg _, ?_⟩
    refine Real.le_sqrt_of_sq_le ?_
    have e : ∀ i, Real.sqrt (p i * q i) = Real.sqrt |p i| * Real.sqrt |q i| := fun i => by
      rw [← Real.sqrt_mul (abs_nonneg _), ← abs_mul, abs_of_nonneg (h i)]
    simp_rw [e]
    refine (sum_mul_sq_le_sq_mul_sq _ _ _).trans (le_of_eq ?_)
    simp_rw [Real.sq_sqrt (abs_nonneg _)]
  · rw [nanSum_sqrt fun i => mul_self_nonneg _]
    simp_rw [Real.sqrt_mul_self_eq_abs]

/-- C129. Total variation distance of accepted inputs of equal length: always a number, not negative, symmetric, subject to
the triangle inequality, 0 exactly for equal lists, and at most the mean of the sums of the absolute values. -/
theorem C129_total_variation {r : Fin d → ℝ} (hx : castToPdf x = .ok ⟨d, p⟩) (hy : castToPdf y = .ok ⟨d, q⟩)
    (hz : castToPdf z = .ok ⟨d, r⟩) :
    ∃ t u v : ℝ, totalVariationDistance x y = .ok t ∧ totalVariationDistance y x = .ok t ∧
      totalVariationDistance y z = .ok u ∧ totalVariationDistance x z = .ok v ∧ 0 ≤ t ∧ v ≤ t + u ∧ (t = 0 ↔ p = q) ∧
      t ≤ (∑ i, |p i| + ∑ i, |q i|) / 2 := by
  refine ⟨_, _, _, tvd_of_cast hx hy, ?_, tvd_of_cast hy hz, tvd_of_cast hx hz, ?_, ?_, ?_, ?_⟩
  · rw [tvd_of_cast hy hx, tvd, tvd]
    simp_rw [abs_sub_comm (q _)]
  · exact mul_nonneg (by norm_num) (sum_nonneg fun i _ => abs_nonneg _)
  · rw [tvd, tvd, tvd, ← mul_add, ← sum_add_distrib]
    exact mul_le_mul_of_nonneg_left (sum_le_sum fun i _ => abs_sub_le _ _ _) (by norm_num)
  · rw [tvd, mul_eq_zero, sum_eq_zero_iff_of_nonneg fun i _ => abs_nonneg _]
    constructor
    · rintro (h | h)
      · norm_num at h
      · exact funext fun i => sub_eq_zero.1 (abs_eq_zero.1 (h i (mem_univ i)))
    · rintro rfl
      exact .inr fun i _ => by simp
  · rw [tvd, ← sum_add_distrib]
    have := sum_le_sum fun i (_ : i ∈ univ) => abs_sub (p i) (q i)
    norm_num
    linarith

/-- C129. Jensen-Shannon divergence of accepted inputs of equal length: infinite exactly if one of the lists has a negative
entry; otherwise a number that is not negative, 0 exactly if the normalised lists are equal, and at most the mean of
`log ((s + t) / s)` and `log ((s + t) / t)` for the two sums `s` and `t`, which is `log 2` for equal sums. -/
theorem C129_jensen_shannon_partial (hx : castToPdf x = .ok ⟨d, p⟩) (hy : castToPdf y = .ok ⟨d, q⟩) :
    ((∃ i, p i < 0 ∨ q i < 0) → jensenShannonDivergence x y = .ok ⊤) ∧
    ((∀ i, 0 ≤ p i ∧ 0 ≤ q i) → ∃ v : ℝ, jensenShannonDivergence x y = .ok (v : EReal) ∧ 0 ≤ v ∧
      (v = 0 ↔ normalised p = normalised q) ∧
      v ≤ (Real.log ((∑ i, p i + ∑ i, q i) / ∑ i, p i) + Real.log ((∑ i, p i + ∑ i, q i) / ∑ i, q i)) / 2) := by
  have hs := pos_total hx
  have ht := pos_total hy
  have hm : ∑ i, mid p q i = (∑ i, p i + ∑ i, q i) / 2 := by
    simp only [mid]
    rw [← mul_sum, sum_add_distrib]; norm_num; ring
  have hm0 : 0 < ∑ i, mid p q i := by rw [hm]; linarith
  rw [jsd_of_cast hx hy]
  constructor
  · rintro ⟨i, hi⟩
    have nb : ∀ u v : Fin d → ℝ, entropy2 u v ≠ ⊥ := fun u v => sum_ne_bot fun i => relEntr_ne_bot _ _
    rcases hi with hi | hi
    · rw [entropy2_top' hs hm0 (.inl hi), EReal.top_add_of_ne_bot (nb _ _), EReal.coe_mul_top_of_pos (by norm_num)]
    · rw [entropy2_top' ht hm0 (.inl hi), EReal.add_top_of_ne_bot (nb _ _), EReal.coe_mul_top_of_pos (by norm_num)]
  · intro h
    have hp := normal_prob hs fun i => (h i).1
    have hq := normal_prob ht fun i => (h i).2
    have hmn : ∀ i, 0 ≤ mid p q i := fun i => mul_nonneg (by norm_num) (add_nonneg (h i).1 (h i).2)
    have hM := normal_prob hm0 hmn
    have hz : ∀ i, mid p q i / ∑ j, mid p q j = 0 → p i = 0 ∧ q i = 0 := fun i hi => by
      have : mid p q i = 0 := by simpa [hm0.ne'] using hi
      have h1 := (h i).1
      have h2 := (h i).2
      simp only [mid] at this
      norm_num at this
      constructor <;> linarith
    have zp : ∀ i, mid p q i / ∑ j, mid p q j = 0 → p i / ∑ j, p j = 0 := fun i hi => by rw [(hz i hi).1, zero_div]
    have zq : ∀ i, mid p q i / ∑ j, mid p q j = 0 → q i / ∑ j, q j = 0 := fun i hi => by rw [(hz i hi).2, zero_div]
    have kp := klReal_nonneg hp hM zp
    have kq := klReal_nonneg hq hM zq
    have bound : ∀ {u : Fin d → ℝ} (_ : 0 < ∑ i, u i) (_ : ∀ i, 0 ≤ u i) (_ : ∀ i, u i ≤ p i + q i),
        klReal (fun i => u i / ∑ j, u j) (fun i => mid p q i / ∑ j, mid p q j) ≤
          Real.log ((∑ i, p i + ∑ i, q i) / ∑ i, u i) := by
      intro u hu0 hu hle
      have hU := normal_prob hu0 hu
      have key : ∀ i, (u i / ∑ j, u j) * Real.log ((u i / ∑ j, u j) / (mid p q i / ∑ j, mid p q j)) ≤
          (u i / ∑ j, u j) * Real.log ((∑ i, p i + ∑ i, q i) / ∑ i, u i) := by
        intro i
        rcases (hu i).eq_or_lt with h0 | h0
        · rw [← h0]; simp
        · refine mul_le_mul_of_nonneg_left ?_ (hU.nonneg i)
          have hpq : 0 < p i + q i := lt_of_lt_of_le h0 (hle i)
          have e : (u i / ∑ j, u j) / (mid p q i / ∑ j, mid p q j) =
              u i / (p i + q i) * ((∑ i, p i + ∑ i, q i) / ∑ i, u i) := by
            rw [hm]
            simp only [mid]
            norm_num
            field_simp
          rw [e]
          refine Real.log_le_log (by positivity) ?_
          refine (mul_le_mul_of_nonneg_right ((div_le_one hpq).2 (hle i)) (by positivity)).trans (by rw [one_mul])
      rw [klReal]
      refine (sum_le_sum fun i _ => key i).trans ?_
      rw [← sum_mul, hU.sum_one, one_mul]
    have bp := bound hs (fun i => (h i).1) fun i => by linarith [(h i).2]
    have bq := bound ht (fun i => (h i).2) fun i => by linarith [(h i).1]
    refine ⟨0.5 * (klReal (fun i => p i / ∑ j, p j) (fun i => mid p q i / ∑ j, mid p q j) +
      klReal (fun i => q i / ∑ j, q j) (fun i => mid p q i / ∑ j, mid p q j)), ?_, ?_, ?_, ?_⟩
    · rw [← entropy2_scale hs.ne' hm0.ne', ← entropy2_scale (p := q) ht.ne' hm0.ne', entropy2_finite hp hM zp,
        entropy2_finite hq hM zq, ← EReal.coe_add, ← EReal.coe_mul]
    · exact mul_nonneg (by norm_num) (add_nonneg kp.1 kq.1)
    · constructor
      · intro h0
        norm_num at h0
        have h1 := kp.2.1 (by linarith [kp.1, kq.1])
        have h2 := kq.2.1 (by linarith [kp.1, kq.1])
        exact h1.trans h2.symm
      · intro he
        have hm1 : (fun i => mid p q i / ∑ j, mid p q j) = fun i => p i / ∑ j, p j := by
          funext i
          have hi : p i / ∑ j, p j = q i / ∑ j, q j := congrFun he i
          rw [hm]
          simp only [mid]
          rw [div_eq_div_iff hs.ne' ht.ne'] at hi
          rw [div_eq_div_iff (by positivity) hs.ne']
          norm_num
          linarith
        rw [kp.2.2 hm1.symm, kq.2.2 (hm1.trans he).symm]
        norm_num
    · norm_num
      linarith

/-- C129. Linear entropy of an accepted input whose length is a perfect square: `1 - ∑ p²`, below one, and at least one minus
the square of the sum of the absolute values. -/
theorem C129_linear_entropy (hx : castToPdf x = .ok ⟨d, p⟩) (hd : IsSquare d) :
    ∃ v : ℝ, linearEntropy x = .ok v ∧ v = 1 - ∑ i, p i ^ 2 ∧ v < 1 ∧ 1 - (∑ i, |p i|) ^ 2 ≤ v := by
  obtain ⟨m, rfl⟩ := hd
  refine ⟨_, ?_, rfl, ?_, ?_⟩
  · rw [linearEntropy, hx]
    simp only [bind, Except.bind]
    rw [pyAssert_ok (isclose_zero_real.2 (sqrt_square m)), lpNorm_two]
    simp only
    rw [pyAssert_ok (isclose_self _)]
    rfl
  · have : 0 < ∑ i, p i ^ 2 := by
      refine lt_of_le_of_ne (sum_nonneg fun i _ => sq_nonneg _) fun h => ?_
      have h0 := (sum_eq_zero_iff_of_nonneg fun i _ => sq_nonneg (p i)).1 h.symm
      have : ∑ i, p i = 0 := sum_eq_zero fun i hi => by simpa using h0 i hi
      exact absurd (pos_total hx) (by rw [this]; exact lt_irrefl 0)
    linarith
  · have : ∑ i, p i ^ 2 ≤ (∑ i, |p i|) ^ 2 := by
      rw [sq (∑ i, |p i|), sum_mul]
      refine sum_le_sum fun i hi => ?_
      rw [← sq_abs, sq]
      exact mul_le_mul_of_nonneg_left (single_le_sum (f := fun i => |p i|) (fun j _ => abs_nonneg _) hi) (abs_nonneg _)
    linarith

example : (∃ x, castToPdf x = .ok ⟨2, slightlyNegative⟩) ∧ (∃ i, slightlyNegative i < 0) ∧
    (∃ y, castToPdf y = .ok ⟨2, slightlyHeavy⟩) ∧ 1 < ∑ i, |slightlyHeavy i| ∧ (∀ i, 0 ≤ slightlyHeavy i) := by
  have hp : ∀ i, 0 ≤ slightlyHeavy i := fun i => by fin_cases i <;> simp [slightlyHeavy] <;> norm_num
  refine ⟨(C129_accepted _ _).2 slightlyNegative_ok, ⟨1, by simp [slightlyNegative]; norm_num⟩,
    (C129_accepted _ _).2 slightlyHeavy_ok, ?_, hp⟩
  simp_rw [fun i => abs_of_nonneg (hp i)]
  rw [slightlyHeavy_sum]
  norm_num

end FF.Props
