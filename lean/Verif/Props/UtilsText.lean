import Verif.Proofs.UtilsText
import Verif.Spec.Text

/-! # Properties C18-C21: `clean`, `print_custom`, `formatted_output` -/

namespace FF.Props

/-! ## C18 -/

/-- C18: with an integer threshold every number in the result is within half a unit of the `k`-th
decimal of the number it replaces, in the real part and in the imaginary part, except that imaginary
parts below `10^-k` may be dropped. No number is lost. -/
theorem C18_accuracy (obj : CleanObj) (k : ℤ) (r : CleanRes) (h : clean obj (.int k) = .ok r) :
    List.Forall₂ (fun a b : ℂ => |b.re - a.re| ≤ 10 ^ (-k) / 2 ∧
      (|b.im - a.im| ≤ 10 ^ (-k) / 2 ∨ (|a.im| < 10 ^ (-k) ∧ b.im = 0)))
      (Spec.valuesIn obj) (Spec.valuesOut r) := by
  have hC : ∀ z : ℂ, |(npRoundC k z).re - z.re| ≤ 10 ^ (-k) / 2 ∧
      (|(npRoundC k z).im - z.im| ≤ 10 ^ (-k) / 2 ∨ (|z.im| < 10 ^ (-k) ∧ (npRoundC k z).im = 0)) :=
    fun z => ⟨npRound_near k z.re, Or.inl (npRound_near k z.im)⟩
  have hR : ∀ x : ℝ, |((npRound k x : ℝ) : ℂ).re - (x : ℂ).re| ≤ 10 ^ (-k) / 2 ∧
      (|((npRound k x : ℝ) : ℂ).im - (x : ℂ).im| ≤ 10 ^ (-k) / 2 ∨
        (|(x : ℂ).im| < 10 ^ (-k) ∧ ((npRound k x : ℝ) : ℂ).im = 0)) := fun x => by
    refine ⟨by simpa using npRound_near k x, Or.inr ?_⟩
    simp [(p10 k)]
  have hD : ∀ z : ℂ, |z.im| < 10 ^ (-k) → |((npRound k z.re : ℝ) : ℂ).re - z.re| ≤ 10 ^ (-k) / 2 ∧
      (|((npRound k z.re : ℝ) : ℂ).im - z.im| ≤ 10 ^ (-k) / 2 ∨
        (|z.im| < 10 ^ (-k) ∧ ((npRound k z.re : ℝ) : ℂ).im = 0)) := fun z hz =>
    ⟨by simpa using npRound_near k z.re, Or.inr ⟨hz, by simp⟩⟩
  cases obj with
  | list v =>
    simp only [clean_int, cleanWith, Except.ok.injEq] at h
    subst h
    simp only [Spec.valuesIn, Spec.valuesOut, roundAndZero_int, List.forall₂_map_right_iff,
      List.forall₂_same]
    exact fun z _ => hC z
  | array v =>
    simp only [clean_int, cleanWith] at h
    split at h
    · rename_i hs
      cases h
      simp only [Spec.valuesIn, Spec.valuesOut, List.forall₂_map_right_iff, List.forall₂_same]
      exact fun z hz => hD z (hs z hz)
    · cases h
      simp only [Spec.valuesIn, Spec.valuesOut, roundAndZero_int, List.forall₂_map_right_iff,
        List.forall₂_same]
      exact fun z _ => hC z
  | str q s =>
    cases q with
    | none => cases h; exact List.Forall₂.nil
    | some x => cases h; exact List.Forall₂.cons (hR x) List.Forall₂.nil
  | real x => cases h; exact List.Forall₂.cons (hR x) List.Forall₂.nil
  | complex z =>
    simp only [clean_int, cleanWith] at h
    split at h
    · rename_i hs
      cases h
      exact List.Forall₂.cons (hD z hs) List.Forall₂.nil
    · cases h
      exact List.Forall₂.cons (hC z) List.Forall₂.nil
  | other => cases h

/-- C18: an integer threshold always works on numbers, lists, arrays and strings; other objects raise
`TypeError`. -/
theorem C18_total (obj : CleanObj) (k : ℤ) :
    (obj = .other → clean obj (.int k) = .error .typeError) ∧
    (obj ≠ .other → ∃ r, clean obj (.int k) = .ok r) := by
  refine ⟨by rintro rfl; rfl, fun h => ?_⟩
  cases obj with
  | list v => exact ⟨_, rfl⟩
  | array v =>
    simp only [clean_int, cleanWith]
    split <;> exact ⟨_, rfl⟩
  | str q s => cases q <;> exact ⟨_, rfl⟩
  | real x => exact ⟨_, rfl⟩
  | complex z =>
    simp only [clean_int, cleanWith]
    split <;> exact ⟨_, rfl⟩
  | other => exact absurd rfl h

/-- C18: with an integer threshold, cleaning twice is cleaning once. -/
theorem C18_idempotent (obj obj' : CleanObj) (k : ℤ) (r : CleanRes)
    (h : clean obj (.int k) = .ok r) (ho : Spec.asArgument r = some obj') :
    clean obj' (.int k) = .ok r := by
  have hmap : ∀ v : List ℂ, (v.map (npRoundC k)).map (npRoundC k) = v.map (npRoundC k) := by
    intro v; simp [List.map_map, Function.comp_def, npRoundC_npRoundC]
  cases obj with
  | list v =>
    simp only [clean_int, cleanWith, Except.ok.injEq] at h
    subst h
    cases ho
    simp only [clean_int, cleanWith, roundAndZero_int, hmap]
  | array v =>
    simp only [clean_int, cleanWith] at h
    split at h
    · cases h
      cases ho
      simp only [clean_int, cleanWith]
      rw [if_pos]
      · simp [List.map_map, Function.comp_def, npRound_npRound]
      · simp [p10]
    · rename_i hs
      cases h
      cases ho
      simp only [clean_int, cleanWith, roundAndZero_int]
      rw [if_neg]
      · rw [hmap]
      · push Not at hs ⊢
        obtain ⟨z, hz, hb⟩ := hs
        exact ⟨npRoundC k z, List.mem_map_of_mem hz, npRound_ge k z.im hb⟩
  | str q s =>
    cases q with
    | none => cases h; cases ho; rfl
    | some x => cases h; cases ho
  | real x =>
    cases h; cases ho
    simp only [clean_int, cleanWith, npRound_npRound]
  | complex z =>
    simp only [clean_int, cleanWith] at h
    split at h
    · cases h; cases ho
      simp only [clean_int, cleanWith, npRound_npRound]
    · rename_i hs
      cases h; cases ho
      simp only [clean_int, cleanWith]
      rw [if_neg, npRoundC_npRoundC]
      rw [not_lt] at hs ⊢
      exact npRound_ge k z.im hs
  | other => cases h

theorem logb_round {t : ℝ} {k : ℤ} (h1 : (10 : ℝ) ^ ((k : ℝ) - 1 / 2) < t)
    (h2 : t < (10 : ℝ) ^ ((k : ℝ) + 1 / 2)) : rint (Real.logb 10 t) = k := by
  have ht : 0 < t := lt_trans (Real.rpow_pos_of_pos (by norm_num) _) h1
  apply rint_eq_of_near
  rw [abs_lt]
  have a := (Real.lt_logb_iff_rpow_lt (by norm_num) ht).2 h1
  have b := (Real.logb_lt_iff_lt_rpow (by norm_num) ht).2 h2
  constructor <;> linarith

/-- Idempotence needs the integer threshold: with the float threshold `2.4e-6`, cleaning
`1 + 2.45e-6 j` gives `1 + 2e-6 j`, and cleaning that gives `1`. -/
theorem C18_float_not_idempotent :
    ∃ (t : ℝ) (z w : ℂ) (x : ℝ), 0 < t ∧ clean (.complex z) (.float t) = .ok (.complex w) ∧
      clean (.complex w) (.float t) = .ok (.real x) := by
  have hs : (3 : ℝ) < 10 ^ (1 / 2 : ℝ) := by
    rw [← Real.sqrt_eq_rpow]
    exact Real.lt_sqrt_of_sq_lt (by norm_num)
  have hl : rint (Real.logb 10 2.4e-6) = -6 := by
    apply logb_round
    · have : (10 : ℝ) ^ (((-6 : ℤ) : ℝ) - 1 / 2) ≤ 10 ^ ((-6 : ℤ) : ℝ) :=
        Real.rpow_le_rpow_of_exponent_le (by norm_num) (by linarith)
      refine this.trans_lt ?_
      rw [Real.rpow_intCast]; norm_num
    · rw [Real.rpow_add (by norm_num), Real.rpow_intCast]
      norm_num at hs ⊢
      linarith
  have hr : npRound 6 2.45e-6 = 2e-6 := by
    rw [npRound, rint_eq_of_near (n := 2) (by norm_num [abs_lt])]
    norm_num
  refine ⟨2.4e-6, ⟨1, 2.45e-6⟩, npRoundC 6 ⟨1, 2.45e-6⟩, npRound 6 (npRoundC 6 ⟨1, 2.45e-6⟩).re,
    by norm_num, ?_, ?_⟩
  · rw [clean_float _ (by norm_num), hl, neg_neg]
    simp only [cleanWith]
    rw [if_neg (by norm_num [abs_of_pos])]
  · rw [clean_float _ (by norm_num), hl, neg_neg]
    simp only [cleanWith]
    rw [if_pos]
    simp only [npRoundC, hr]
    norm_num [abs_of_pos]

example : ∃ r, clean (.array [⟨0.123456, 0⟩, ⟨-2, 0.5⟩]) (.int 3) = .ok r :=
  (C18_total _ 3).2 (by simp)

/-! ## C19 -/

/-- C19 is violated: `6e-7` is below the default threshold `1e-6`, and is returned as `1e-6`. -/
theorem C19_violation : ∃ x : ℝ, |x| < 1e-6 ∧
    clean (.real x) (.float 1e-6) = .ok (.real 1e-6) ∧
    clean (.array [(x : ℂ)]) (.float 1e-6) = .ok (.array [((1e-6 : ℝ) : ℂ)]) ∧
    clean (.list [(x : ℂ)]) (.float 1e-6) = .ok (.list [((1e-6 : ℝ) : ℂ)]) := by
  have hl : rint (Real.logb 10 1e-6) = -6 := by
    have : Real.logb 10 1e-6 = ((-6 : ℤ) : ℝ) := by
      rw [show (1e-6 : ℝ) = 10 ^ ((-6 : ℤ) : ℝ) by rw [Real.rpow_intCast]; norm_num]
      exact Real.logb_rpow (by norm_num) (by norm_num)
    rw [this, rint_int]
  have hr : npRound 6 6e-7 = 1e-6 := by
    rw [npRound, rint_eq_of_near (n := 1) (by norm_num [abs_lt])]
    norm_num
  have h0 : npRound 6 0 = 0 := by simpa using npRound_small 6 0 (by norm_num)
  have hc : npRoundC 6 ((6e-7 : ℝ) : ℂ) = ((1e-6 : ℝ) : ℂ) := by
    apply Complex.ext
    · rw [npRoundC, Complex.ofReal_re]; exact hr
    · rw [npRoundC, Complex.ofReal_im]; exact h0
  have ht : (0 : ℝ) < 1e-6 := by norm_num
  refine ⟨6e-7, by norm_num [abs_lt], ?_, ?_, ?_⟩
  · rw [clean_float _ ht, hl, neg_neg]
    simp only [cleanWith]
    rw [hr]
  · rw [clean_float _ ht, hl, neg_neg]
    simp only [cleanWith]
    rw [if_pos (by intro z hz; rw [List.mem_singleton.1 hz, Complex.ofReal_im]; norm_num)]
    simp only [List.map_cons, List.map_nil, Complex.ofReal_re, hr]
  · rw [clean_float _ ht, hl, neg_neg]
    simp only [cleanWith, roundAndZero, List.map_cons, List.map_nil, hc]
    rw [if_neg]
    rw [Complex.norm_real, Real.norm_eq_abs, abs_of_pos (by norm_num)]
    norm_num

theorem clean_small (obj : CleanObj) (thr : ℝ) (nd : ℤ)
    (r : CleanRes) (h : cleanWith nd thr obj = .ok r) :
    List.Forall₂ (fun a b : ℂ => ‖a‖ * 10 ^ nd < 1 / 2 → b = 0)
      (Spec.valuesIn obj) (Spec.valuesOut r) := by
  have hre : ∀ z : ℂ, ‖z‖ * 10 ^ nd < 1 / 2 → npRound nd z.re = 0 := fun z hz =>
    npRound_small nd z.re (lt_of_le_of_lt (by gcongr; exact Complex.abs_re_le_norm z) hz)
  have him : ∀ z : ℂ, ‖z‖ * 10 ^ nd < 1 / 2 → npRound nd z.im = 0 := fun z hz =>
    npRound_small nd z.im (lt_of_le_of_lt (by gcongr; exact Complex.abs_im_le_norm z) hz)
  have hC : ∀ z : ℂ, ‖z‖ * 10 ^ nd < 1 / 2 → npRoundC nd z = 0 := fun z hz => by
    simp [npRoundC, hre z hz, him z hz, Complex.ext_iff]
  have hR : ∀ x : ℝ, ‖(x : ℂ)‖ * 10 ^ nd < 1 / 2 → ((npRound nd x : ℝ) : ℂ) = 0 := fun x hx => by
    have := hre x hx
    rw [Complex.ofReal_re] at this
    rw [this, Complex.ofReal_zero]
  have hZ : ∀ (thr : ℝ) (v : List ℂ), List.Forall₂ (fun a b : ℂ => ‖a‖ * 10 ^ nd < 1 / 2 → b = 0) v
      (roundAndZero nd thr v) := fun thr v => by
    simp only [roundAndZero, List.map_map, List.forall₂_map_right_iff, List.forall₂_same,
      Function.comp]
    intro z _ hz
    rw [hC z hz]; simp
  cases obj with
  | list v =>
    simp only [cleanWith, Except.ok.injEq] at h
    subst h
    exact hZ _ _
  | array v =>
    simp only [cleanWith] at h
    split at h
    · cases h
      simp only [Spec.valuesIn, Spec.valuesOut, List.forall₂_map_right_iff, List.forall₂_same]
      intro z _ hz
      rw [hre z hz, Complex.ofReal_zero]
    · cases h
      exact hZ _ _
  | str q s =>
    cases q with
    | none =>
      simp only [cleanWith] at h
      cases h; exact List.Forall₂.nil
    | some x =>
      simp only [cleanWith] at h
      cases h; exact List.Forall₂.cons (hR x) List.Forall₂.nil
  | real x =>
    simp only [cleanWith] at h
    cases h; exact List.Forall₂.cons (hR x) List.Forall₂.nil
  | complex z =>
    simp only [cleanWith] at h
    split at h
    · cases h
      refine List.Forall₂.cons (fun hz => ?_) List.Forall₂.nil
      rw [hre z hz, Complex.ofReal_zero]
    · cases h
      exact List.Forall₂.cons (hC z) List.Forall₂.nil
  | other =>
    simp only [cleanWith] at h
    cases h

/-- C19 (part): what does hold. With an integer threshold `k`, numbers below HALF of `10^-k` become
exactly zero; with a positive float threshold `t`, numbers below `t / 7` do. Missing: the numbers between
that bound and the threshold, where the claim is false (`C19_violation`). -/
theorem C19_zeroes_partial (obj : CleanObj) (r : CleanRes) :
    (∀ k : ℤ, clean obj (.int k) = .ok r →
      List.Forall₂ (fun a b : ℂ => ‖a‖ < 10 ^ (-k) / 2 → b = 0)
        (Spec.valuesIn obj) (Spec.valuesOut r)) ∧
    (∀ t : ℝ, 0 < t → clean obj (.float t) = .ok r →
      List.Forall₂ (fun a b : ℂ => ‖a‖ < t / 7 → b = 0)
        (Spec.valuesIn obj) (Spec.valuesOut r)) := by
  constructor
  · intro k h
    refine (clean_small obj _ k r h).imp fun a b hab ha => hab ?_
    have := mul_lt_mul_of_pos_right ha (p10 k)
    rwa [zpow_neg, div_mul_eq_mul_div, inv_mul_cancel₀ (p10 k).ne'] at this
  · intro t ht h
    rw [clean_float _ ht] at h
    refine (clean_small obj _ _ r h).imp fun a b hab ha => hab ?_
    set R := rint (Real.logb 10 t)
    have h1 : Real.logb 10 t - 1 / 2 ≤ R := by
      have := (abs_le.1 (rint_near (Real.logb 10 t))).1; linarith
    have h2 : t / 10 ^ (1 / 2 : ℝ) ≤ (10 : ℝ) ^ R := by
      rw [← Real.rpow_intCast]
      calc t / 10 ^ (1 / 2 : ℝ) = 10 ^ (Real.logb 10 t - 1 / 2) := by
            rw [Real.rpow_sub (by norm_num), Real.rpow_logb (by norm_num) (by norm_num) ht]
        _ ≤ _ := Real.rpow_le_rpow_of_exponent_le (by norm_num) h1
    have hs : (10 : ℝ) ^ (1 / 2 : ℝ) < 7 / 2 := by
      rw [← Real.sqrt_eq_rpow, Real.sqrt_lt' (by norm_num)]; norm_num
    have hs0 : (0 : ℝ) < 10 ^ (1 / 2 : ℝ) := Real.rpow_pos_of_pos (by norm_num) _
    rw [div_le_iff₀ hs0] at h2
    have h3 : t < 10 ^ R * (7 / 2) := h2.trans_lt (mul_lt_mul_of_pos_left hs (p10 R))
    rw [zpow_neg, ← div_eq_mul_inv, div_lt_iff₀ (p10 R)]
    linarith

theorem npRound_eq_zero (k : ℤ) (x : ℝ) : npRound k x = 0 ↔ |x| ≤ 10 ^ (-k) / 2 := by
  rw [npRound, div_eq_zero_iff, or_iff_left (p10 k).ne', Int.cast_eq_zero, rint_eq_zero, abs_mul,
    abs_of_pos (p10 k), zpow_neg, ← le_div_iff₀ (p10 k), div_right_comm, one_div]

/-- C19, exactly: with an integer threshold `k`, a number becomes zero iff its real part is at most HALF
of `10^-k` and so is its imaginary part, unless the imaginary parts are dropped altogether. -/
theorem C19_iff (obj : CleanObj) (k : ℤ) (r : CleanRes) (h : clean obj (.int k) = .ok r) :
    List.Forall₂ (fun a b : ℂ => b = 0 ↔ |a.re| ≤ 10 ^ (-k) / 2 ∧
        (|a.im| ≤ 10 ^ (-k) / 2 ∨ Spec.ImagDropped (10 ^ (-k)) obj))
      (Spec.valuesIn obj) (Spec.valuesOut r) := by
  have hC : ∀ z : ℂ, npRoundC k z = 0 ↔ |z.re| ≤ 10 ^ (-k) / 2 ∧ |z.im| ≤ 10 ^ (-k) / 2 := fun z => by
    rw [Complex.ext_iff]
    exact and_congr (npRound_eq_zero k z.re) (npRound_eq_zero k z.im)
  have hR : ∀ x : ℝ, ((npRound k x : ℝ) : ℂ) = 0 ↔ |x| ≤ 10 ^ (-k) / 2 := fun x => by
    rw [Complex.ofReal_eq_zero, npRound_eq_zero]
  have hX : ∀ x : ℝ, ((npRound k x : ℝ) : ℂ) = 0 ↔ |(x : ℂ).re| ≤ 10 ^ (-k) / 2 ∧
      (|(x : ℂ).im| ≤ 10 ^ (-k) / 2 ∨ False) := fun x => by
    rw [hR, Complex.ofReal_re, Complex.ofReal_im, abs_zero]
    have := p10 (-k)
    exact ⟨fun h => ⟨h, Or.inl (by positivity)⟩, fun h => h.1⟩
  cases obj with
  | list v =>
    simp only [clean_int, cleanWith, Except.ok.injEq] at h
    subst h
    simp only [Spec.valuesIn, Spec.valuesOut, roundAndZero_int, List.forall₂_map_right_iff,
      List.forall₂_same, Spec.ImagDropped, or_false]
    exact fun z _ => hC z
  | array v =>
    simp only [clean_int, cleanWith] at h
    split at h
    · rename_i hs
      cases h
      simp only [Spec.valuesIn, Spec.valuesOut, List.forall₂_map_right_iff, List.forall₂_same]
      exact fun z _ => (hR z.re).trans ⟨fun h => ⟨h, Or.inr hs⟩, fun h => h.1⟩
    · rename_i hs
      cases h
      simp only [Spec.valuesIn, Spec.valuesOut, roundAndZero_int, List.forall₂_map_right_iff,
        List.forall₂_same]
      exact fun z _ => (hC z).trans (and_congr_right fun _ => ⟨Or.inl, fun h => h.resolve_right hs⟩)
  | str q s =>
    cases q with
    | none => cases h; exact List.Forall₂.nil
    | some x => cases h; exact List.Forall₂.cons (hX x) List.Forall₂.nil
  | real x => cases h; exact List.Forall₂.cons (hX x) List.Forall₂.nil
  | complex z =>
    simp only [clean_int, cleanWith] at h
    split at h
    · rename_i hs
      cases h
      exact List.Forall₂.cons ((hR z.re).trans ⟨fun h => ⟨h, Or.inr hs⟩, fun h => h.1⟩) List.Forall₂.nil
    · rename_i hs
      cases h
      exact List.Forall₂.cons ((hC z).trans (and_congr_right fun _ => ⟨Or.inl, fun h => h.resolve_right hs⟩))
        List.Forall₂.nil
  | other => cases h

/-- C19: a float threshold that is a power of ten, such as the default `1e-6`, acts like the integer
threshold of the same number of digits, so `C19_iff` and the theorems of C18 apply to it. -/
theorem C19_power_of_ten (obj : CleanObj) (k : ℤ) :
    clean obj (.float (10 ^ (-k))) = clean obj (.int k) := by
  have hl : rint (Real.logb 10 ((10 : ℝ) ^ (-k))) = -k := by
    rw [← Real.rpow_intCast, Real.logb_rpow (by norm_num) (by norm_num), rint_int]
  rw [clean_float _ (p10 _), hl, neg_neg, clean_int]

/-- C19: a real number becomes zero under the default threshold `1e-6` iff it is at most `5e-7`. -/
theorem C19_default (x : ℝ) :
    clean (.real x) (.float 1e-6) = .ok (.real 0) ↔ |x| ≤ 5e-7 := by
  rw [show (1e-6 : ℝ) = 10 ^ (-6 : ℤ) by norm_num, C19_power_of_ten, clean_int]
  simp only [cleanWith, Except.ok.injEq, CleanRes.real.injEq, npRound_eq_zero]
  norm_num

example : ∃ r, clean (.complex ⟨4e-4, 7e-4⟩) (.int 3) = .ok r := (C18_total _ 3).2 (by simp)

/-- C19: non-positive float thresholds raise, whatever the object: OverflowError for zero and ValueError for negative
ones. -/
theorem C19_bad_threshold (obj : CleanObj) (t : ℝ) (ht : t ≤ 0) :
    clean obj (.float t) = .error (if t < 0 then .valueError else .overflowError) := by
  simp only [clean, Threshold.ndigits, bind, Except.bind]
  rcases ht.lt_or_eq with h | h
  · rw [if_neg h.ne, if_pos h, if_pos h]
  · rw [if_pos h, if_neg (by rw [h]; exact lt_irrefl 0)]

/-! ## C20 -/

/-- C20: numpy's print precision is restored, whatever the object, `k`, and whichever step raises. -/
theorem C20_precision_restored (env : PrintEnv) (isNumeric : Bool) (k : ℕ) (s : PrintState) :
    (printCustom env isNumeric k s).1.precision = s.precision := by
  unfold printCustom
  split
  · rfl
  · rfl

/-- C20: if each `print` writes its text when it succeeds and nothing when it raises, then
`print_custom` writes exactly one text if it returns normally, and none if an exception propagates. -/
theorem C20_prints_once (env : PrintEnv) (isNumeric : Bool) (k : ℕ) (s : PrintState)
    (tv tobj : String)
    (hv : env.printVal.2 = match env.printVal.1 with | .ok _ => [tv] | .error _ => [])
    (ho : env.printObj.2 = match env.printObj.1 with | .ok _ => [tobj] | .error _ => []) :
    match (printCustom env isNumeric k s).2 with
    | .ok _ => (printCustom env isNumeric k s).1.output = s.output ++ [tv] ∨
        (printCustom env isNumeric k s).1.output = s.output ++ [tobj]
    | .error _ => (printCustom env isNumeric k s).1.output = s.output := by
  obtain ⟨mk, chk, sp, cl, ⟨pv, ov⟩, ⟨po, oo⟩⟩ := env
  simp only at hv ho
  subst hv ho
  unfold printCustom printInner
  cases isNumeric
  · cases po <;> simp
  · rcases mk with e | _
    · cases e <;> cases po <;> simp
    · rcases chk with e | _
      · cases e <;> cases po <;> simp
      · rcases sp with e | _
        · cases e <;> cases po <;> simp
        · rcases cl with e | _
          · cases e <;> cases po <;> simp
          · rcases pv with e | _
            · cases e <;> cases po <;> simp
            · simp

/-- C20: `ValueError` and `TypeError` of the numeric path never reach the caller: the object is then
printed plainly. -/
theorem C20_fallback (env : PrintEnv) (isNumeric : Bool) (k : ℕ) (s : PrintState) (e : PyErr)
    (h : (printCustom env isNumeric k s).2 = .error e) (ho : env.printObj.1 = .ok ()) :
    e ≠ .valueError ∧ e ≠ .typeError := by
  obtain ⟨mk, chk, sp, cl, ⟨pv, ov⟩, ⟨po, oo⟩⟩ := env
  simp only at ho
  subst ho
  unfold printCustom printInner at h
  cases isNumeric
  · simp at h
  · rcases mk with e | _
    · cases e <;> simp at h <;> subst h <;> simp
    · rcases chk with e | _
      · cases e <;> simp at h <;> subst h <;> simp
      · rcases sp with e | _
        · cases e <;> simp at h <;> subst h <;> simp
        · rcases cl with e | _
          · cases e <;> simp at h <;> subst h <;> simp
          · rcases pv with e | _
            · cases e <;> simp at h <;> subst h <;> simp
            · simp at h

/-- A run in which `clean` raises after the precision has been changed. -/
example : (printCustom ⟨.ok (), .ok (), .ok (), .error .typeError, (.ok (), ["v"]), (.ok (), ["o"])⟩
    true 3 ⟨8, []⟩).1.output = ["o"] := rfl

/-! ## C21 -/

theorem fmtFixed_spec (p : ℕ) (x : ℝ) :
    ∃ v, Spec.IsDecimal p (x < 0) (fmtFixed p x) v ∧ abs (v - |x|) ≤ 10 ^ (-(p : ℤ)) / 2 := by
  set N : ℕ := (rint (|x| * 10 ^ p)).toNat with hN
  refine ⟨(N : ℝ) / 10 ^ p, ⟨if x < 0 then ['-'] else [], natDigits (N / 10 ^ p), lastDigits p N,
    ?_, ?_, ?_, Nat.toDigits_ne_nil, ?_, lastDigits_length p N, lastDigits_isDigit p N, ?_⟩, ?_⟩
  · unfold fmtFixed
    congr
  · intro h; rw [if_pos h]
  · intro h; rw [if_neg h]
  · intro c hc
    exact Nat.isDigit_of_mem_toDigits (by norm_num) (by norm_num) hc
  · rw [natDigits, Nat.ofDigitChars_ten_toDigits, lastDigits_value]
    have : N = 10 ^ p * (N / 10 ^ p) + N % 10 ^ p := (Nat.div_add_mod N (10 ^ p)).symm
    have h2 : (N : ℝ) = 10 ^ p * ((N / 10 ^ p : ℕ) : ℝ) + ((N % 10 ^ p : ℕ) : ℝ) := by
      exact_mod_cast this
    rw [h2]
    field_simp
  · have hr : (0 : ℤ) ≤ rint (|x| * 10 ^ p) := rint_nonneg (by positivity)
    have hNr : (N : ℝ) = (rint (|x| * 10 ^ p) : ℝ) := by
      have : ((N : ℤ)) = rint (|x| * 10 ^ p) := by rw [hN]; exact Int.toNat_of_nonneg hr
      exact_mod_cast congrArg (fun z : ℤ => (z : ℝ)) this
    have h := npRound_near p |x|
    rw [npRound, zpow_natCast, ← hNr] at h
    exact h

/-- C21: real numbers print as a decimal with exactly `precision` fractional digits, within half a unit
in the last place, with a minus sign iff negative. -/
theorem C21_real (p : ℕ) (x : ℝ) :
    ∃ v, Spec.IsDecimal p (x < 0) (formattedOutput (.real x) p) v ∧
      abs (v - |x|) ≤ 10 ^ (-(p : ℤ)) / 2 :=
  fmtFixed_spec p x

/-- C21: complex numbers print as their real part if the imaginary part is below `1e-10`, and as
`re + imj` otherwise. -/
theorem C21_complex (p : ℕ) (z : ℂ) :
    ∃ sr si vr vi, Spec.IsDecimal p (z.re < 0) sr vr ∧ abs (vr - |z.re|) ≤ 10 ^ (-(p : ℤ)) / 2 ∧
      Spec.IsDecimal p (z.im < 0) si vi ∧ abs (vi - |z.im|) ≤ 10 ^ (-(p : ℤ)) / 2 ∧
      (|z.im| < 1e-10 → formattedOutput (.complex z) p = sr) ∧
      (1e-10 ≤ |z.im| → formattedOutput (.complex z) p = sr ++ " + ".toList ++ si ++ "j".toList) := by
  obtain ⟨vr, h1, h2⟩ := fmtFixed_spec p z.re
  obtain ⟨vi, h3, h4⟩ := fmtFixed_spec p z.im
  refine ⟨_, _, vr, vi, h1, h2, h3, h4, fun h => ?_, fun h => ?_⟩
  · simp only [formattedOutput]; rw [if_pos h]
  · simp only [formattedOutput]; rw [if_neg (not_lt.2 h)]; rfl

/-- C21: everything else prints as `str(obj)`. -/
theorem C21_other (p : ℕ) (s : List Char) : formattedOutput (.other s) p = s := rfl

example : |(3e-11 : ℝ)| < 1e-10 := by norm_num [abs_lt]

end FF.Props
