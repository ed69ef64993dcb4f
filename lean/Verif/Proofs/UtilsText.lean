import Verif.Model.UtilsText
import Mathlib.Analysis.SpecialFunctions.Pow.Real

/-! # Helper lemmas for `clean` and `formatted_output` -/

namespace FF

theorem rint_near (x : ℝ) : |(rint x : ℝ) - x| ≤ 1 / 2 := by
  have h := Int.floor_add_fract x
  have h0 := Int.fract_nonneg x
  have h1 := Int.fract_lt_one x
  unfold rint
  split_ifs with a b c
  · rw [abs_le]; constructor <;> linarith
  · push_cast; rw [abs_le]; constructor <;> linarith
  · have : Int.fract x = 1 / 2 := le_antisymm (not_lt.1 b) (not_lt.1 a)
    rw [abs_le]; constructor <;> linarith
  · have : Int.fract x = 1 / 2 := le_antisymm (not_lt.1 b) (not_lt.1 a)
    push_cast; rw [abs_le]; constructor <;> linarith

theorem rint_int (n : ℤ) : rint (n : ℝ) = n := by
  simp [rint]

/-- An integer closer than 1/2 is the result. -/
theorem rint_eq_of_near {x : ℝ} {n : ℤ} (h : |x - n| < 1 / 2) : rint x = n := by
  have h1 := rint_near x
  have h2 : |((rint x - n : ℤ) : ℝ)| < 1 := by
    push_cast
    calc |(rint x : ℝ) - n| = |((rint x : ℝ) - x) + (x - n)| := by ring_nf
      _ ≤ |(rint x : ℝ) - x| + |x - n| := abs_add_le _ _
      _ < 1 := by linarith
  have h3 : |rint x - n| < 1 := by exact_mod_cast h2
  have := Int.abs_lt_one_iff.1 h3
  omega

theorem rint_zero_of_small {x : ℝ} (h : |x| < 1 / 2) : rint x = 0 :=
  rint_eq_of_near (by simpa using h)

/-- Round half to even sends exactly `[-1/2, 1/2]` to zero. -/
theorem rint_eq_zero {x : ℝ} : rint x = 0 ↔ |x| ≤ 1 / 2 := by
  constructor
  · intro h
    have h1 := rint_near x
    rw [h] at h1
    simpa using h1
  · intro h
    rcases h.lt_or_eq with h | h
    · exact rint_zero_of_small h
    · rcases abs_eq (by norm_num : (0 : ℝ) ≤ 1 / 2) |>.1 h with rfl | rfl
      · have hf : ⌊(1 / 2 : ℝ)⌋ = 0 := by rw [Int.floor_eq_iff]; norm_num
        simp only [rint, Int.fract, hf]
        norm_num
      · have hf : ⌊(-(1 / 2) : ℝ)⌋ = -1 := by rw [Int.floor_eq_iff]; norm_num
        simp only [rint, Int.fract, hf]
        norm_num

theorem rint_abs_ge {x : ℝ} (h : 1 ≤ |x|) : 1 ≤ |rint x| := by
  by_contra hc
  have : rint x = 0 := Int.abs_lt_one_iff.1 (not_le.1 hc)
  have h1 := rint_near x
  rw [this] at h1
  simp at h1
  linarith

theorem rint_nonneg {x : ℝ} (h : 0 ≤ x) : 0 ≤ rint x := by
  by_contra hc
  have : rint x ≤ -1 := by omega
  have h2 : (rint x : ℝ) ≤ -1 := by exact_mod_cast this
  have h1 := abs_le.1 (rint_near x)
  linarith [h1.1]

theorem p10 (k : ℤ) : (0 : ℝ) < 10 ^ k := zpow_pos (by norm_num) k

theorem npRound_near (k : ℤ) (x : ℝ) : |npRound k x - x| ≤ 10 ^ (-k) / 2 := by
  have h := rint_near (x * 10 ^ k)
  have e : npRound k x - x = ((rint (x * 10 ^ k) : ℝ) - x * 10 ^ k) * 10 ^ (-k) := by
    unfold npRound
    rw [zpow_neg]
    field_simp [(p10 k).ne']
  rw [e, abs_mul, abs_of_pos (p10 (-k))]
  nlinarith [p10 (-k)]

theorem npRound_npRound (k : ℤ) (x : ℝ) : npRound k (npRound k x) = npRound k x := by
  unfold npRound
  rw [div_mul_cancel₀ _ (p10 k).ne', rint_int]

theorem npRoundC_npRoundC (k : ℤ) (z : ℂ) : npRoundC k (npRoundC k z) = npRoundC k z := by
  simp [npRoundC, npRound_npRound]

/-- Rounded numbers are zero or at least the unit. -/
theorem npRound_zero_or (k : ℤ) (x : ℝ) : npRound k x = 0 ∨ 10 ^ (-k) ≤ |npRound k x| := by
  by_cases h : rint (x * 10 ^ k) = 0
  · left; simp [npRound, h]
  · right
    have : 1 ≤ |rint (x * 10 ^ k)| := Int.one_le_abs h
    have h2 : (1 : ℝ) ≤ |(rint (x * 10 ^ k) : ℝ)| := by exact_mod_cast this
    rw [npRound, abs_div, abs_of_pos (p10 k), zpow_neg, inv_eq_one_div]
    gcongr

theorem npRound_ge (k : ℤ) (x : ℝ) (h : 10 ^ (-k) ≤ |x|) : 10 ^ (-k) ≤ |npRound k x| := by
  have h1 : 1 ≤ |x * 10 ^ k| := by
    rw [abs_mul, abs_of_pos (p10 k)]
    calc (1 : ℝ) = 10 ^ (-k) * 10 ^ k := by rw [← zpow_add₀ (by norm_num)]; simp
      _ ≤ _ := by gcongr
  have h2 : (1 : ℝ) ≤ |(rint (x * 10 ^ k) : ℝ)| := by exact_mod_cast rint_abs_ge h1
  rw [npRound, abs_div, abs_of_pos (p10 k), zpow_neg, inv_eq_one_div]
  gcongr

theorem npRound_small (k : ℤ) (x : ℝ) (h : |x| * 10 ^ k < 1 / 2) : npRound k x = 0 := by
  rw [npRound, rint_zero_of_small (by rwa [abs_mul, abs_of_pos (p10 k)])]
  simp

/-- The zeroing line changes nothing for an integer threshold. -/
theorem roundAndZero_int (k : ℤ) (v : List ℂ) :
    roundAndZero k (10 ^ (-k)) v = v.map (npRoundC k) := by
  unfold roundAndZero
  rw [List.map_map]
  apply List.map_congr_left
  intro z _
  simp only [Function.comp]
  split
  · rename_i h
    have h1 := (Complex.abs_re_le_norm _).trans_lt h
    have h2 := (Complex.abs_im_le_norm _).trans_lt h
    rcases npRound_zero_or k z.re with a | a
    · rcases npRound_zero_or k z.im with b | b
      · simp [npRoundC, a, b, Complex.ext_iff]
      · exact absurd h2 (not_lt.2 b)
    · exact absurd h1 (not_lt.2 a)
  · rfl

theorem clean_int (obj : CleanObj) (k : ℤ) :
    clean obj (.int k) = cleanWith k (10 ^ (-k)) obj := rfl

theorem clean_float (obj : CleanObj) {t : ℝ} (ht : 0 < t) :
    clean obj (.float t) = cleanWith (-rint (Real.logb 10 t)) t obj := by
  have hnd : (Threshold.float t).ndigits = .ok (-rint (Real.logb 10 t)) := by
    simp only [Threshold.ndigits]
    rw [if_neg ht.ne', if_neg (not_lt.2 ht.le)]
  rw [clean, hnd]
  rfl

theorem lastDigits_length (p N : ℕ) : (lastDigits p N).length = p := by
  induction p generalizing N with
  | zero => rfl
  | succ p ih => simp [lastDigits, ih]

theorem lastDigits_isDigit (p N : ℕ) : ∀ c ∈ lastDigits p N, c.isDigit := by
  induction p generalizing N with
  | zero => simp [lastDigits]
  | succ p ih =>
    intro c hc
    simp only [lastDigits, List.mem_append, List.mem_singleton] at hc
    rcases hc with hc | rfl
    · exact ih _ c hc
    · have : N % 10 < 10 := Nat.mod_lt _ (by norm_num)
      generalize N % 10 = d at this
      interval_cases d <;> decide

theorem lastDigits_value (p N : ℕ) : Nat.ofDigitChars 10 (lastDigits p N) 0 = N % 10 ^ p := by
  induction p generalizing N with
  | zero => simp [lastDigits, Nat.ofDigitChars_nil, Nat.mod_one]
  | succ p ih =>
    rw [lastDigits, Nat.ofDigitChars_append, ih,
      Nat.ofDigitChars_cons_digitChar_of_lt_ten (Nat.mod_lt _ (by norm_num)), Nat.ofDigitChars_nil]
    rw [pow_succ, mul_comm (10 ^ p) 10, Nat.mod_mul]
    ring

end FF
