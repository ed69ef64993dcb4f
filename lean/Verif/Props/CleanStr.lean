import Verif.Spec.CleanStr
import Verif.Proofs.UtilsText
import Mathlib.Data.Nat.Digits.Defs
import Mathlib.Data.List.TakeWhile
import Mathlib.Data.Real.Basic
import Mathlib.Tactic

/-! # Property C159: `clean` on strings -/

namespace FF.Props

open FF.Spec

theorem digitsValue_eq (ds : List ℕ) : digitsValue ds = Nat.ofDigits 10 ds.reverse := by
  induction ds using List.reverseRecOn with
  | nil => rfl
  | append_singleton l d ih =>
    rw [digitsValue, List.foldl_append, List.reverse_append]
    change 10 * digitsValue l + d = Nat.ofDigits 10 (d :: l.reverse)
    rw [ih, Nat.ofDigits_cons]; push_cast; ring

theorem mapM_reads {U : CharTable} {cs : List Char} {ds : List ℕ} : cs.mapM U.decimal = some ds ↔ Reads U cs ds := by
  induction cs generalizing ds with
  | nil =>
    constructor
    · intro h
      obtain rfl : [] = ds := by simpa using h
      exact .nil
    · rintro ⟨⟩; rfl
  | cons c cs ih =>
    rw [List.mapM_cons]
    constructor
    · intro h
      simp only [Option.bind_eq_bind, Option.bind_eq_some_iff] at h
      obtain ⟨d, hd, e, he, h⟩ := h
      obtain rfl : d :: e = ds := by simpa using h
      exact .cons hd (ih.1 he)
    · intro h
      cases h with
      | cons hd he =>
        rw [hd, ih.2 he]; rfl

theorem dot_none {U : CharTable} (h : CharsOk U) : U.decimal '.' = none := by
  cases hd : U.decimal '.' with
  | none => rfl
  | some d =>
    exact absurd (h.ascii '.' (by decide) (h.numeric _ _ hd).1) (by decide)

theorem dot_not_numeric {U : CharTable} (h : CharsOk U) : U.isNumeric '.' = false := by
  by_contra hd
  have := h.ascii '.' (by decide) (by simpa using hd)
  revert this; decide

theorem reads_no_dot {U : CharTable} (h : CharsOk U) {cs : List Char} {ds : List ℕ} (hr : Reads U cs ds) : '.' ∉ cs := by
  intro hm
  induction hr with
  | nil => simp at hm
  | cons hd _ ih =>
    rcases List.mem_cons.1 hm with rfl | hm
    · rw [dot_none h] at hd; exact absurd hd (by simp)
    · exact ih hm

theorem reads_numeric {U : CharTable} (h : CharsOk U) {cs : List Char} {ds : List ℕ} (hr : Reads U cs ds) :
    cs.all U.isNumeric = true := by
  induction hr with
  | nil => rfl
  | cons hd _ ih => rw [List.all_cons, ih, (h.numeric _ _ hd).1]; rfl

/-- The two parts around the first point. -/
theorem parts_no_dot {s : List Char} (h : '.' ∉ s) : s.takeWhile (· ≠ '.') = s ∧ (s.dropWhile (· ≠ '.')).drop 1 = [] := by
  have h1 : ∀ c ∈ s, decide (c ≠ '.') = true := by
    intro c hc
    have : c ≠ '.' := fun e => h (e ▸ hc)
    simpa using this
  have h2 : s.takeWhile (· ≠ '.') = s := List.takeWhile_eq_self_iff.2 h1
  refine ⟨h2, ?_⟩
  rw [List.dropWhile_eq_nil_iff.2 h1]; rfl

theorem parts_dot {w f : List Char} (h : '.' ∉ w) :
    (w ++ '.' :: f).takeWhile (· ≠ '.') = w ∧ ((w ++ '.' :: f).dropWhile (· ≠ '.')).drop 1 = f := by
  induction w with
  | nil => simp
  | cons c w ih =>
    have hc : c ≠ '.' := fun e => h (by simp [e])
    have := ih (fun hm => h (List.mem_cons_of_mem _ hm))
    simpa [hc] using this

theorem reads_split {U : CharTable} {w f : List Char} {ds : List ℕ} (hr : Reads U (w ++ f) ds) :
    ∃ a b, ds = a ++ b ∧ Reads U w a ∧ Reads U f b := by
  induction w generalizing ds with
  | nil => exact ⟨[], ds, rfl, .nil, hr⟩
  | cons c w ih =>
    cases hr with
    | cons hd hr =>
      obtain ⟨a, b, rfl, ha, hb⟩ := ih hr
      exact ⟨_ :: a, b, rfl, .cons hd ha, hb⟩

theorem reads_exists {U : CharTable} {cs : List Char} (h : ∀ c ∈ cs, ∃ d, U.decimal c = some d) : ∃ ds, Reads U cs ds := by
  induction cs with
  | nil => exact ⟨[], .nil⟩
  | cons c cs ih =>
    obtain ⟨d, hd⟩ := h c (by simp)
    obtain ⟨ds, hds⟩ := ih fun e he => h e (by simp [he])
    exact ⟨d :: ds, .cons hd hds⟩

theorem split_at_dot {s : List Char} (h : '.' ∈ s) : ∃ w f, s = w ++ '.' :: f ∧ '.' ∉ w := by
  induction s with
  | nil => simp at h
  | cons c s ih =>
    by_cases hc : c = '.'
    · exact ⟨[], s, by rw [hc]; rfl, by simp⟩
    · obtain ⟨w, f, rfl, hw⟩ := ih ((List.mem_cons.1 h).resolve_left fun e => hc e.symm)
      exact ⟨c :: w, f, rfl, by simp [hw, Ne.symm hc]⟩

theorem digit_char {c : Char} (h : c.isDigit = true) : ∃ d < 10, c = Nat.digitChar d := by
  have h1 : 48 ≤ c.toNat ∧ c.toNat ≤ 57 := by
    simp only [Char.isDigit, Bool.and_eq_true, decide_eq_true_eq] at h
    exact ⟨h.1, h.2⟩
  have h2 : c = Char.ofNat c.toNat := (Char.ofNat_toNat c).symm
  obtain ⟨h3, h4⟩ := h1
  refine ⟨c.toNat - 48, by omega, ?_⟩
  generalize c.toNat = m at *
  rw [h2]
  interval_cases m <;> rfl

theorem pyFloat_iff {U : CharTable} (h : CharsOk U) (s : List Char) (x : ℝ) : pyFloat U s = .ok x ↔ IsPlainDecimal U s x := by
  have hlen : ∀ {f : List Char} {b : List ℕ}, Reads U f b → f.length = b.length := fun hr => List.Forall₂.length_eq hr
  have key : ∀ {w f : List Char}, s.takeWhile (· ≠ '.') = w → (s.dropWhile (· ≠ '.')).drop 1 = f →
      (pyFloat U s = .ok x ↔ ∃ a b, Reads U w a ∧ Reads U f b ∧ a ++ b ≠ [] ∧
        x = Nat.ofDigits 10 (a ++ b).reverse / 10 ^ b.length) := by
    intro w f hw hf
    simp only [pyFloat, hw, hf]
    constructor
    · intro hx
      rcases hm : (w ++ f).mapM U.decimal with _ | (_ | ⟨d, ds⟩) <;> rw [hm] at hx
      · exact absurd hx (by simp)
      · exact absurd hx (by simp)
      · obtain ⟨a, b, hab, ha, hb⟩ := reads_split (mapM_reads.1 hm)
        refine ⟨a, b, ha, hb, by rw [← hab]; simp, ?_⟩
        rw [← hab, ← hlen hb]
        have := Except.ok.inj hx
        rw [← this, digitsValue_eq]
        push_cast
        rfl
    · rintro ⟨a, b, ha, hb, hne, rfl⟩
      rw [mapM_reads.2 (List.rel_append ha hb)]
      obtain ⟨d, ds, hd⟩ := List.exists_cons_of_ne_nil hne
      rw [hd]
      simp only
      rw [hlen hb, digitsValue_eq, ← hd]
      push_cast
      rfl
  by_cases hdot : '.' ∈ s
  · obtain ⟨w, f, hs, hw⟩ := split_at_dot hdot
    obtain ⟨h1, h2⟩ := parts_dot (f := f) hw
    rw [← hs] at h1 h2
    rw [key h1 h2]
    constructor
    · rintro ⟨a, b, ha, hb, hne, hx⟩
      exact ⟨w, f, a, b, Or.inl hs, ha, hb, hne, hx⟩
    · rintro ⟨w', f', a, b, hs' | ⟨hs', -⟩, ha, hb, hne, hx⟩
      · obtain ⟨h1', h2'⟩ := parts_dot (f := f') (reads_no_dot h ha)
        rw [← hs'] at h1' h2'
        rw [h1] at h1'; rw [h2] at h2'
        subst h1' h2'
        exact ⟨a, b, ha, hb, hne, hx⟩
      · exact absurd (hs' ▸ hdot) (reads_no_dot h ha)
  · obtain ⟨h1, h2⟩ := parts_no_dot hdot
    rw [key h1 h2]
    constructor
    · rintro ⟨a, b, ha, hb, hne, hx⟩
      exact ⟨s, [], a, b, Or.inr ⟨rfl, rfl⟩, ha, hb, hne, hx⟩
    · rintro ⟨w', f', a, b, hs' | ⟨rfl, rfl⟩, ha, hb, hne, hx⟩
      · exact absurd (by rw [hs']; simp) hdot
      · exact ⟨a, b, ha, hb, hne, hx⟩

theorem pyFloat_error {U : CharTable} (s : List Char) : (∃ x, pyFloat U s = .ok x) ∨ pyFloat U s = .error .valueError := by
  simp only [pyFloat]
  rcases ((s.takeWhile (· ≠ '.')) ++ (s.dropWhile (· ≠ '.')).drop 1).mapM U.decimal with _ | (_ | ⟨d, ds⟩)
  · exact Or.inr rfl
  · exact Or.inr rfl
  · exact Or.inl ⟨_, rfl⟩

theorem decimal_numeric {U : CharTable} (h : CharsOk U) {s : List Char} {x : ℝ} (hs : IsPlainDecimal U s x) :
    s.erase '.' ≠ [] ∧ (s.erase '.').all U.isNumeric = true := by
  obtain ⟨w, f, a, b, hs, ha, hb, hne, -⟩ := hs
  have he : s.erase '.' = w ++ f := by
    rcases hs with rfl | ⟨rfl, rfl⟩
    · rw [List.erase_append_right _ (reads_no_dot h ha), List.erase_cons_head]
    · rw [List.erase_of_not_mem (reads_no_dot h ha), List.append_nil]
  rw [he]
  constructor
  · intro h0
    obtain ⟨rfl, rfl⟩ := List.append_eq_nil_iff.1 h0
    cases ha; cases hb
    exact hne rfl
  · rw [List.all_append, reads_numeric h ha, reads_numeric h hb]; rfl

/-- C159. A decimal number without sign and exponent is rounded, and the rounded number comes back as a string. -/
theorem C159_decimal {U : CharTable} (h : CharsOk U) (s : List Char) (x : ℝ) (hs : IsPlainDecimal U s x) (t : Threshold) (nd : ℤ)
    (ht : t.ndigits = .ok nd) : cleanString U s t = .ok (.strOf (npRound nd x)) := by
  rw [cleanString, ht]
  simp only [bind, Except.bind]
  rw [if_pos (decimal_numeric h hs), (pyFloat_iff h s x).2 hs]
  rfl

/-- C159. The outcome for every string: ValueError exactly for the strings that consist of numeric characters and at most one
point without being a decimal number; all other strings that are no decimal numbers are returned as they are. -/
theorem C159_outcome_partial {U : CharTable} (h : CharsOk U) (s : List Char) (hs : ∀ x, ¬ IsPlainDecimal U s x) (t : Threshold)
    (nd : ℤ) (ht : t.ndigits = .ok nd) :
    cleanString U s t = if s.erase '.' ≠ [] ∧ ∀ c ∈ s.erase '.', U.isNumeric c = true then .error .valueError
      else .ok (.str (String.ofList s)) := by
  rw [cleanString, ht]
  simp only [bind, Except.bind, List.all_eq_true]
  split_ifs with hc
  · rcases pyFloat_error (U := U) s with ⟨x, hx⟩ | hx
    · exact absurd ((pyFloat_iff h s x).1 hx) (hs x)
    · rw [hx]
  · rfl

/-- C159. A string with an ASCII character other than digits and the point, such as a sign, a blank or the `e` of an exponent,
is returned as it is, and so is one with two points. -/
theorem C159_unchanged {U : CharTable} (h : CharsOk U) (s : List Char)
    (hs : (∃ c ∈ s, c.toNat < 128 ∧ c.isDigit = false ∧ c ≠ '.') ∨ 2 ≤ s.count '.') (t : Threshold) (nd : ℤ)
    (ht : t.ndigits = .ok nd) : cleanString U s t = .ok (.str (String.ofList s)) := by
  rw [cleanString, ht]
  simp only [bind, Except.bind]
  rw [if_neg]
  · rfl
  rintro ⟨-, hall⟩
  rw [List.all_eq_true] at hall
  rcases hs with ⟨c, hc, ha, hd, hne⟩ | hs
  · have := h.ascii c ha (hall c ((List.mem_erase_of_ne hne).2 hc))
    rw [hd] at this
    exact absurd this (by simp)
  · have h1 : '.' ∈ s.erase '.' := by
      rw [← List.count_pos_iff, List.count_erase_self]; omega
    have := hall _ h1
    rw [dot_not_numeric h] at this
    exact absurd this (by simp)

/-- C159. An ASCII string never raises: it is a decimal number or returned as it is. -/
theorem C159_ascii_partial {U : CharTable} (h : CharsOk U) (s : List Char) (hs : ∀ c ∈ s, c.toNat < 128) (t : Threshold)
    (nd : ℤ) (ht : t.ndigits = .ok nd) :
    (∃ x, IsPlainDecimal U s x ∧ cleanString U s t = .ok (.strOf (npRound nd x))) ∨
      (∀ x, ¬ IsPlainDecimal U s x) ∧ cleanString U s t = .ok (.str (String.ofList s)) := by
  by_cases hx : ∃ x, IsPlainDecimal U s x
  · obtain ⟨x, hx⟩ := hx
    exact Or.inl ⟨x, hx, C159_decimal h s x hx t nd ht⟩
  · push Not at hx
    refine Or.inr ⟨hx, ?_⟩
    rw [C159_outcome_partial h s hx t nd ht, if_neg]
    rintro ⟨hne, hall⟩
    have hdig : ∀ c ∈ s.erase '.', ∃ d, U.decimal c = some d := by
      intro c hc
      have h1 := h.ascii c (hs c (List.mem_of_mem_erase hc)) (hall c hc)
      obtain ⟨d, hd, rfl⟩ := digit_char h1
      exact ⟨d, h.digit d hd⟩
    obtain ⟨ds, hds⟩ := reads_exists hdig
    by_cases hdot : '.' ∈ s
    · obtain ⟨w, f, rfl, hw⟩ := split_at_dot hdot
      rw [List.erase_append_right _ hw, List.erase_cons_head] at hds hne
      obtain ⟨a, b, rfl, ha, hb⟩ := reads_split hds
      refine hx _ ⟨w, f, a, b, Or.inl rfl, ha, hb, ?_, rfl⟩
      intro h0
      rw [h0] at hds
      cases hwf : w ++ f with
      | nil => exact hne hwf
      | cons c l => rw [hwf] at hds; cases hds
    · rw [List.erase_of_not_mem hdot] at hds hne
      refine hx _ ⟨s, [], ds, [], Or.inr ⟨rfl, rfl⟩, hds, .nil, ?_, rfl⟩
      rintro h0
      rw [List.append_nil] at h0
      subst h0
      cases hds
      exact hne rfl

/-- C159 is false for the string that consists of the character one half: `isnumeric` holds, but `float` raises ValueError.
A negative number below the threshold is returned as it is. -/
theorem C159_violation {U : CharTable} (h : CharsOk U) :
    cleanString U ['½'] (.int 6) = .error .valueError ∧
    cleanString U "-0.00000000001".toList (.int 6) = .ok (.str "-0.00000000001") ∧
    cleanString U "0.00000000001".toList (.int 6) = .ok (.strOf 0) := by
  refine ⟨?_, ?_, ?_⟩
  · rw [C159_outcome_partial h _ _ _ 6 rfl, if_pos]
    · refine ⟨by decide, fun c hc => ?_⟩
      obtain rfl : c = '½' := by simpa using List.mem_of_mem_erase hc
      exact h.half.1
    · rintro x hx
      have := (pyFloat_iff h _ x).2 hx
      simp [pyFloat, h.half.2] at this
  · exact C159_unchanged h _ (Or.inl ⟨'-', by decide, by decide, by decide, by decide⟩) _ 6 rfl
  · have hd : ∀ d < 10, ∀ c, c = Nat.digitChar d → U.decimal c = some d := fun d hd c hc => hc ▸ h.digit d hd
    have h0 := hd 0 (by norm_num) '0' rfl
    have h1 := hd 1 (by norm_num) '1' rfl
    rw [C159_decimal h _ (1 / 10 ^ 11) _ _ 6 rfl]
    · congr 2
      rw [npRound, rint_zero_of_small]
      · simp
      · rw [abs_of_nonneg (by positivity)]; norm_num
    · refine ⟨['0'], ['0', '0', '0', '0', '0', '0', '0', '0', '0', '0', '1'], [0], [0, 0, 0, 0, 0, 0, 0, 0, 0, 0, 1],
        Or.inl rfl, ?_, ?_, by decide, ?_⟩
      · exact .cons h0 .nil
      · repeat' first | exact .nil | refine .cons h0 ?_ | refine .cons h1 ?_
      · norm_num [Nat.ofDigits]

/-- C159. Where the string is not rejected, this is the model of `clean` of the other properties. -/
theorem C159_agrees {U : CharTable} (h : CharsOk U) (s : List Char) (t : Threshold) :
    cleanString U s t = clean (.str none (String.ofList s)) t ∨ (∃ x, IsPlainDecimal U s x ∧
      cleanString U s t = clean (.str (some x) (String.ofList s)) t) ∨
      (∀ x, ¬ IsPlainDecimal U s x) ∧ ∃ nd, t.ndigits = .ok nd ∧ cleanString U s t = .error .valueError := by
  rcases ht : t.ndigits with e | nd
  · left
    rw [cleanString, clean, ht]; rfl
  by_cases hx : ∃ x, IsPlainDecimal U s x
  · obtain ⟨x, hx⟩ := hx
    right; left
    refine ⟨x, hx, ?_⟩
    rw [C159_decimal h s x hx t nd ht, clean, ht]; rfl
  · push Not at hx
    rw [C159_outcome_partial h s hx t nd ht]
    split_ifs
    · exact Or.inr (Or.inr ⟨hx, nd, rfl, rfl⟩)
    · left; rw [clean, ht]; rfl

/-- A table that meets the hypotheses: the ASCII digits and the character one half. -/
def demoChars : CharTable where
  isNumeric c := c.isDigit || c == '½'
  decimal c := if c.isDigit then some (c.toNat - 48) else none

example : CharsOk demoChars ∧ IsPlainDecimal demoChars "12.5".toList 12.5 where
  left := {
    numeric := fun c d hd => by
      by_cases hc : c.isDigit = true
      · obtain ⟨k, hk, rfl⟩ := digit_char hc
        simp only [demoChars, hc, if_true, Option.some.injEq] at hd ⊢
        refine ⟨rfl, ?_⟩
        rw [← hd]
        interval_cases k <;> decide
      · simp [demoChars, hc] at hd
    digit := by decide
    ascii := fun c h1 h2 => by
      simp only [demoChars, Bool.or_eq_true, beq_iff_eq] at h2
      rcases h2 with h2 | rfl
      · exact h2
      · revert h1; decide
    half := by decide }
  right := ⟨['1', '2'], ['5'], [1, 2], [5], Or.inl rfl, .cons rfl (.cons rfl .nil), .cons rfl .nil, by decide,
    by norm_num [Nat.ofDigits]⟩

end FF.Props
