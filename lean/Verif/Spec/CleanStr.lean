import Verif.Model.CleanStr

/-! # Specification: decimal numbers as strings -/

namespace FF.Spec

/-- What is used of the Unicode database: decimal digits are numeric and have values below ten; `0 .. 9` are decimal digits;
no other ASCII character is numeric; the fraction one half (U+00BD) is numeric and no decimal digit. -/
structure CharsOk (U : CharTable) : Prop where
  numeric : ∀ c d, U.decimal c = some d → U.isNumeric c = true ∧ d < 10
  digit : ∀ d < 10, U.decimal (Nat.digitChar d) = some d
  ascii : ∀ c : Char, c.toNat < 128 → U.isNumeric c = true → c.isDigit = true
  half : U.isNumeric '½' = true ∧ U.decimal '½' = none

/-- The characters `cs` are decimal digits with the values `ds`. -/
def Reads (U : CharTable) (cs : List Char) (ds : List ℕ) : Prop := List.Forall₂ (fun c d => U.decimal c = some d) cs ds

/-- `s` is a decimal number without sign and exponent, `ddd` or `ddd.ddd` with at least one digit, of value `x`. -/
def IsPlainDecimal (U : CharTable) (s : List Char) (x : ℝ) : Prop :=
  ∃ (whole frac : List Char) (a b : List ℕ), (s = whole ++ '.' :: frac ∨ s = whole ∧ frac = []) ∧ Reads U whole a ∧
    Reads U frac b ∧ a ++ b ≠ [] ∧ x = Nat.ofDigits 10 (a ++ b).reverse / 10 ^ b.length

end FF.Spec
