import Verif.Model.UtilsText

/-! # Specification vocabulary for C18-C21 -/

namespace FF.Spec

/-- The numbers in an argument of `clean`. -/
def valuesIn : CleanObj → List ℂ
  | .list v => v
  | .array v => v
  | .str (some x) _ => [(x : ℂ)]
  | .str none _ => []
  | .real x => [(x : ℂ)]
  | .complex z => [z]
  | .other => []

/-- The numbers in a result of `clean`. -/
def valuesOut : CleanRes → List ℂ
  | .list v => v
  | .array v => v
  | .strOf x => [(x : ℂ)]
  | .str _ => []
  | .real x => [(x : ℂ)]
  | .complex z => [z]

/-- The argument loses its imaginary parts: it is an array all of whose imaginary parts are below `δ`, or
a complex number whose imaginary part is. -/
def ImagDropped (δ : ℝ) : CleanObj → Prop
  | .array v => ∀ z ∈ v, |z.im| < δ
  | .complex z => |z.im| < δ
  | _ => False

/-- A result of `clean` as a new argument; text is excluded. -/
def asArgument : CleanRes → Option CleanObj
  | .list v => some (.list v)
  | .array v => some (.array v)
  | .real x => some (.real x)
  | .complex z => some (.complex z)
  | .strOf _ => none
  | .str s => some (.str none s)

/-- `s` is a decimal numeral `[-]ddd.ddd` with `p` digits after the point (no point if `p = 0`), the sign
being there iff `neg`, and the absolute value of the number it denotes is `v`. -/
def IsDecimal (p : ℕ) (neg : Prop) (s : List Char) (v : ℝ) : Prop :=
  ∃ sign int frac : List Char,
    s = sign ++ int ++ (if p = 0 then [] else '.' :: frac) ∧
    (neg → sign = ['-']) ∧ (¬ neg → sign = []) ∧
    int ≠ [] ∧ (∀ c ∈ int, c.isDigit) ∧ frac.length = p ∧ (∀ c ∈ frac, c.isDigit) ∧
    v = Nat.ofDigitChars 10 int 0 + Nat.ofDigitChars 10 frac 0 / 10 ^ p

end FF.Spec
