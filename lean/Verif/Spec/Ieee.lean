import Mathlib.Data.Real.Basic
import Mathlib.Algebra.Order.Field.Power

/-! # The finite 64-bit floats -/

namespace FF.Spec

/-- A finite 64-bit float: a multiple `m * 2^q` of a power of two that is at least `2^-1074`, with fewer than 54 binary digits, of
size less than `2^1024`. -/
def IsDouble (y : ℝ) : Prop := |y| < 2 ^ (1024 : ℕ) ∧ ∃ m q : ℤ, |m| < 2 ^ 53 ∧ -1074 ≤ q ∧ y = m * 2 ^ q

end FF.Spec
