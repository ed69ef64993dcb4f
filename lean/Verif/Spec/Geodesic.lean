import Verif.Spec.Random
import Mathlib.Analysis.SpecialFunctions.Trigonometric.Inverse

/-! # Specification for C160: the great circle arc between two unit vectors -/

namespace FF.Spec

/-- The great circle arc from the unit vector `x` to the unit vector `y`, run through with constant speed. -/
noncomputable def greatArc {n : ℕ} (x y : Fin n → ℂ) (t : ℝ) : Fin n → ℂ :=
  let θ := Real.arccos (inner x y).re
  ((Real.sin ((1 - t) * θ) / Real.sin θ : ℝ) : ℂ) • x + ((Real.sin (t * θ) / Real.sin θ : ℝ) : ℂ) • y

end FF.Spec
