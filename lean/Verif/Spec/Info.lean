import Verif.Spec.Distance

/-! # Specification: processing of random outcomes -/

namespace FF.Spec

/-- `W i j` is the probability that outcome `i` is turned into outcome `j`. -/
structure IsChannel {d e : ℕ} (W : Fin d → Fin e → ℝ) : Prop where
  nonneg : ∀ i j, 0 ≤ W i j
  sum_one : ∀ i, ∑ j, W i j = 1

/-- The distribution of the processed outcome. -/
def push {d e : ℕ} (W : Fin d → Fin e → ℝ) (p : Fin d → ℝ) : Fin e → ℝ := fun j => ∑ i, p i * W i j

/-- The channel maps the uniform distribution to itself. -/
def Unital {d : ℕ} (W : Fin d → Fin d → ℝ) : Prop := ∀ j, ∑ i, W i j = 1

end FF.Spec
