import Verif.Model.MachineOps

/-! # What is assumed about the matrix products of numpy, and floats -/

namespace FF.Spec

/-- Every product of parts is added exactly once, in any order. -/
def IsPlan {d : ℕ} (p : MatmulPlan d) : Prop := ∀ i j b, (p.tree i j b).leaves.Nodup ∧ ∀ k, k ∈ (p.tree i j b).leaves

/-- The number is a complex float: both parts have at most 53 binary digits. -/
def IsFloat (z : ℂ) : Prop := (∃ (a e : ℤ), |a| ≤ 2 ^ 53 ∧ z.re = a * 2 ^ e) ∧ ∃ (a e : ℤ), |a| ≤ 2 ^ 53 ∧ z.im = a * 2 ^ e

end FF.Spec
