import Verif.Model.MachineSum

/-! # What is assumed about the order in which numpy adds up an array -/

namespace FF.Spec

/-- A way to add up `n` numbers: every number is added exactly once, and goes through at most `n` additions. Both the loop from the left
and pairwise summation are of this kind. -/
def IsSumOrder {n : ℕ} (t : SumTree (Fin n)) : Prop := t.leaves.Perm (List.finRange n) ∧ t.depth ≤ n

end FF.Spec
