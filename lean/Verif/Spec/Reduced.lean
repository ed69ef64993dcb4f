import Mathlib.Data.Fin.Basic
import Mathlib.Data.Fin.SuccPred

/-! # Specification: the operators of the first and of the last sites of a chain -/

namespace FF.Spec

/-- Of the `2(a+b)` operators of a chain (creation operators of all sites, then annihilation operators), the positions of
those of the first `a` sites, in the same order. -/
def firstSites (a b : ℕ) : Fin (a + a) → Fin ((a + b) + (a + b)) :=
  Fin.addCases (fun i => Fin.castAdd (a + b) (Fin.castAdd b i)) (fun i => Fin.natAdd (a + b) (Fin.castAdd b i))

/-- The positions of those of the last `b` sites. -/
def lastSites (a b : ℕ) : Fin (b + b) → Fin ((a + b) + (a + b)) :=
  Fin.addCases (fun i => Fin.castAdd (a + b) (Fin.natAdd a i)) (fun i => Fin.natAdd (a + b) (Fin.natAdd a i))

end FF.Spec
