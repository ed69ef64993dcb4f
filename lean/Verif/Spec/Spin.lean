import Verif.Spec.Operators
import Mathlib.Analysis.Real.Sqrt

/-! # Specification: spin chains -/

namespace FF.Spec

/-- The word with the letter `c` at place `i` and the identity everywhere else. -/
def oneSite {n : ℕ} (i : Fin n) (c : Fin 4) : Fin n → Fin 4 := fun j => if j = i then c else 0

/-- The word with the letter `c` at the places `i` and `i + 1` and the identity everywhere else. -/
def onBond {n : ℕ} (i : Fin n) (c : Fin 4) : Fin n → Fin 4 := fun j =>
  if (j : ℕ) = i ∨ (j : ℕ) = i + 1 then c else 0

/-- The word with `Z` at the places before `i`, the letter `c` at `i` and the identity after it. -/
def jwWord {n : ℕ} (i : Fin n) (c : Fin 4) : Fin n → Fin 4 := fun j => if j < i then 3 else if j = i then c else 0

/-- The product state in which the spin at site `i` points along `+x` (`s i = 0`) or `-x` (`s i = 1`). -/
noncomputable def xState {n : ℕ} (s : Fin n → Fin 2) : Fin (2 ^ n) → ℂ := fun x =>
  ∏ i, (-1) ^ ((s i : ℕ) * (digit 2 n x i : ℕ)) / (Real.sqrt 2 : ℂ)

/-- `+1` or `-1`. -/
def spin (s : Fin 2) : ℝ := if s = 0 then 1 else -1

end FF.Spec
