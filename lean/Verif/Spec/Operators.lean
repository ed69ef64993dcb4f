import Mathlib.Data.Complex.Basic
import Mathlib.Data.Matrix.Mul
import Mathlib.LinearAlgebra.Matrix.Notation
import Mathlib.Data.Fintype.BigOperators

/-! # Specification: Pauli strings and Fock space, in terms of digits of basis indices -/

namespace FF.Spec

/-- The `i`-th of the `n` base-`b` digits of `x`, digit 0 being the most significant. -/
def digit (b : ℕ) [NeZero b] (n x : ℕ) (i : Fin n) : Fin b := Fin.ofNat b (x / b ^ (n - 1 - (i : ℕ)))

/-- The four Pauli matrices I, X, Y, Z. -/
def pauli : Fin 4 → Matrix (Fin 2) (Fin 2) ℂ :=
  ![!![1, 0; 0, 1], !![0, 1; 1, 0], !![0, -Complex.I; Complex.I, 0], !![1, 0; 0, -1]]

/-- Their names. -/
def pauliLetter : Fin 4 → Char := ![('I' : Char), 'X', 'Y', 'Z']

/-- The tensor product of the Pauli matrices named by the word `w`, qubit 0 being the most significant
bit of a basis index. -/
def pauliString {n : ℕ} (w : Fin n → Fin 4) : Matrix (Fin (2 ^ n)) (Fin (2 ^ n)) ℂ :=
  Matrix.of fun x y => ∏ i, pauli (w i) (digit 2 n x i) (digit 2 n y i)

/-- The index of the computational basis vector with occupations `b`, site 0 being the most significant
bit. -/
def basisIndex {n : ℕ} (b : Fin n → Fin 2) : ℕ := ∑ i, (b i : ℕ) * 2 ^ (n - 1 - (i : ℕ))

/-- The computational basis vector with occupations `b`. -/
def fock {n : ℕ} (b : Fin n → Fin 2) : Fin (2 ^ n) → ℂ := fun x => if (x : ℕ) = basisIndex b then 1 else 0

end FF.Spec
