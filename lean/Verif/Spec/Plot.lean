import Verif.Model.Plot
import Verif.Spec.Distance
import Mathlib.LinearAlgebra.Matrix.Charpoly.Basic

/-! # Specification: eigenvalue lists, Clifford unitaries and the contract of stim -/

namespace FF.Spec

open Matrix

/-- `l` lists the eigenvalues of `ρ` with multiplicity, in descending order. -/
def IsSpectrum {d : ℕ} (ρ : Matrix (Fin d) (Fin d) ℂ) (l : Fin d → ℝ) : Prop :=
  Antitone l ∧ ρ.charpoly = ∏ i, (Polynomial.X - Polynomial.C ((l i : ℝ) : ℂ))

/-- A Clifford unitary on `n` qubits: conjugation maps every Pauli string to a Pauli string, up to sign. -/
def IsClifford {n : ℕ} (V : Matrix (Fin (2 ^ n)) (Fin (2 ^ n)) ℂ) : Prop :=
  V * Vᴴ = 1 ∧ ∀ w : Fin n → Fin 4, ∃ w', Vᴴ * pauliString w * V = pauliString w' ∨
    Vᴴ * pauliString w * V = -pauliString w'

/-- The vector `ψ` is a stabilizer state: a Clifford unitary applied to the first basis vector. -/
def IsStabilizerVec {n : ℕ} (ψ : Fin (2 ^ n) → ℂ) : Prop :=
  ∃ V : Matrix (Fin (2 ^ n)) (Fin (2 ^ n)) ℂ, IsClifford V ∧ ∀ i, ψ i = V i ⟨0, by positivity⟩

/-- The contract of stim: the vector of a random tableau is a stabilizer state. -/
def StimOk {σ : Type} (stim : Stim σ) : Prop := ∀ n s, 1 ≤ n → IsStabilizerVec (stim.stateVector n s).1

end FF.Spec
