import Mathlib.LinearAlgebra.Matrix.PosDef
import Mathlib.Analysis.Matrix.PosDef
import Mathlib.Analysis.Complex.Basic

/-! # Specification: states and probability distributions -/

namespace FF.Spec

open Matrix
open scoped ComplexOrder

/-- A density matrix: positive semidefinite (hence Hermitian) with trace one. -/
structure IsDensity {n : ℕ} (ρ : Matrix (Fin n) (Fin n) ℂ) : Prop where
  psd : ρ.PosSemidef
  trace_one : ρ.trace = 1

/-- A unit vector (normalised wavefunction). -/
def IsUnitVec {n : ℕ} (ψ : Fin n → ℂ) : Prop := ∑ i, ‖ψ i‖ ^ 2 = 1

/-- A probability distribution. -/
structure IsProb {n : ℕ} (p : Fin n → ℝ) : Prop where
  nonneg : ∀ i, 0 ≤ p i
  sum_one : ∑ i, p i = 1

/-- The projector `|ψ><ψ|`. -/
def proj {n : ℕ} (ψ : Fin n → ℂ) : Matrix (Fin n) (Fin n) ℂ :=
  Matrix.of fun i j => ψ i * star (ψ j)

end FF.Spec
