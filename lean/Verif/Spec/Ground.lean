import Mathlib.LinearAlgebra.Matrix.Hermitian
import Mathlib.LinearAlgebra.Matrix.ToLin
import Mathlib.Analysis.Complex.Basic

/-! # Specification: ground states -/

namespace FF.Spec

open Matrix

/-- `E` is the lowest energy of the Hamiltonian `Q`: the least real eigenvalue. -/
def IsGroundEnergy {d : ℕ} (Q : Matrix (Fin d) (Fin d) ℂ) (E : ℝ) : Prop :=
  IsLeast {E : ℝ | ∃ v : Fin d → ℂ, v ≠ 0 ∧ Q *ᵥ v = (E : ℂ) • v} E

/-- `P` is the orthogonal projector onto the ground states of `Q`: it is Hermitian and idempotent, and the vectors it
leaves unchanged are the eigenvectors of lowest energy (and 0). -/
structure IsGroundProjector {d : ℕ} (Q P : Matrix (Fin d) (Fin d) ℂ) : Prop where
  herm : P.IsHermitian
  idem : P * P = P
  range : ∃ E : ℝ, IsGroundEnergy Q E ∧ ∀ v : Fin d → ℂ, P *ᵥ v = v ↔ Q *ᵥ v = (E : ℂ) • v

end FF.Spec
