import Verif.Spec.Operators
import Mathlib.LinearAlgebra.Matrix.ConjTranspose
import Mathlib.Analysis.Complex.Basic

/-! # Specification: quadratic forms in a family of operators -/

namespace FF.Spec

open Matrix

/-- The matrix with all entries of modulus below `ε` replaced by zero. -/
noncomputable def dropSmall {m n : ℕ} (ε : ℝ) (M : Matrix (Fin m) (Fin n) ℂ) : Matrix (Fin m) (Fin n) ℂ :=
  open Classical in Matrix.of fun i j => if ‖M i j‖ < ε then 0 else M i j

/-- `Σ_ij R_ij f_i† f_j`. -/
def quad {m d : ℕ} (R : Matrix (Fin m) (Fin m) ℂ) (f : Fin m → Matrix (Fin d) (Fin d) ℂ) :
    Matrix (Fin d) (Fin d) ℂ :=
  ∑ i, ∑ j, R i j • ((f i)ᴴ * f j)

/-- `Σ_ij R_ij f_i f_j`. -/
def quadDirect {m d : ℕ} (R : Matrix (Fin m) (Fin m) ℂ) (f : Fin m → Matrix (Fin d) (Fin d) ℂ) :
    Matrix (Fin d) (Fin d) ℂ :=
  ∑ i, ∑ j, R i j • (f i * f j)

/-- The matrix `[[0, I], [I, 0]]`. -/
def swap (n : ℕ) : Matrix (Fin (n + n)) (Fin (n + n)) ℂ :=
  Matrix.of fun i j => if (j : ℕ) = i + n ∨ (i : ℕ) = j + n then 1 else 0

/-- `U S U^T = S` with `S` the matrix above. -/
def IsSymplectic {n : ℕ} (U : Matrix (Fin (n + n)) (Fin (n + n)) ℂ) : Prop := U * swap n * Uᵀ = swap n

/-- The four blocks of a matrix of even size (rows of the half given first). -/
def block {n : ℕ} (M : Matrix (Fin (n + n)) (Fin (n + n)) ℂ) (r c : Fin 2) : Matrix (Fin n) (Fin n) ℂ :=
  Matrix.of fun i j => M ⟨r * n + i, by have := i.2; have := r.2; nlinarith⟩
    ⟨c * n + j, by have := j.2; have := c.2; nlinarith⟩

/-- Fermion parity: the diagonal matrix of the signs `(-1)^(number of occupied sites)`. -/
def parity (n : ℕ) : Matrix (Fin (2 ^ n)) (Fin (2 ^ n)) ℂ :=
  Matrix.diagonal fun x => (-1) ^ (∑ i : Fin n, (digit 2 n x i : ℕ))

/-- An exact parity-preserving matchgate: zero between the even (0, 3) and the odd (1, 2) basis states, with
equal determinants of the two blocks. -/
def ExactMatchgate (M : Matrix (Fin 4) (Fin 4) ℂ) : Prop :=
  (M 0 1 = 0 ∧ M 0 2 = 0 ∧ M 1 0 = 0 ∧ M 2 0 = 0 ∧ M 3 1 = 0 ∧ M 3 2 = 0 ∧ M 1 3 = 0 ∧ M 2 3 = 0) ∧
    M 1 1 * M 2 2 - M 1 2 * M 2 1 = M 0 0 * M 3 3 - M 0 3 * M 3 0

end FF.Spec
