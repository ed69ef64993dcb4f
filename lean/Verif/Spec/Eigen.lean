import Mathlib.Data.Matrix.Mul
import Mathlib.Data.Real.Basic
import Mathlib.Algebra.Order.Group.Abs
import Mathlib.LinearAlgebra.Matrix.Notation
import Mathlib.Analysis.Complex.Basic

/-! # Specification: what the external eigenvalue and sorting routines return, and eigenvalue forms -/

namespace FF.Spec

open Matrix

/-- The contract of `T, Z = scipy.linalg.schur(M)` for a real array: `Z` is orthogonal, `M = Z T Z^T`, and
`T` is quasi-upper-triangular, i.e. zero below the subdiagonal with no two consecutive non-zero
subdiagonal entries. -/
structure IsRealSchur {m : ℕ} (M T Z : Matrix (Fin m) (Fin m) ℝ) : Prop where
  orth : Z * Zᵀ = 1
  decomp : Z * T * Zᵀ = M
  quasi : ∀ i j : Fin m, (j : ℕ) + 1 < i → T i j = 0
  blocks : ∀ i j k : Fin m, (j : ℕ) = i + 1 → (k : ℕ) = j + 1 → T j i = 0 ∨ T k j = 0

/-- The contract of `schur(M, sort=f)` for a real skew-symmetric array, where `f` selects the eigenvalues of
modulus above `ε`: a real Schur form in which the selected eigenvalues come first. For a skew-symmetric
array `T` is skew-symmetric, hence made of 1 x 1 zero blocks and 2 x 2 blocks `[[0, t], [-t, 0]]` with
eigenvalues `± i t`; so the eigenvalue in position `i` is selected exactly if row `i` contains an entry of
modulus above `ε`. -/
structure IsSortedSchur {m : ℕ} (ε : ℝ) (M T Z : Matrix (Fin m) (Fin m) ℝ) : Prop
    extends IsRealSchur M T Z where
  sorted : ∀ i j : Fin m, i ≤ j → (∀ k, |T i k| ≤ ε) → ∀ k, |T j k| ≤ ε

/-- The contract of `np.argsort(v)`: a permutation of the indices that sorts `v`. -/
structure IsArgsort {n : ℕ} (v : Fin n → ℝ) (p : Fin n → ℕ) : Prop where
  lt : ∀ i, p i < n
  inj : Function.Injective p
  sorted : ∀ i j : Fin n, i ≤ j → v ⟨p i, lt i⟩ ≤ v ⟨p j, lt j⟩

/-- The standard eigenvalue form `diag(-Σ, Σ)`. -/
def standardForm {n : ℕ} (sig : Fin n → ℝ) : Matrix (Fin (n + n)) (Fin (n + n)) ℂ :=
  Matrix.diagonal (Fin.append (fun i => ((-sig i : ℝ) : ℂ)) (fun i => ((sig i : ℝ) : ℂ)))

/-- The Y-form `[[0, Σ], [-Σ, 0]]` (up to the sign of `Σ`). -/
def yForm {n : ℕ} (sig : Fin n → ℝ) : Matrix (Fin (n + n)) (Fin (n + n)) ℂ :=
  Matrix.of fun x y => Fin.addCases
    (fun i => Fin.addCases (fun _ => 0) (fun j => if i = j then ((sig i : ℝ) : ℂ) else 0) y)
    (fun i => Fin.addCases (fun j => if i = j then ((-sig i : ℝ) : ℂ) else 0) (fun _ => 0) y) x

/-- A direct sum of 2 x 2 antisymmetric blocks. -/
def IsBlockSkew {m : ℕ} (L : Matrix (Fin m) (Fin m) ℂ) : Prop :=
  Lᵀ = -L ∧ ∀ i j : Fin m, (i : ℕ) / 2 ≠ (j : ℕ) / 2 → L i j = 0

end FF.Spec
