import Verif.Model.Rng
import Verif.Spec.Quantum
import Verif.Spec.Coefficients
import Mathlib.Analysis.Normed.Algebra.MatrixExponential

/-! # Specification: contracts of the random draws and of `logm`, `qr` -/

namespace FF.Spec

open Matrix

/-- What the draws of the random generator satisfy: `special_ortho_group` gives real orthogonal matrices with
determinant one, `unitary_group` unitary matrices, `dirichlet` probability distributions, `exponential` non-negative
numbers, `randint(k)` integers below `k`. -/
structure DrawsOk {σ : Type} (rng : Rng σ) : Prop where
  orthogonal : ∀ m s, (rng.orthogonal m s).1 * ((rng.orthogonal m s).1)ᵀ = 1
  orthogonal_det : ∀ m s, (rng.orthogonal m s).1.det = 1
  unitary : ∀ d s, (rng.unitary d s).1 * ((rng.unitary d s).1)ᴴ = 1
  dirichlet : ∀ d, 0 < d → ∀ s, IsProb (rng.dirichlet d s).1
  exponential : ∀ s, 0 ≤ (rng.exponential s).1
  randint : ∀ k, 0 < k → ∀ s, (rng.randint k s).1 < k

/-- The contract of `L = scipy.linalg.logm(C)`: `exp(L) = C`, and the eigenvalues of `L` have imaginary part in
`(-π, π]` (principal branch). -/
structure IsPrincipalLog {d : ℕ} (C L : Matrix (Fin d) (Fin d) ℂ) : Prop where
  exp_eq : NormedSpace.exp L = C
  strip : ∀ (μ : ℂ) (v : Fin d → ℂ), v ≠ 0 → L *ᵥ v = μ • v → -Real.pi < μ.im ∧ μ.im ≤ Real.pi

/-- The contract of `logm` on unitary arrays of every size. -/
def LogmOk (logm : (d : ℕ) → Matrix (Fin d) (Fin d) ℂ → Matrix (Fin d) (Fin d) ℂ) : Prop :=
  ∀ (d : ℕ) (C : Matrix (Fin d) (Fin d) ℂ), C * Cᴴ = 1 → IsPrincipalLog C (logm d C)

/-- `s0` is the state from which a function called with `seed` in state `s` makes its first draw: `s` itself if
`seed` is None, the seeded state if `seed` is in `0 .. 2^32 - 1`. -/
def StartState {σ : Type} (rng : Rng σ) (seed : Option ℤ) (s s0 : σ) : Prop :=
  (seed = none ∧ s0 = s) ∨ ∃ k : ℕ, k < 2 ^ 32 ∧ seed = some (k : ℤ) ∧ s0 = rng.seeded k

/-- The outcome does not depend on the state of the generator. -/
def Reproducible {σ α : Type} (m : Rand σ α) : Prop := ∀ s s' : σ, (m.exec s).1 = (m.exec s').1

/-- `-1` is not an eigenvalue, so that the principal logarithm is unique. -/
def NoMinusOne {d : ℕ} (C : Matrix (Fin d) (Fin d) ℂ) : Prop := ∀ v : Fin d → ℂ, C *ᵥ v = -v → v = 0

/-- The contract of `Q, R = np.linalg.qr(A)` for a square array: `Q` unitary, `R` upper triangular, `A = Q R`. -/
structure IsQR {n : ℕ} (A Q R : Matrix (Fin n) (Fin n) ℂ) : Prop where
  unitary : Qᴴ * Q = 1
  upper : ∀ i j : Fin n, j < i → R i j = 0
  decomp : Q * R = A

/-- `Σ_i conj(x_i) y_i`. -/
def inner {n : ℕ} (x y : Fin n → ℂ) : ℂ := ∑ i, star (x i) * y i

end FF.Spec
