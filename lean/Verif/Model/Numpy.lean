import Verif.Model.Basic
import Mathlib.Analysis.Matrix.Spectrum
import Mathlib.Analysis.Complex.Basic
import Mathlib.Analysis.SpecialFunctions.Log.Base

/-!
# Model of the numpy functions the code relies on

Exact real / complex arithmetic replaces floating point.
-/

namespace FF

open scoped ComplexConjugate

/-- `np.isclose(a, b)` with default tolerances `rtol=1e-5, atol=1e-8`:
`|a - b| <= atol + rtol * |b|` (not symmetric in `a` and `b`). -/
def isclose (a b : ℂ) : Prop := ‖a - b‖ ≤ 1e-8 + 1e-5 * ‖b‖

/-- `np.allclose(A, B)` for two arrays of the same shape. -/
def allclose {m n : ℕ} (A B : Matrix (Fin m) (Fin n) ℂ) : Prop := ∀ i j, isclose (A i j) (B i j)

/-- `np.allclose(a, b)` for two 1-D arrays of the same length. -/
def allclose1 {n : ℕ} (a b : Fin n → ℂ) : Prop := ∀ i, isclose (a i) (b i)

/-- `np.round(x)` for a real number: round half to even. -/
noncomputable def rint (x : ℝ) : ℤ :=
  if Int.fract x < 1 / 2 then ⌊x⌋
  else if Int.fract x > 1 / 2 then ⌊x⌋ + 1
  else if Even ⌊x⌋ then ⌊x⌋ else ⌊x⌋ + 1

/-- `np.round(x, ndigits)` for a real number. -/
noncomputable def npRound (ndigits : ℤ) (x : ℝ) : ℝ := rint (x * 10 ^ ndigits) / 10 ^ ndigits

/-- `np.round(z, ndigits)` for a complex number: both parts are rounded. -/
noncomputable def npRoundC (ndigits : ℤ) (z : ℂ) : ℂ := ⟨npRound ndigits z.re, npRound ndigits z.im⟩

/-- The Hermitian matrix that `np.linalg.eigvalsh(A)` (default `UPLO='L'`) works on: it only reads the
lower triangle of `A`, and takes the diagonal to be real. -/
noncomputable def lowerHerm {n : ℕ} (A : Matrix (Fin n) (Fin n) ℂ) : Matrix (Fin n) (Fin n) ℂ :=
  Matrix.of fun i j => if j < i then A i j else if i < j then conj (A j i) else ((A i i).re : ℂ)

theorem lowerHerm_isHermitian {n : ℕ} (A : Matrix (Fin n) (Fin n) ℂ) :
    (lowerHerm A).IsHermitian := by
  ext i j
  simp only [Matrix.conjTranspose_apply, lowerHerm, Matrix.of_apply]
  rcases lt_trichotomy i j with h | h | h
  · simp [h, not_lt.2 h.le]
  · subst h; simp
  · simp [h, not_lt.2 h.le]

/-- `np.linalg.eigvalsh(A)`: the eigenvalues in ascending order (Mathlib's `eigenvalues₀` is
descending, hence the reversal). -/
noncomputable def eigvalsh {n : ℕ} (A : Matrix (Fin n) (Fin n) ℂ) : Fin n → ℝ := fun i =>
  (lowerHerm_isHermitian A).eigenvalues₀ (Fin.cast (by simp) i.rev)

/-- `np.kron(A, B)`: entry `(i, j)` is `A[i // p, j // q] * B[i % p, j % q]`. -/
def npKron {K : Type} [Mul K] {m n p q : ℕ} (A : Matrix (Fin m) (Fin n) K)
    (B : Matrix (Fin p) (Fin q) K) : Matrix (Fin (m * p)) (Fin (n * q)) K :=
  Matrix.of fun i j => A i.divNat j.divNat * B i.modNat j.modNat

/-- `np.trace(A)` for a square array. -/
def npTrace {n : ℕ} (A : Matrix (Fin n) (Fin n) ℂ) : ℂ := ∑ i, A i i

end FF
