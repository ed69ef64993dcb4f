import Mathlib.Data.Matrix.Basic
import Mathlib.Data.Matrix.Mul

/-!
# Basic vocabulary of the model

Python values used everywhere: exceptions, arrays and their accesses.

* `PyErr` are the exceptions the modelled code can raise (directly, or through numpy).
* A two-dimensional numpy array of shape `(m, n)` is `Matrix (Fin m) (Fin n) K`; the shape is thus
  an ordinary pair of numbers the code can test.
* `get2 A i j` is the subscript `A[i, j]` with natural number subscripts (numpy raises `IndexError`
  when out of bounds).
-/

namespace FF

/-- Exceptions raised by the modelled code. -/
inductive PyErr where
  | valueError
  | typeError
  | assertionError
  | indexError
  | zeroDivisionError
  | linAlgError
  | attributeError
  | keyError
  | networkXError
  | overflowError
  | importError
  /-- not a Python exception: a `while` loop of the model used up its bound on the number of iterations -/
  | outOfFuel
  deriving DecidableEq, Repr

/-- `l[i]` on a Python list or tuple, for `i ≥ 0`. -/
def listGet {α : Type} (l : List α) (i : ℕ) : Except PyErr α :=
  match l[i]? with
  | some x => .ok x
  | none => .error .indexError

/-- `A[i, j]` on a 2-D numpy array, for `i, j ≥ 0`. -/
def get2 {K : Type} {m n : ℕ} (A : Matrix (Fin m) (Fin n) K) (i j : ℕ) : Except PyErr K :=
  if h : i < m ∧ j < n then .ok (A ⟨i, h.1⟩ ⟨j, h.2⟩) else .error .indexError

/-- `itertools.permutations(l, k)`: `k`-permutations in the (lexicographic by position) order in which
`itertools` emits them: pick each position in turn as head, then permute what is left. -/
def permutationsAux {α : Type} : ℕ → List α → List (List α)
  | 0, _ => [[]]
  | k + 1, l => (List.range l.length).flatMap fun i =>
      match l[i]? with
      | some x => (permutationsAux k (l.eraseIdx i)).map (x :: ·)
      | none => []

/-- `itertools.permutations(l)`. -/
def permutations {α : Type} (l : List α) : List (List α) := permutationsAux l.length l

end FF
