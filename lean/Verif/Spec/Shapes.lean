import Verif.Model.Shapes

/-!
# Specification: arrays of unexpected shapes
-/

namespace FF.Spec

/-- The `n x n` block that an array of a smaller or padded shape stands for: an `n x n` array itself, an
`n x 1` array repeated in every column, a vector of length `n` repeated in every row, or a single number
in every place; any number of axes of length 1 may stand in front. -/
inductive Fills (n : ℕ) (A : NdArr) (M : Op n) : Prop
  | full (k : ℕ) (hs : A.shape = List.replicate k 1 ++ [n, n])
      (hv : ∀ i j : Fin n, M i j = A.val (List.replicate k 0 ++ [(i : ℕ), (j : ℕ)]))
  | column (k : ℕ) (hs : A.shape = List.replicate k 1 ++ [n, 1])
      (hv : ∀ i j : Fin n, M i j = A.val (List.replicate k 0 ++ [(i : ℕ), 0]))
  | row (k : ℕ) (hs : A.shape = List.replicate k 1 ++ [n])
      (hv : ∀ i j : Fin n, M i j = A.val (List.replicate k 0 ++ [(j : ℕ)]))
  | const (k : ℕ) (hs : A.shape = List.replicate k 1)
      (hv : ∀ i j : Fin n, M i j = A.val (List.replicate k 0))

/-- The array `A` has the shape and the values of the matrix `M`. -/
def Holds {m k : ℕ} (A : Arr2) (M : Matrix (Fin m) (Fin k) ℂ) : Prop :=
  A.rows = m ∧ A.cols = k ∧ ∀ (i : Fin m) (j : Fin k), A.val i j = M i j

/-- The square array of size `d` with the entries of `rho`: rows and columns beyond `d` are dropped, missing
ones are filled with zeros. -/
def resize (rho : Arr2) (d : ℕ) : Op d :=
  Matrix.of fun i j => if (i : ℕ) < rho.rows ∧ (j : ℕ) < rho.cols then rho.val i j else 0

end FF.Spec
