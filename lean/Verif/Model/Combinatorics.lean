import Verif.Model.Basic
import Mathlib.Data.Complex.Basic
import Mathlib.Data.Nat.Factorial.Basic

/-!
# Model of `src/ff/ff_combinatorics.py`

Numbers are elements of a commutative ring `K` (a field for `pf` and `hf`, which divide); the code
works with Python/numpy numbers. A matrix has shape `(m, n)`; the code never checks that it is square,
it just raises `IndexError` when a subscript is out of range.
-/

namespace FF

/-- `sgn`, ff_combinatorics.py:17-33. Nested loops counting inversions. The subscripts in the loops are
always in range, so `getD` never uses its default. -/
def sgn (permutation : List ℕ) : ℤ :=
  let len := permutation.length
  let inversions : ℕ :=
    (List.range len).foldl (fun c i =>
      (List.range' (i + 1) (len - (i + 1))).foldl (fun c j =>
        if permutation.getD i 0 > permutation.getD j 0 then c + 1 else c) c) 0
  if inversions % 2 = 0 then 1 else -1

variable {K : Type}

/-- The inner loop of `pf` and `hf`, ff_combinatorics.py:68-70 and 108-110:
`prod *= A[perm[2 * i], perm[2 * i + 1]]` for `i` in `range(n_edges)`. -/
def matchProd [CommRing K] {m n : ℕ} (A : Matrix (Fin m) (Fin n) K) (perm : List ℕ) (nEdges : ℕ) :
    Except PyErr K :=
  (List.range nEdges).foldlM (fun prod i => do
    let r ← listGet perm (2 * i)
    let c ← listGet perm (2 * i + 1)
    let x ← get2 A r c
    pure (prod * x)) 1

/-- The inner loop of `pt` and `dt`, ff_combinatorics.py:140-142 and 172-174:
`prod *= A[i, perm[i]]` for `i` in `range(n)`. -/
def permProd [CommRing K] {m n : ℕ} (A : Matrix (Fin m) (Fin n) K) (perm : List ℕ) (len : ℕ) :
    Except PyErr K :=
  (List.range len).foldlM (fun prod i => do
    let c ← listGet perm i
    let x ← get2 A i c
    pure (prod * x)) 1

/-- `pf`, ff_combinatorics.py:36-73. -/
def pf [Field K] {m n : ℕ} (A : Matrix (Fin m) (Fin n) K) : Except PyErr K :=
  let nVerts := m
  if nVerts % 2 ≠ 0 then .ok 0
  else do
    let nEdges := nVerts / 2
    let pfSum ← (permutations (List.range nVerts)).foldlM (fun s perm => do
      let prod ← matchProd A perm nEdges
      pure (s + (sgn perm : K) * prod)) 0
    pure (pfSum / (2 ^ nEdges * (nEdges.factorial : K)))

/-- `hf`, ff_combinatorics.py:76-113. -/
def hf [Field K] {m n : ℕ} (A : Matrix (Fin m) (Fin n) K) : Except PyErr K :=
  let nVerts := m
  if nVerts % 2 ≠ 0 then .ok 0
  else do
    let nEdges := nVerts / 2
    let hfSum ← (permutations (List.range nVerts)).foldlM (fun s perm => do
      let prod ← matchProd A perm nEdges
      pure (s + prod)) 0
    pure (hfSum / (2 ^ nEdges * (nEdges.factorial : K)))

/-- `pt`, ff_combinatorics.py:116-145. -/
def pt [CommRing K] {m n : ℕ} (A : Matrix (Fin m) (Fin n) K) : Except PyErr K :=
  (permutations (List.range m)).foldlM (fun s perm => do
    let prod ← permProd A perm m
    pure (s + prod)) 0

/-- `dt`, ff_combinatorics.py:148-177. -/
def dt [CommRing K] {m n : ℕ} (A : Matrix (Fin m) (Fin n) K) : Except PyErr K :=
  (permutations (List.range m)).foldlM (fun s perm => do
    let prod ← permProd A perm m
    pure (s + (sgn perm : K) * prod)) 0

/-- `dt_eigen`, ff_combinatorics.py:180-212. `eigvals` stands for `np.linalg.eigvals` on square
matrices: the list of eigenvalues it returns, or the exception it raises. `LinAlgError` is caught
(`none` is Python's `None`); any other exception propagates. The printed messages are not modelled. -/
def dtEigen (eigvals : {n : ℕ} → Matrix (Fin n) (Fin n) ℂ → Except PyErr (List ℂ))
    {rows cols : ℕ} (A : Matrix (Fin rows) (Fin cols) ℂ) : Except PyErr (Option ℂ) :=
  if h : rows ≠ cols then .ok none
  else
    match eigvals (n := rows) (A.submatrix id (Fin.cast (not_not.mp h))) with
    | .ok eigenvalues => .ok (some (eigenvalues.foldl (· * ·) 1))
    | .error .linAlgError => .ok none
    | .error e => .error e

end FF
