import Verif.Model.Operators
import Mathlib.Analysis.Normed.Algebra.MatrixExponential

/-!
# Model of `src/ff/ff_lib.py`, part 2: coefficient matrices and their operators

A `(2N, 2N)` coefficient array is `Op (N + N)`. `blk A B C D` is the array filled block by block with
the slice assignments `M[:N,:N] = A; M[:N,N:] = B; M[N:,:N] = C; M[N:,N:] = D`.
-/

namespace FF

open scoped ComplexConjugate

/-- The array assembled from four blocks (used by the functions below, each cited at its place). -/
def blk {n : ℕ} (A B C D : Op n) : Op (n + n) :=
  (Matrix.fromBlocks A B C D).submatrix finSumFinEquiv.symm finSumFinEquiv.symm

/-- Entrywise complex conjugate, `A.conj()`. -/
def cj {m n : ℕ} (A : Matrix (Fin m) (Fin n) ℂ) : Matrix (Fin m) (Fin n) ℂ := A.map (starRingEnd ℂ)

/-- The same array with a different expression for its size. -/
def castOp {a b : ℕ} (h : a = b) (M : Op a) : Op b := M.submatrix (Fin.cast h.symm) (Fin.cast h.symm)

/-! ## rotations of operators -/

/-- `_perform_rotation(C, alphas)`, ff_lib.py:299-345 (printing not modelled):
`b_j = sum of C[j, i] * alphas[i]` over the `i` with `abs(C[j, i]) >= 1e-9`. -/
noncomputable def performRotation {m k d : ℕ} (C : Matrix (Fin m) (Fin k) ℂ) (alphas : List (Op d)) :
    Except PyErr (List (Op d)) :=
  open Classical in
  (List.range alphas.length).mapM fun j =>
    (List.range alphas.length).foldlM (fun b i => do
      let c ← get2 C j i
      if ‖c‖ < 1e-9 then pure b
      else do
        let a ← listGet alphas i
        pure (b + c • a)) 0

/-- The two orders in which `rotate_operators` accepts its first two arguments. -/
inductive RotArgs (m k d : ℕ) where
  | matrixFirst (C : Matrix (Fin m) (Fin k) ℂ) (alphas : List (Op d))
  | listFirst (alphas : List (Op d)) (C : Matrix (Fin m) (Fin k) ℂ)

/-- `rotate_operators(C, alphas, Left)`, ff_lib.py:259-296. `none` is the returned number 0. -/
noncomputable def rotateOperators {m k d : ℕ} (args : RotArgs m k d) (left : Bool) :
    Except PyErr (Option (List (Op d))) :=
  let (C, alphas) : Matrix (Fin m) (Fin k) ℂ × List (Op d) :=
    match args with
    | .matrixFirst C alphas => (C, alphas)
    | .listFirst alphas C => (C, alphas)
  let n := alphas.length
  if m ≠ n ∧ k ≠ n ∧ ¬ (m > n ∧ k > n) then .ok none
  else if left then return some (← performRotation C.conjTranspose alphas)
  else return some (← performRotation C alphas)

/-! ## block matrices -/

/-- `build_V(n_sites, A, Z)`, ff_lib.py:348-377, for `(n, n)` arrays (for other shapes
see Model/Shapes.lean); a missing `Z` is the zero array. -/
def buildV (n : ℕ) (A : Op n) (Z : Option (Op n)) : Op (n + n) :=
  let Z := Z.getD 0
  blk (-(cj Z)) A (-(cj A)) Z

/-- `build_H(n_sites, A, B)`, ff_lib.py:380-411, for `(n, n)` arrays (for other shapes
see Model/Shapes.lean); a missing `B` is the zero array. -/
def buildH (n : ℕ) (A : Op n) (B : Option (Op n)) : Op (n + n) :=
  let B := B.getD 0
  blk (-(cj A)) B (-(cj B)) A

/-- `kitaev_chain(n_sites, mu, t, delta)`, ff_lib.py:541-557, for real parameters: loops writing the
off-diagonals. -/
noncomputable def kitaevChain (n : ℕ) (mu t delta : ℝ) : Op (n + n) :=
  let A : Op n := (List.range (n - 1)).foldl (fun A i =>
    if h : i + 1 < n then
      set2 (set2 A ⟨i, by omega⟩ ⟨i + 1, h⟩ ((-t : ℝ) : ℂ)) ⟨i + 1, h⟩ ⟨i, by omega⟩ ((-t : ℝ) : ℂ)
    else A) (((-mu : ℝ) : ℂ) • 1)
  let B : Op n := (List.range (n - 1)).foldl (fun B i =>
    if h : i + 1 < n then
      set2 (set2 B ⟨i, by omega⟩ ⟨i + 1, h⟩ (delta : ℂ)) ⟨i + 1, h⟩ ⟨i, by omega⟩ ((-delta : ℝ) : ℂ)
    else B) 0
  buildH n A (some B)

/-- `nu = 1 / np.sqrt(2)`, ff_lib.py:577. -/
noncomputable def nu : ℂ := ((1 / Real.sqrt 2 : ℝ) : ℂ)

/-- `build_Omega(N)`, ff_lib.py:560-582. -/
noncomputable def buildOmega (n : ℕ) : Op (n + n) :=
  blk (nu • 1) (nu • 1) ((Complex.I * nu) • 1) ((-Complex.I * nu) • 1)

/-- `build_reordering_xx_to_xp(n_sites)`, ff_lib.py:585-601. -/
noncomputable def buildReordering (n : ℕ) : Op (n + n) :=
  (List.finRange n).foldl (fun P i =>
    set2 (set2 P (Fin.castAdd n i) ⟨2 * i, by omega⟩ 1) (Fin.natAdd n i) ⟨2 * i + 1, by omega⟩ 1) 0

/-- The 2 x 2 matrix `w` of `build_K`, ff_lib.py:611-616. -/
noncomputable def wBlock : Op 2 :=
  (((Real.sqrt 2 : ℝ) : ℂ)⁻¹) • !![1, -Complex.I; Complex.I, -1]

/-- The phases of `build_K`, ff_lib.py:620-622. -/
noncomputable def kPhases (n : ℕ) : Op (n + n) :=
  Matrix.diagonal (Fin.addCases (fun _ => 1) (fun _ => -Complex.I * 1))

/-- `build_K(n_sites)`, ff_lib.py:604-627: `Phases @ P @ W @ Omega` with `W = np.kron(np.eye(n), w)`. -/
noncomputable def buildK (n : ℕ) : Op (n + n) :=
  kPhases n * buildReordering n * castOp (Nat.mul_two n) (npKron (1 : Op n) wBlock) * buildOmega n

/-- The matrix `S` with `S[:n, n:] = S[n:, :n] = eye(n)`, ff_lib.py:659-661 and 1191-1194. -/
def swapS (n : ℕ) : Op (n + n) := blk 0 1 1 0

/-- The four blocks of an array, ff_lib.py:654-657. -/
def blk11 {n : ℕ} (U : Op (n + n)) : Op n := U.submatrix (Fin.castAdd n) (Fin.castAdd n)
@[inherit_doc blk11] def blk12 {n : ℕ} (U : Op (n + n)) : Op n :=
  U.submatrix (Fin.castAdd n) (Fin.natAdd n)
@[inherit_doc blk11] def blk21 {n : ℕ} (U : Op (n + n)) : Op n :=
  U.submatrix (Fin.natAdd n) (Fin.castAdd n)
@[inherit_doc blk11] def blk22 {n : ℕ} (U : Op (n + n)) : Op n :=
  U.submatrix (Fin.natAdd n) (Fin.natAdd n)

/-- `is_symp(U)`, ff_lib.py:630-673, for square arrays of even size (for other shapes see
Model/Shapes.lean). Messages are in Model/LibMessages.lean. -/
noncomputable def isSymp {n : ℕ} (U : Op (n + n)) : Bool :=
  open Classical in
  let S := swapS n
  if allclose (blk11 U) (cj (blk22 U)) ∧ allclose (blk21 U) (cj (blk12 U)) then
    if allclose (U * S * U.transpose) S then true else false
  else
    if allclose (U * S * U.transpose) S then true else false

/-- The copy loop of `check_canonical_form`, ff_lib.py:704-709. -/
def canonicalCopy {m : ℕ} (L : Op m) (half : ℕ) : Op m :=
  (List.range (2 * half)).foldl (fun M j =>
    if j % 2 = 1 then
      if h : j < m then set2 M ⟨j, h⟩ ⟨j - 1, by omega⟩ (L ⟨j, h⟩ ⟨j - 1, by omega⟩) else M
    else
      if h : j + 1 < m then set2 M ⟨j, by omega⟩ ⟨j + 1, h⟩ (L ⟨j, by omega⟩ ⟨j + 1, h⟩) else M) 0

/-- `check_canonical_form(L)`, ff_lib.py:676-715. -/
noncomputable def checkCanonicalForm {m k : ℕ} (L : Matrix (Fin m) (Fin k) ℂ) : Bool :=
  open Classical in
  if m % 2 ≠ 0 then false
  else if h : k ≠ m then false
  else
    let L : Op m := L.submatrix id (Fin.cast (not_not.mp h).symm)
    if ¬ allclose L (cj L) ∨ ¬ allclose L (-L.transpose) then false
    else if ¬ allclose (canonicalCopy L (m / 2)) L then false
    else true

/-! ## operators from coefficients -/

/-- `build_op(n_sites, R, alphas, direct)`, ff_lib.py:758-794. Messages are not modelled; the array `R`
may have any shape. `np.zeros_like(alphas[0])` raises `IndexError` for an empty list. -/
noncomputable def buildOp {m k d : ℕ} (nSites : ℕ) (R : Matrix (Fin m) (Fin k) ℂ)
    (alphas : List (Op d)) (direct : Bool) : Except PyErr (Op d) :=
  open Classical in do
  let _ ← listGet alphas 0
  (List.range (2 * nSites)).foldlM (fun acc i =>
    (List.range (2 * nSites)).foldlM (fun acc j => do
      let r ← get2 R i j
      if ‖r‖ < 1e-10 then pure acc
      else do
        let ai ← listGet alphas i
        let aj ← listGet alphas j
        if direct then pure (acc + r • (ai * aj))
        else pure (acc + r • (ai.conjTranspose * aj))) acc) 0

/-- `expm(M)`: the matrix exponential. -/
noncomputable def expm {d : ℕ} (M : Op d) : Op d := NormedSpace.exp M

/-- `generate_gaussian_state(n_sites, H, alphas)`, ff_lib.py:718-755. `none` is the returned number 0.
The list of operators, when given, consists of `2^n x 2^n` arrays. -/
noncomputable def generateGaussianState {h : ℕ} (n : ℕ) (H : Op h)
    (alphas : Option (List (Op (2 ^ n)))) : Except PyErr (Option (Op (2 ^ n))) := do
  let alphas := alphas.getD (jordanWignerAlphas n)
  let hop : Option (Op (2 ^ n)) ←
    if h = 2 * n then do
      let r ← buildOp n H alphas false
      pure (some r)
    else pure none
  let hop := if e : h = 2 ^ n then some (castOp e H) else hop
  match hop with
  | none => pure none
  | some hop =>
    let rho := expm (-hop)
    pure (some ((npTrace rho)⁻¹ • rho))

/-! ## correlation matrices -/

/-- Fill a `(2n, 2n)` array entry by entry, the entries being computed by code that may raise. The loops
at ff_lib.py:819-823 and 880-887 compute every entry in row-major order. -/
def fillArray (n : ℕ) (f : ℕ → ℕ → Except PyErr ℂ) : Except PyErr (Op (n + n)) := do
  let rows ← (List.range (2 * n)).mapM fun i => (List.range (2 * n)).mapM fun j => f i j
  pure (Matrix.of fun i j => (rows.getD i []).getD j 0)

/-- `compute_cov_matrix(rho, n_sites, alphas)`, ff_lib.py:797-825. With `n_sites = None` the number of
sites becomes a numpy float, and `range(n_sites)` in `jordan_wigner_lowering` (or `np.zeros` with a float
shape, when alphas are given) raises `TypeError`; the result for `none` has size 0 by convention. -/
noncomputable def computeCovMatrix {d : ℕ} (rho : Op d) (nSites : Option ℕ) (alphas : List (Op d)) :
    Except PyErr ((n : ℕ) × Op (n + n)) :=
  match nSites with
  | none => .error .typeError
  | some n => do
    let G ← fillArray n fun i j => do
      let ai ← listGet alphas i
      let aj ← listGet alphas j
      pure (npTrace (rho * ai * aj) - npTrace (rho * aj * ai))
    pure ⟨n, G⟩

/-- `compute_2corr_matrix(rho, n_sites, alphas, conjugation)`, ff_lib.py:850-889; `conjugation` is `None`
or an integer (`True` is 1). -/
noncomputable def compute2Corr {d : ℕ} (rho : Op d) (n : ℕ) (alphas : List (Op d))
    (conjugation : Option ℤ) : Except PyErr (Op (n + n)) :=
  fillArray n fun i j => do
    let ai ← listGet alphas i
    let aj ← listGet alphas j
    match conjugation with
    | none => pure (npTrace (rho * ai * aj))
    | some c =>
      if c < 0 then pure (npTrace (rho * ai.conjTranspose * aj))
      else pure (npTrace (rho * ai * aj.conjTranspose))

/-- `correlation_matrix(rho)`, ff_lib.py:828-847. `np.log2(0)` is `-inf`, whose conversion raises
`OverflowError`; if the dimension is not the power of two found by rounding, the first matrix product
raises `ValueError`. -/
noncomputable def correlationMatrix {N : ℕ} (rho : Op N) : Except PyErr ((n : ℕ) × Op (n + n)) :=
  if N = 0 then .error .overflowError
  else
    let n : ℕ := (rint (Real.logb 2 N)).toNat
    if e : N = 2 ^ n then do
      let G ← compute2Corr (castOp e rho) n (jordanWignerAlphas n) none
      pure ⟨n, G⟩
    else .error .valueError

/-- `compute_algebra_S(alphas)`, ff_lib.py:892-943 (printing not modelled). -/
noncomputable def computeAlgebraS {d : ℕ} (alphas : List (Op d)) : Except PyErr ((n : ℕ) × Op (n + n)) :=
  open Classical in do
  let _ ← listGet alphas 0
  let S ← fillArray (alphas.length / 2) fun i j => do
    let ai ← listGet alphas i
    let aj ← listGet alphas j
    let anticomm := ai * aj + aj * ai
    if allclose anticomm 0 then pure 0
    else get2 anticomm 0 0
  pure ⟨alphas.length / 2, S⟩

/-- `is_matchgate(M)`, ff_lib.py:946-989. -/
noncomputable def isMatchgate {m k : ℕ} (M : Matrix (Fin m) (Fin k) ℂ) : Bool :=
  open Classical in
  if h : m = 4 ∧ k = 4 then
    let M : Op 4 := M.submatrix (Fin.cast h.1.symm) (Fin.cast h.2.symm)
    let corner : Op 2 := !![M 0 0, M 0 3; M 3 0, M 3 3]
    let inner : Op 2 := M.submatrix ![1, 2] ![1, 2]
    if isclose inner.det corner.det then true else false
  else false

end FF
