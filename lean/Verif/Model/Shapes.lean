import Verif.Model.Eigen
import Verif.Model.Utils

/-!
# Model of the functions of `ff_lib.py` and `ff_utils.py` on arrays of any shape

The other files model these functions for arrays of the documented shapes. Here they are modelled for
arrays of every shape: numpy copies values of smaller shape along missing axes and axes of length 1
("broadcasting"), cuts slices at the border of the array, and raises `ValueError` where shapes do not fit.

* `NdArr` is an array with any number of axes, `Arr2` one with two axes. Subscripts are natural numbers;
  values at subscripts beyond the shape have no meaning.
-/

namespace FF

open scoped ComplexConjugate

/-! ## numpy -/

/-- An array with any number of axes. -/
structure NdArr where
  /-- the lengths of the axes -/
  shape : List ℕ
  /-- the value at a list of subscripts, one for each axis -/
  val : List ℕ → ℂ

/-- An array with two axes. -/
structure Arr2 where
  /-- the number of rows -/
  rows : ℕ
  /-- the number of columns -/
  cols : ℕ
  /-- the value at row `i` and column `j` -/
  val : ℕ → ℕ → ℂ

/-- `A.conj()`. -/
def NdArr.conj (A : NdArr) : NdArr := ⟨A.shape, fun l => (starRingEnd ℂ) (A.val l)⟩

/-- `-A`. -/
def NdArr.neg (A : NdArr) : NdArr := ⟨A.shape, fun l => - A.val l⟩

/-- `np.zeros_like(A)`. -/
def NdArr.zerosLike (A : NdArr) : NdArr := ⟨A.shape, fun _ => 0⟩

/-- Whether an array of shape `src` can be assigned to a slice of shape `dst` (both shapes listed from the
last axis to the first): axes of length 1 are repeated, missing axes are added in front, additional axes
in front must have length 1. -/
def fitsRev : List ℕ → List ℕ → Bool
  | [], _ => true
  | d :: s, [] => d == 1 && fitsRev s []
  | d :: s, e :: t => (d == 1 || d == e) && fitsRev s t

/-- The subscripts (from the last to the first) at which the assigned array is read to fill the place with
the subscripts `idx` (from the last to the first). -/
def pickRev : List ℕ → List ℕ → List ℕ
  | [], _ => []
  | _ :: s, [] => 0 :: pickRev s []
  | d :: s, i :: idx => (if d = 1 then 0 else i) :: pickRev s idx

/-- The `(r, c)` array that an assignment `M[...] = A` writes into a slice of shape `(r, c)`. -/
def NdArr.assign (A : NdArr) (r c : ℕ) : Except PyErr (Matrix (Fin r) (Fin c) ℂ) :=
  if fitsRev A.shape.reverse [c, r] then
    .ok (Matrix.of fun i j => A.val (pickRev A.shape.reverse [j, i]).reverse)
  else .error .valueError

/-- `A[r0:r1, c0:c1]`; slices are cut at the border. -/
def Arr2.slice (A : Arr2) (r0 r1 c0 c1 : ℕ) : Arr2 :=
  ⟨min r1 A.rows - min r0 A.rows, min c1 A.cols - min c0 A.cols, fun i j => A.val (r0 + i) (c0 + j)⟩

/-- `A.conj()`. -/
def Arr2.conj (A : Arr2) : Arr2 := ⟨A.rows, A.cols, fun i j => (starRingEnd ℂ) (A.val i j)⟩

/-- `A.T`. -/
def Arr2.transpose (A : Arr2) : Arr2 := ⟨A.cols, A.rows, fun i j => A.val j i⟩

/-- `np.zeros((r, c))`. -/
def Arr2.zeros (r c : ℕ) : Arr2 := ⟨r, c, fun _ _ => 0⟩

/-- `np.eye(n)`. -/
def Arr2.eye (n : ℕ) : Arr2 := ⟨n, n, fun i j => if i = j then 1 else 0⟩

/-- A matrix as an array. -/
def Arr2.ofMat {m k : ℕ} (M : Matrix (Fin m) (Fin k) ℂ) : Arr2 := ⟨m, k, entry M⟩

/-- The values of an array at the subscripts below `m` and `k`. -/
def Arr2.toMat (A : Arr2) (m k : ℕ) : Matrix (Fin m) (Fin k) ℂ := Matrix.of fun i j => A.val i j

/-- `A @ B`. -/
noncomputable def Arr2.matmul (A B : Arr2) : Except PyErr Arr2 :=
  if A.cols = B.rows then .ok ⟨A.rows, B.cols, fun i j => ∑ k ∈ Finset.range A.cols, A.val i k * B.val k j⟩
  else .error .valueError

/-- `np.trace(A)` for an array with any numbers of rows and columns. -/
noncomputable def Arr2.trace (A : Arr2) : ℂ := ∑ i ∈ Finset.range (min A.rows A.cols), A.val i i

/-- One axis of an assignment or of an in-place addition: a length 1 is repeated. -/
def fits1 (src dst : ℕ) : Bool := src == 1 || src == dst

/-- The subscript along an axis of length `d` that is repeated if `d = 1`. -/
def pick1 (d i : ℕ) : ℕ := if d = 1 then 0 else i

/-- `S[r0:r1, c0:c1] = B`. -/
def Arr2.setSlice (S : Arr2) (r0 r1 c0 c1 : ℕ) (B : Arr2) : Except PyErr Arr2 :=
  let r0 := min r0 S.rows
  let r1 := min r1 S.rows
  let c0 := min c0 S.cols
  let c1 := min c1 S.cols
  if fits1 B.rows (r1 - r0) && fits1 B.cols (c1 - c0) then
    .ok ⟨S.rows, S.cols, fun i j =>
      if r0 ≤ i ∧ i < r1 ∧ c0 ≤ j ∧ j < c1 then B.val (pick1 B.rows (i - r0)) (pick1 B.cols (j - c0))
      else S.val i j⟩
  else .error .valueError

/-- `A += B`: the shape of `A` cannot change. -/
def Arr2.addInPlace (A B : Arr2) : Except PyErr Arr2 :=
  if fits1 B.rows A.rows && fits1 B.cols A.cols then
    .ok ⟨A.rows, A.cols, fun i j => A.val i j + B.val (pick1 B.rows i) (pick1 B.cols j)⟩
  else .error .valueError

/-- The common length of two axes, if one of them can be repeated to fit the other. -/
def common1 (a b : ℕ) : Option ℕ := if a = b then some a else if a = 1 then some b else if b = 1 then some a else none

/-- `np.allclose(A, B)`: both arrays may be repeated. -/
noncomputable def Arr2.allclose (A B : Arr2) : Except PyErr Bool :=
  open Classical in
  match common1 A.rows B.rows, common1 A.cols B.cols with
  | some r, some c =>
    .ok (decide (∀ i < r, ∀ j < c,
      isclose (A.val (pick1 A.rows i) (pick1 A.cols j)) (B.val (pick1 B.rows i) (pick1 B.cols j))))
  | _, _ => .error .valueError

/-! ## ff_lib.py -/

/-- The four slice assignments of `build_V` and `build_H`, ff_lib.py:371-375 and 406-410, in their order. -/
def blkS (n : ℕ) (A B C D : NdArr) : Except PyErr (Op (n + n)) := do
  let a ← A.assign n n
  let b ← B.assign n n
  let c ← C.assign n n
  let d ← D.assign n n
  .ok (blk a b c d)

/-- `build_V(n_sites, A, Z)`, ff_lib.py:348-377, for arrays of any shape. -/
def buildVS (n : ℕ) (A : NdArr) (Z : Option NdArr) : Except PyErr (Op (n + n)) :=
  let Z := Z.getD A.zerosLike
  blkS n Z.conj.neg A A.conj.neg Z

/-- `build_H(n_sites, A, B)`, ff_lib.py:380-411, for arrays of any shape. -/
def buildHS (n : ℕ) (A : NdArr) (B : Option NdArr) : Except PyErr (Op (n + n)) :=
  let B := B.getD A.zerosLike
  blkS n A.conj.neg B B.conj.neg A

/-- `U @ S @ U.T` compared with `S`, ff_lib.py:665 and 669. -/
noncomputable def sympTestS (U S : Arr2) : Except PyErr Bool := do
  let T ← U.matmul S
  let T ← T.matmul U.transpose
  T.allclose S

/-- `is_symp(U)`, ff_lib.py:630-673, for arrays with any numbers of rows and columns. Messages are not
modelled. -/
noncomputable def isSympS (U : Arr2) : Except PyErr Bool := do
  let n := U.rows / 2
  let aa := U.slice 0 n 0 n
  let bb := U.slice 0 n n U.cols
  let cc := U.slice n U.rows 0 n
  let dd := U.slice n U.rows n U.cols
  let S ← (Arr2.zeros U.rows U.cols).setSlice 0 n n U.cols (Arr2.eye n)
  let S ← S.setSlice n U.rows 0 n (Arr2.eye n)
  let canonical ← if (← aa.allclose dd.conj) then cc.allclose bb.conj else pure false
  if canonical then
    if (← sympTestS U S) then pure true else pure false
  else
    if (← sympTestS U S) then pure true else pure false

/-- `generate_gaussian_state(n_sites, H, alphas)`, ff_lib.py:718-755, for arrays `H` with any numbers of
rows and columns. `none` is the returned number 0; `expm` raises `LinAlgError` for arrays that are not
square. -/
noncomputable def generateGaussianStateS {m k : ℕ} (n : ℕ) (H : Matrix (Fin m) (Fin k) ℂ)
    (alphas : Option (List (Op (2 ^ n)))) : Except PyErr (Option (Op (2 ^ n))) := do
  let alphas := alphas.getD (jordanWignerAlphas n)
  let hop : Option (Σ s : ℕ × ℕ, Matrix (Fin s.1) (Fin s.2) ℂ) ←
    if m = 2 * n then do
      let r ← buildOp n H alphas false
      pure (some ⟨(2 ^ n, 2 ^ n), r⟩)
    else pure none
  let hop := if m = 2 ^ n then some ⟨(m, k), H⟩ else hop
  match hop with
  | none => pure none
  | some ⟨(r, c), hop⟩ =>
    if h : r = 2 ^ n ∧ c = r then
      let rho := expm (-(hop.submatrix (Fin.cast h.1.symm) (Fin.cast (h.2.trans h.1).symm)))
      pure (some ((npTrace rho)⁻¹ • rho))
    else .error .linAlgError

/-- `compute_cov_matrix(rho, n_sites, alphas)`, ff_lib.py:797-825, for arrays `rho` with any numbers of rows
and columns, and a given number of sites. -/
noncomputable def computeCovMatrixS {d : ℕ} (rho : Arr2) (n : ℕ) (alphas : List (Op d)) :
    Except PyErr (Op (n + n)) :=
  fillArray n fun i j => do
    let ai ← listGet alphas i
    let t ← rho.matmul (.ofMat ai)
    let aj ← listGet alphas j
    let t ← t.matmul (.ofMat aj)
    let s ← rho.matmul (.ofMat aj)
    let s ← s.matmul (.ofMat ai)
    pure (t.trace - s.trace)

/-- `compute_2corr_matrix(rho, n_sites, alphas, conjugation)`, ff_lib.py:850-889, for arrays `rho` with any
numbers of rows and columns. -/
noncomputable def compute2CorrS {d : ℕ} (rho : Arr2) (n : ℕ) (alphas : List (Op d))
    (conjugation : Option ℤ) : Except PyErr (Op (n + n)) :=
  fillArray n fun i j => do
    let ai ← listGet alphas i
    match conjugation with
    | none => do
      let t ← rho.matmul (.ofMat ai)
      let aj ← listGet alphas j
      let t ← t.matmul (.ofMat aj)
      pure t.trace
    | some c =>
      if c < 0 then do
        let t ← rho.matmul (.ofMat ai.conjTranspose)
        let aj ← listGet alphas j
        let t ← t.matmul (.ofMat aj)
        pure t.trace
      else do
        let t ← rho.matmul (.ofMat ai)
        let aj ← listGet alphas j
        let t ← t.matmul (.ofMat aj.conjTranspose)
        pure t.trace

/-- `correlation_matrix(rho)`, ff_lib.py:828-847, for arrays with any numbers of rows and columns. -/
noncomputable def correlationMatrixS (rho : Arr2) : Except PyErr ((n : ℕ) × Op (n + n)) :=
  if rho.rows = 0 then .error .overflowError
  else do
    let n : ℕ := (rint (Real.logb 2 rho.rows)).toNat
    let G ← compute2CorrS rho n (jordanWignerAlphas n) none
    pure ⟨n, G⟩

/-- `eigh_sp(H)`, ff_lib.py:1016-1150, for arrays with any numbers of rows and columns: the products with
`Omega` fail unless the array has the shape `(2n, 2n)`; the rest is `eighSp`. -/
noncomputable def eighSpS (H : Arr2) (schur : (n : ℕ) → RMat (n + n) → RMat (n + n) × RMat (n + n))
    (argsort : (n : ℕ) → (Fin n → ℝ) → Fin n → ℕ) : Except PyErr ((n : ℕ) × (Op (n + n) × Op (n + n))) := do
  let n := H.rows / 2
  let Omega : Arr2 := .ofMat (buildOmega n)
  let ih ← Arr2.matmul (.ofMat (Complex.I • buildOmega n)) H
  let _ ← ih.matmul Omega.conj.transpose
  let r ← eighSp (schur n) (argsort n) (H.toMat (n + n) (n + n))
  pure ⟨n, r⟩

/-- `eigv_sp(V)`, ff_lib.py:1153-1200, for arrays with any numbers of rows and columns. -/
noncomputable def eigvSpS (V : Arr2) (schur : (n : ℕ) → RMat (n + n) → RMat (n + n) × RMat (n + n))
    (argsort : (n : ℕ) → (Fin n → ℝ) → Fin n → ℕ) : Except PyErr ((n : ℕ) × (Op (n + n) × Op (n + n))) := do
  let n := V.rows / 2
  let H ← Arr2.matmul (.ofMat (swapS n)) V
  let ⟨n', r⟩ ← eighSpS H schur argsort
  pure ⟨n', (swapS n' * r.1, r.2)⟩

/-- `eigm_sp(G)`, ff_lib.py:1290-1339, for arrays with any numbers of rows and columns. -/
noncomputable def eigmSpS (G : Arr2) (schur : (n : ℕ) → RMat (n + n) → RMat (n + n) × RMat (n + n))
    (argsort : (n : ℕ) → (Fin n → ℝ) → Fin n → ℕ) : Except PyErr ((n : ℕ) × (Op (n + n) × Op (n + n))) := do
  let n := G.rows / 2
  let Omega : Arr2 := .ofMat (buildOmega n)
  let H ← Omega.conj.transpose.matmul G
  let H ← H.matmul Omega
  let ⟨n', r⟩ ← eighSpS H schur argsort
  let Orth := buildOmega n' * r.2 * (buildOmega n').conjTranspose
  let L := Orth.transpose * G.toMat (n' + n') (n' + n') * Orth
  pure ⟨n', (L, Orth)⟩

/-- `eigm_sp_can(G)`, ff_lib.py:1203-1287, for arrays with any numbers of rows and columns: after the test
that the entries are imaginary, `schur` raises `ValueError` for arrays that are not square, and the
product with `Omega` for odd sizes; the rest is `eigmSpCan`. -/
noncomputable def eigmSpCanS (G : Arr2) (schur : (n : ℕ) → RMat (n + n) → RMat (n + n) × RMat (n + n))
    (argsort : (n : ℕ) → (Fin n → ℝ) → Fin n → ℕ) : Except PyErr ((n : ℕ) × (Op (n + n) × RMat (n + n))) := do
  let n := G.rows / 2
  pyAssert (∀ i < G.rows, ∀ j < G.cols, isclose (G.val i j) (Complex.I * ((G.val i j).im : ℂ)))
  if G.rows ≠ G.cols then .error .valueError
  else do
    let Omega : Arr2 := .ofMat (buildOmega n)
    let H ← Omega.conj.transpose.matmul G
    let _ ← H.matmul Omega
    let r ← eigmSpCan (schur n) (argsort n) (G.toMat (n + n) (n + n))
    pure ⟨n, r⟩

/-! ## ff_utils.py -/

/-- `partial_trace_diagblocksum(AB, d)` (exported as `partial_trace_over_1`), ff_utils.py:373-424, for arrays
with any numbers of rows and columns. -/
def partialTraceOver1S (AB : Arr2) (d : ℕ) : Except PyErr Arr2 := do
  let d2 ← blockCount AB.rows d
  (List.range d2).foldlM (fun A j =>
    A.addInPlace (AB.slice (j * d) (j * d + d) (j * d) (j * d + d))) (Arr2.zeros d d)

/-- `partial_trace_blockTr(AB, d)` (exported as `partial_trace_over_2`), ff_utils.py:427-488, for arrays with
any numbers of rows and columns. -/
noncomputable def partialTraceOver2S (AB : Arr2) (d : ℕ) : Except PyErr (Matrix (Fin d) (Fin d) ℂ) :=
  open Classical in do
  let d1 ← blockCount AB.rows d
  let B : Matrix (Fin d) (Fin d) ℂ := Matrix.of fun i j =>
    (AB.slice (i * d1) (i * d1 + d1) (j * d1) (j * d1 + d1)).trace
  if allclose (Matrix.of fun i j => ((B i j).im : ℂ)) (0 : Matrix (Fin d) (Fin d) ℂ) then
    .ok (Matrix.of fun i j => ((B i j).re : ℂ))
  else .ok B

end FF
