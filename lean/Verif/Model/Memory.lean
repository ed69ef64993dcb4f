import Verif.Model.Random
import Verif.Model.Graph
import Verif.Model.UtilsText
import Mathlib.Logic.Encodable.Basic

/-!
# Arrays in memory

The other models pass arrays as values. Here an array is an object that refers to a buffer, several objects may refer to the
same buffer, and an assignment to an entry of one is seen through all of them. Modelled again, in these terms, are functions
that contain an in-place statement, and those that may return (a view of) their argument.

Arrays have entries of type complex128 or float64 (the entries of the latter are complex numbers without imaginary part);
integer arrays, which `np.round` may return as they are, are not modelled;
that an in-place operation can fail because of the types is the subject of `Model/Dtypes.lean`. The memory layout is not
modelled: the entries of an array may be stored anywhere in its buffer.
-/

namespace FF

/-- The memory: the buffers `0, ..., next - 1` are in use; `mem b p` is the number stored at position `p` of buffer `b`. -/
structure Heap where
  next : ℕ
  mem : ℕ → ℕ → ℂ

/-- An array object with subscripts of type `ι` (`Fin m × Fin n` for a 2-D array of shape `(m, n)`). -/
structure Nd (ι : Type) where
  /-- the buffer -/
  buf : ℕ
  /-- the position of each entry in the buffer -/
  pos : ι → ℕ
  /-- whether the type is complex128 or float64 -/
  cplx : Bool
  /-- whether this is the view `x.real` of a complex array `x`, of which it only sees the real parts -/
  realPart : Bool
  /-- whether entries can be assigned to (`np.diag(x)` of a 2-D array returns a read-only view) -/
  writable : Bool

/-- The entries of an array. -/
noncomputable def Nd.val {ι : Type} (a : Nd ι) (h : Heap) (i : ι) : ℂ :=
  if a.realPart then ((h.mem a.buf (a.pos i)).re : ℂ) else h.mem a.buf (a.pos i)

/-- The entries of a 2-D array, as a matrix. -/
noncomputable def Nd.mat {m n : ℕ} (a : Nd (Fin m × Fin n)) (h : Heap) : Matrix (Fin m) (Fin n) ℂ :=
  Matrix.of fun i j => a.val h (i, j)

/-- The view of an array that consists of the entries with the subscripts `f k` (basic slicing, transposition, reshaping). -/
def Nd.view {ι κ : Type} (a : Nd ι) (f : κ → ι) : Nd κ := ⟨a.buf, a.pos ∘ f, a.cplx, a.realPart, a.writable⟩

/-- Python code that works on arrays in memory and may raise; an exception does not undo the changes made before. -/
abbrev Mem (α : Type) := Rand Heap α

/-- A new array with the given entries. -/
noncomputable def newArr {ι : Type} [Encodable ι] (cplx : Bool) (f : ι → ℂ) : Mem (Nd ι) := fun h =>
  (.ok ⟨h.next, Encodable.encode, cplx, false, true⟩,
    ⟨h.next + 1, fun b p => if b = h.next then (Encodable.decode₂ ι p).elim 0 f else h.mem b p⟩)

/-- The present entries of an array. -/
noncomputable def readArr {ι : Type} (a : Nd ι) : Mem (ι → ℂ) := fun h => (.ok (a.val h), h)

open Classical in
/-- `a[...] = x`: assignment to all entries. Raises `ValueError` if the array is read-only. -/
noncomputable def writeAll {ι : Type} (a : Nd ι) (x : ι → ℂ) : Mem Unit := fun h =>
  if a.writable then
    (.ok (), ⟨h.next, fun b p => if hp : b = a.buf ∧ ∃ i, a.pos i = p then
      (if a.realPart then ⟨(x hp.2.choose).re, (h.mem b p).im⟩ else x hp.2.choose) else h.mem b p⟩)
  else (.error .valueError, h)

/-- `a[i] = z`. -/
noncomputable def setItem {ι : Type} (a : Nd ι) (i : ι) (z : ℂ) : Mem Unit :=
  writeAll (a.view fun _ : Unit => i) fun _ => z

/-- `a += x`. -/
noncomputable def addInto {ι : Type} (a : Nd ι) (x : ι → ℂ) : Mem Unit := do
  let old ← readArr a
  writeAll a (old + x)

/-! ## casts -/

/-- An array argument. -/
inductive NdAny where
  | vec (n : ℕ) (a : Nd (Fin n))
  | mat (m n : ℕ) (a : Nd (Fin m × Fin n))

/-- The entries of an array argument, in the form used by the other models. -/
noncomputable def NdAny.value (h : Heap) : NdAny → Arr
  | .vec n a => .vec n (a.val h)
  | .mat m n a => .mat m n (a.mat h)

/-- `np.asarray(rho, dtype=complex)`: the array itself if it is complex, a copy otherwise. -/
noncomputable def asComplex {ι : Type} [Encodable ι] (a : Nd ι) : Mem (Nd ι) :=
  if a.cplx then pure a
  else do
    let x ← readArr a
    newArr true x

/-- `cast_to_density_matrix(rho)`, ff_utils.py:208-257. The branch for vectors computes a new array (`rho @ rho.conj().T`
or `np.diag`); a 2-D array is checked and returned as it is. (A new array that fails the checks is not kept; the model
allocates it after the checks.) -/
noncomputable def castToDensityMatrixM (rho : NdAny) : Mem (Σ d : ℕ, Nd (Fin d × Fin d)) :=
  match rho with
  | .vec _ a => do
    let a ← asComplex a
    let x ← readArr a
    let r ← noDraw (castVector x)
    let b ← newArr true fun ij : Fin r.1 × Fin r.1 => r.2 ij.1 ij.2
    pure ⟨r.1, b⟩
  | .mat m n a => do
    let a ← asComplex a
    let x ← readArr a
    if min m n = 1 then do
      let r ← noDraw (castVector (Arr.mat m n (Matrix.of fun i j => x (i, j))).flatten.2)
      let b ← newArr true fun ij : Fin r.1 × Fin r.1 => r.2 ij.1 ij.2
      pure ⟨r.1, b⟩
    else do
      let _ ← noDraw (validateDM (Matrix.of fun i j => x (i, j)))
      if h : n = m then pure ⟨m, a.view fun ij => (ij.1, Fin.cast h.symm ij.2)⟩ else throw .valueError

open Classical in
/-- `cast_to_pdf(rho)`, ff_utils.py:191-205: `np.diag(rho)` and `pdf.real` are views. -/
noncomputable def castToPdfM (rho : NdAny) : Mem (Σ d : ℕ, Nd (Fin d)) := do
  let r ← castToDensityMatrixM rho
  let diag : Nd (Fin r.1) := { r.2.view (fun i => (i, i)) with writable := false }
  let pdf ← readArr diag
  if allclose1 pdf (fun i => ((pdf i).re : ℂ)) then pure ⟨r.1, { diag with cplx := false, realPart := true }⟩
  else throw .valueError

/-! ## functions that accumulate or assign in place -/

/-- `A[i, j]` with the entries `x` of `A`. -/
def getEntry {m n : ℕ} (x : Fin m × Fin n → ℂ) (i j : ℕ) : Except PyErr ℂ := get2 (Matrix.of fun a b => x (a, b)) i j

open Classical in
/-- One round of the inner loop of `_perform_rotation`, ff_lib.py:320-324: `b_j += C[j, i] * alphas[i]`. -/
noncomputable def rotationStepM {m k d : ℕ} (C : Nd (Fin m × Fin k)) (alphas : List (Nd (Fin d × Fin d))) (j : ℕ)
    (b : Nd (Fin d × Fin d)) (i : ℕ) : Mem Unit := do
  let x ← readArr C
  let c ← noDraw (getEntry x j i)
  if ‖c‖ < 1e-9 then pure ()
  else do
    let a ← noDraw (listGet alphas i)
    let y ← readArr a
    addInto b (c • y)

/-- `_perform_rotation(C, alphas)`, ff_lib.py:299-345: `b_j = np.zeros_like(alphas[0])`, accumulated in place. -/
noncomputable def performRotationM {m k d : ℕ} (C : Nd (Fin m × Fin k)) (alphas : List (Nd (Fin d × Fin d))) :
    Mem (List (Nd (Fin d × Fin d))) :=
  (List.range alphas.length).mapM fun j => do
    let b ← newArr true 0
    (List.range alphas.length).forM (rotationStepM C alphas j b)
    pure b

/-- `rotate_operators(C, alphas, Left)`, ff_lib.py:259-296 (the other order of the arguments is exchanged first);
`C.conj().T` is a view of a new array. -/
noncomputable def rotateOperatorsM {m k d : ℕ} (C : Nd (Fin m × Fin k)) (alphas : List (Nd (Fin d × Fin d))) (left : Bool) :
    Mem (Option (List (Nd (Fin d × Fin d)))) :=
  let n := alphas.length
  if m ≠ n ∧ k ≠ n ∧ ¬ (m > n ∧ k > n) then pure none
  else if left then do
    let x ← readArr C
    let C' ← newArr C.cplx fun ij => star (x ij)
    let bs ← performRotationM (C'.view fun ij : Fin k × Fin m => (ij.2, ij.1)) alphas
    pure (some bs)
  else do
    let bs ← performRotationM C alphas
    pure (some bs)

open Classical in
/-- The body of the double loop of `build_op`, ff_lib.py:780-788. -/
noncomputable def opStepM {m k d : ℕ} (R : Nd (Fin m × Fin k)) (alphas : List (Nd (Fin d × Fin d))) (direct : Bool)
    (b : Nd (Fin d × Fin d)) (i j : ℕ) : Mem Unit := do
  let x ← readArr R
  let r ← noDraw (getEntry x i j)
  if ‖r‖ < 1e-10 then pure ()
  else do
    let ai ← noDraw (listGet alphas i)
    let aj ← noDraw (listGet alphas j)
    let y ← readArr ai
    let z ← readArr aj
    let Y : Op d := Matrix.of fun p q => y (p, q)
    let Z : Op d := Matrix.of fun p q => z (p, q)
    if direct then addInto b fun pq => (r • (Y * Z)) pq.1 pq.2
    else addInto b fun pq => (r • (Y.conjTranspose * Z)) pq.1 pq.2

/-- `build_op(n_sites, R, alphas, direct)`, ff_lib.py:758-794: `R_op = np.zeros_like(alphas[0])`, accumulated in place. -/
noncomputable def buildOpM {m k d : ℕ} (nSites : ℕ) (R : Nd (Fin m × Fin k)) (alphas : List (Nd (Fin d × Fin d)))
    (direct : Bool) : Mem (Nd (Fin d × Fin d)) := do
  let _ ← noDraw (listGet alphas 0)
  let b ← newArr true 0
  (List.range (2 * nSites)).forM fun i => (List.range (2 * nSites)).forM fun j => opStepM R alphas direct b i j
  pure b

/-- `if B is None: B = np.zeros_like(A)`, ff_lib.py:401-402. -/
noncomputable def orZeros {n : ℕ} (A : Nd (Fin n × Fin n)) (B : Option (Nd (Fin n × Fin n))) : Mem (Nd (Fin n × Fin n)) :=
  match B with
  | some B => pure B
  | none => newArr A.cplx 0

/-- `build_H(n_sites, A, B)`, ff_lib.py:380-411: a zero array, filled by assignments to its four blocks. A missing `B` is a
new zero array. -/
noncomputable def buildHM (n : ℕ) (A : Nd (Fin n × Fin n)) (B : Option (Nd (Fin n × Fin n))) :
    Mem (Nd (Fin (n + n) × Fin (n + n))) := do
  let B ← orZeros A B
  let H ← newArr true 0
  let x ← readArr A
  writeAll (H.view fun ij : Fin n × Fin n => (Fin.castAdd n ij.1, Fin.castAdd n ij.2)) fun ij => -star (x ij)
  let y ← readArr B
  writeAll (H.view fun ij : Fin n × Fin n => (Fin.castAdd n ij.1, Fin.natAdd n ij.2)) y
  let y ← readArr B
  writeAll (H.view fun ij : Fin n × Fin n => (Fin.natAdd n ij.1, Fin.castAdd n ij.2)) fun ij => -star (y ij)
  let x ← readArr A
  writeAll (H.view fun ij : Fin n × Fin n => (Fin.natAdd n ij.1, Fin.natAdd n ij.2)) x
  pure H

/-- `partial_trace_diagblocksum(AB, d)`, ff_utils.py:373-424: `A = np.zeros((d, d))`, then `A += AB[i0:i1, j0:j1]`. -/
noncomputable def partialTraceOver1M {D : ℕ} (AB : Nd (Fin D × Fin D)) (d : ℕ) : Mem (Nd (Fin d × Fin d)) := do
  let d2 ← noDraw (blockCount D d)
  let A ← newArr true 0
  (List.range d2).forM fun j => do
    let x ← readArr AB
    addInto A fun pq => entry (Matrix.of fun a b => x (a, b)) (j * d + pq.1) (j * d + pq.2)
  pure A

open Classical in
/-- `clean(obj, threshold)` for an array, ff_utils.py:95-105, with `ndigits` and the numeric threshold: `np.round` returns a
new array, in which the small entries are then set to zero. -/
noncomputable def cleanArrM {n : ℕ} (nd : ℤ) (thr : ℝ) (obj : Nd (Fin n)) : Mem (Nd (Fin n)) := do
  let x ← readArr obj
  if ∀ i, |(x i).im| < thr then newArr false fun i => ((npRound nd (x i).re : ℝ) : ℂ)
  else do
    let obj ← newArr obj.cplx fun i => npRoundC nd (x i)
    let y ← readArr obj
    writeAll (obj.view fun i : {i : Fin n // ‖y i‖ < thr} => i.1) fun _ => 0
    pure obj

/-- `pfo[u, v] = x`. -/
noncomputable def setEntryM {n : ℕ} (pfo : Nd (Fin n × Fin n)) (u v : ℕ) (x : ℂ) : Mem Unit :=
  if h : u < n ∧ v < n then setItem pfo (⟨u, h.1⟩, ⟨v, h.2⟩) x else throw .indexError

open Classical in
/-- `complete_face(pfo, edges)`, ff_graph_theory.py:390-451: returns the array it was given, or `None`. -/
noncomputable def completeFaceM {n : ℕ} (pfo : Nd (Fin n × Fin n)) (edges : List Dart) : Mem (Option (Nd (Fin n × Fin n))) := do
  let p ← readArr pfo
  let s ← noDraw (scanFace (Matrix.of fun a b => p (a, b)) edges)
  match s.2.getLast? with
  | none => pure none
  | some e => do
    let u := min e.1 e.2
    let v := max e.1 e.2
    let x := if s.1 = -1 then prefixSign e else -1 * prefixSign e
    setEntryM pfo u v x
    setEntryM pfo v u x
    pure (some pfo)

/-! ## a function that refers to arrays -/

/-- The function `path` returned by `build_linear_path`: it refers to two arrays. -/
structure LinearPath (n : ℕ) where
  w : Nd (Fin n)
  v : Nd (Fin n)

/-- `build_linear_path(w, v)`, ff_random_states.py:745-800: `np.asarray` and `reshape` give views, the division by the norm a
new array. -/
noncomputable def buildLinearPathM {n : ℕ} (w v : Nd (Fin n)) : Mem (LinearPath n) := do
  let x ← readArr w
  let y ← readArr v
  let w' ← newArr w.cplx (((vnorm x : ℝ) : ℂ)⁻¹ • x)
  let v' ← newArr v.cplx (((vnorm y : ℝ) : ℂ)⁻¹ • y)
  pure ⟨w', v'⟩

/-- The call `path(s)`, ff_random_states.py:797-798. -/
noncomputable def LinearPath.call {n : ℕ} (path : LinearPath n) (s : ℝ) : Mem (Nd (Fin n)) := do
  let w ← readArr path.w
  let v ← readArr path.v
  newArr (path.w.cplx || path.v.cplx) (((vnorm ((s : ℂ) • v + (1 - (s : ℂ)) • w) : ℝ) : ℂ)⁻¹ • ((s : ℂ) • v + (1 - (s : ℂ)) • w))

end FF
