import Verif.Model.Machine
import Verif.Model.MachineSum
import Verif.Model.Coefficients

/-!
# Model of the functions with the 64-bit floats of IEEE 754

Here a float is a real number, one of the two infinities, or nan. A result is rounded to 53 binary digits, to fewer below `2^-1022` (gradual
underflow), and becomes an infinity from `2^1024` on. A complex number is a pair of floats. Simplifications: the two zeros are
not distinguished (no function modelled here divides by an entry), and the comparisons of `np.isclose` between finite numbers
are evaluated without rounding.
-/

namespace FF

/-- A 64-bit float. -/
inductive Fl where
  | fin (x : ℝ)
  | inf (neg : Bool)
  | nan

/-- `np.isfinite`. -/
def Fl.IsFin : Fl → Prop
  | .fin _ => True
  | _ => False

/-- The float nearest to a real number, ties to even. -/
noncomputable def rd64 (x : ℝ) : Fl :=
  open Classical in
  if x = 0 then .fin 0
  else
    let e : ℤ := max (Int.log 2 |x| - 52) (-1074)
    let y : ℝ := rint (x * 2 ^ (-e)) * 2 ^ e
    if |y| < 2 ^ (1024 : ℕ) then .fin y else .inf (decide (x < 0))

/-- `x + y`. -/
noncomputable def Fl.add : Fl → Fl → Fl
  | .fin x, .fin y => rd64 (x + y)
  | .fin _, .inf s => .inf s
  | .inf s, .fin _ => .inf s
  | .inf s, .inf t => if s = t then .inf s else .nan
  | _, _ => .nan

/-- `x * y`. -/
noncomputable def Fl.mul : Fl → Fl → Fl
  | .fin x, .fin y => rd64 (x * y)
  | .fin x, .inf s => open Classical in if x = 0 then .nan else .inf (xor s (decide (x < 0)))
  | .inf s, .fin y => open Classical in if y = 0 then .nan else .inf (xor s (decide (y < 0)))
  | .inf s, .inf t => .inf (xor s t)
  | _, _ => .nan

/-- `-x`. -/
noncomputable def Fl.neg : Fl → Fl
  | .fin x => .fin (-x)
  | .inf s => .inf !s
  | .nan => .nan

/-- `x / y` for a finite `y` other than 0; `y` is the only kind of divisor in the functions modelled here. An infinite `y` (the Python integer
`2**n * n!` beyond the floats) raises OverflowError in Python and needs an array with more than 200 rows. -/
noncomputable def Fl.div : Fl → Fl → Fl
  | .fin x, .fin y => rd64 (x / y)
  | .inf s, .fin y => open Classical in .inf (xor s (decide (y < 0)))
  | _, _ => .nan

/-- `np.sqrt(x)`. -/
noncomputable def Fl.sqrt : Fl → Fl
  | .fin x => open Classical in if x < 0 then .nan else rd64 (Real.sqrt x)
  | .inf false => .inf false
  | _ => .nan

/-- `np.hypot(x, y)`, the absolute value of `x + 1j*y`. -/
noncomputable def Fl.hypot : Fl → Fl → Fl
  | .inf _, _ => .inf false
  | _, .inf _ => .inf false
  | .fin x, .fin y => rd64 (Real.sqrt (x ^ 2 + y ^ 2))
  | _, _ => .nan

/-- Real floats. -/
noncomputable def flArith : Arith Fl := ⟨fun z => rd64 z, Fl.add, Fl.mul⟩

/-- A complex number. -/
structure Cx where
  re : Fl
  im : Fl

/-- `np.isfinite`. -/
def Cx.IsFin (z : Cx) : Prop := z.re.IsFin ∧ z.im.IsFin

/-- `z + w`. -/
noncomputable def Cx.add (z w : Cx) : Cx := ⟨z.re.add w.re, z.im.add w.im⟩

/-- `z * w`. -/
noncomputable def Cx.mul (z w : Cx) : Cx :=
  ⟨(z.re.mul w.re).add (z.im.mul w.im).neg, (z.re.mul w.im).add (z.im.mul w.re)⟩

/-- `z.conj()`. -/
noncomputable def Cx.conj (z : Cx) : Cx := ⟨z.re, z.im.neg⟩

/-- `z / k` for a real number `k`: numpy divides by `k + 0j` with Smith's method. -/
noncomputable def Cx.divReal (z : Cx) (k : Fl) : Cx :=
  let rat := (Fl.fin 0).div k
  let scl := (Fl.fin 1).div (k.add ((Fl.fin 0).mul rat))
  ⟨(z.re.add (z.im.mul rat)).mul scl, (z.im.add (z.re.mul rat).neg).mul scl⟩

/-- Complex floats. -/
noncomputable def cxArith : Arith Cx := ⟨fun z => ⟨rd64 z, .fin 0⟩, Cx.add, Cx.mul⟩

/-- The number 0. -/
def flZero : Zero Fl := ⟨.fin 0⟩
/-- The number 0. -/
def cxZero : Zero Cx := ⟨⟨.fin 0, .fin 0⟩⟩

/-- `dt(A)`, ff_combinatorics.py:148-177, for an array of floats. -/
noncomputable def dtFl {m n : ℕ} (A : Matrix (Fin m) (Fin n) Fl) : Except PyErr Fl := dtOn flArith A
/-- `pt(A)`, ff_combinatorics.py:116-145, for an array of floats. -/
noncomputable def ptFl {m n : ℕ} (A : Matrix (Fin m) (Fin n) Fl) : Except PyErr Fl := ptOn flArith A
/-- `pf(A)`, ff_combinatorics.py:36-73, for an array of floats. -/
noncomputable def pfFl {m n : ℕ} (A : Matrix (Fin m) (Fin n) Fl) : Except PyErr Fl :=
  letI := flZero
  pfOn flArith (fun s k => s.div (rd64 k)) A
/-- `hf(A)`, ff_combinatorics.py:76-113, for an array of floats. -/
noncomputable def hfFl {m n : ℕ} (A : Matrix (Fin m) (Fin n) Fl) : Except PyErr Fl :=
  letI := flZero
  hfOn flArith (fun s k => s.div (rd64 k)) A
/-- `dt(A)`, ff_combinatorics.py:148-177, for an array of complex floats. -/
noncomputable def dtCx {m n : ℕ} (A : Matrix (Fin m) (Fin n) Cx) : Except PyErr Cx := dtOn cxArith A
/-- `pt(A)`, ff_combinatorics.py:116-145, for an array of complex floats. -/
noncomputable def ptCx {m n : ℕ} (A : Matrix (Fin m) (Fin n) Cx) : Except PyErr Cx := ptOn cxArith A
/-- `pf(A)`, ff_combinatorics.py:36-73, for an array of complex floats. -/
noncomputable def pfCx {m n : ℕ} (A : Matrix (Fin m) (Fin n) Cx) : Except PyErr Cx :=
  letI := cxZero
  pfOn cxArith (fun s k => s.divReal (rd64 k)) A
/-- `hf(A)`, ff_combinatorics.py:76-113, for an array of complex floats. -/
noncomputable def hfCx {m n : ℕ} (A : Matrix (Fin m) (Fin n) Cx) : Except PyErr Cx :=
  letI := cxZero
  hfOn cxArith (fun s k => s.divReal (rd64 k)) A

/-- The computed sum, in the order of the tree. -/
noncomputable def SumTree.evalOn {ι K : Type} (ar : Arith K) (v : ι → K) : SumTree ι → K
  | .zero => ar.ofInt 0
  | .leaf i => v i
  | .node l r => ar.add (l.evalOn ar v) (r.evalOn ar v)

/-- `A @ B`; every entry is added up in the order of the tree. -/
noncomputable def matmulCx (t : (k : ℕ) → SumTree (Fin k)) {a b c : ℕ} (A : Matrix (Fin a) (Fin b) Cx) (B : Matrix (Fin b) (Fin c) Cx) :
    Matrix (Fin a) (Fin c) Cx := Matrix.of fun i j => (t b).evalOn cxArith fun k => (A i k).mul (B k j)

/-- `x == y`. -/
def Fl.eq : Fl → Fl → Prop
  | .fin x, .fin y => x = y
  | .inf s, .inf t => s = t
  | _, _ => False

/-- `np.isclose(z, w)`: finite numbers are compared with the tolerances, others with `==`. -/
noncomputable def iscloseCx : Cx → Cx → Prop
  | ⟨.fin a, .fin b⟩, ⟨.fin c, .fin d⟩ => isclose ⟨a, b⟩ ⟨c, d⟩
  | z, w => z.re.eq w.re ∧ z.im.eq w.im

/-- `np.allclose` for two arrays of the same shape. -/
def allcloseCx {m n : ℕ} (A B : Matrix (Fin m) (Fin n) Cx) : Prop := ∀ i j, iscloseCx (A i j) (B i j)

/-- A complex number as a pair of floats. -/
noncomputable def Cx.ofC (z : ℂ) : Cx := ⟨.fin z.re, .fin z.im⟩

/-- The complex number, with 0 in place of infinities and nan. -/
noncomputable def Cx.toC : Cx → ℂ
  | ⟨.fin a, .fin b⟩ => ⟨a, b⟩
  | _ => 0

/-- `is_symp(U)`, ff_lib.py:630-673, for square arrays of even size. -/
noncomputable def isSympCx (t : (k : ℕ) → SumTree (Fin k)) {n : ℕ} (U : Matrix (Fin (n + n)) (Fin (n + n)) Cx) : Bool :=
  open Classical in
  let S : Matrix (Fin (n + n)) (Fin (n + n)) Cx := (swapS n).map Cx.ofC
  let aa := U.submatrix (Fin.castAdd n) (Fin.castAdd n)
  let bb := U.submatrix (Fin.castAdd n) (Fin.natAdd n)
  let cc := U.submatrix (Fin.natAdd n) (Fin.castAdd n)
  let dd := U.submatrix (Fin.natAdd n) (Fin.natAdd n)
  if allcloseCx aa (dd.map Cx.conj) ∧ allcloseCx cc (bb.map Cx.conj) then
    if allcloseCx (matmulCx t (matmulCx t U S) U.transpose) S then true else false
  else
    if allcloseCx (matmulCx t (matmulCx t U S) U.transpose) S then true else false

/-- `np.abs(z) < 1e-10`; the comparison with nan is false. -/
noncomputable def Cx.small (z : Cx) : Prop :=
  match z.re.hypot z.im with
  | .fin x => x < 1e-10
  | _ => False

/-- `build_op(n_sites, R, alphas, direct=direct)`, ff_lib.py:758-794, for arrays of the documented shapes. -/
noncomputable def buildOpCx (t : (k : ℕ) → SumTree (Fin k)) {n d : ℕ} (R : Matrix (Fin (n + n)) (Fin (n + n)) Cx)
    (alphas : Fin (n + n) → Matrix (Fin d) (Fin d) Cx) (direct : Bool) : Matrix (Fin d) (Fin d) Cx :=
  open Classical in
  (List.finRange (n + n)).foldl (fun acc i => (List.finRange (n + n)).foldl (fun acc j =>
    if (R i j).small then acc
    else if direct then Matrix.of fun x y => (acc x y).add ((R i j).mul (matmulCx t (alphas i) (alphas j) x y))
    else Matrix.of fun x y =>
      (acc x y).add ((R i j).mul (matmulCx t ((alphas i).transpose.map Cx.conj) (alphas j) x y))) acc)
    (Matrix.of fun _ _ => ⟨.fin 0, .fin 0⟩)

/-- Lines 245-257 of `cast_to_density_matrix`. `eig` is the outcome of the test `np.all(np.linalg.eigvalsh(rho) >= -1e-12)` on an array
with an infinity, which is not specified and may raise an exception. -/
noncomputable def validateDMCx (eig : Except PyErr Bool) (t : (k : ℕ) → SumTree (Fin k)) {m n : ℕ} (rho : Matrix (Fin m) (Fin n) Cx) :
    Except PyErr (Σ d : ℕ, Matrix (Fin d) (Fin d) Cx) :=
  open Classical in
  if h : m ≠ n then .error .valueError
  else
    let rho : Matrix (Fin m) (Fin m) Cx := rho.submatrix id (Fin.cast (not_not.mp h))
    if ¬ iscloseCx ⟨.fin 1, .fin 0⟩ ((t m).evalOn cxArith fun i => rho i i) then .error .assertionError
    else if ¬ allcloseCx rho (rho.transpose.map Cx.conj) then .error .assertionError
    else if ∀ i j, (rho i j).IsFin then
      if ¬ (∀ i, eigvalsh (Matrix.of fun i j => (rho i j).toC) i ≥ -1e-12) then .error .assertionError else .ok ⟨m, rho⟩
    else do
      let pos ← eig
      if pos = false then .error .assertionError else .ok ⟨m, rho⟩

/-- `np.linalg.norm(v, ord=2)`: numpy adds up the squares of the real parts and those of the imaginary parts. -/
noncomputable def norm2Cx (t : (k : ℕ) → SumTree (Fin k)) {n : ℕ} (v : Fin n → Cx) : Fl :=
  (((t n).evalOn flArith fun i => (v i).re.mul (v i).re).add ((t n).evalOn flArith fun i => (v i).im.mul (v i).im)).sqrt

/-- `np.linalg.norm(v, ord=1)`. -/
noncomputable def norm1Cx (t : (k : ℕ) → SumTree (Fin k)) {n : ℕ} (v : Fin n → Cx) : Fl :=
  (t n).evalOn flArith fun i => (v i).re.hypot (v i).im

/-- Lines 225-243 of `cast_to_density_matrix`, the branch for vectors, on the flattened input. -/
noncomputable def castVectorCx (eig : Except PyErr Bool) (t : (k : ℕ) → SumTree (Fin k)) {n : ℕ} (flat : Fin n → Cx) :
    Except PyErr (Σ d : ℕ, Matrix (Fin d) (Fin d) Cx) :=
  open Classical in
  if iscloseCx ⟨norm2Cx t flat, .fin 0⟩ ⟨.fin 1, .fin 0⟩ then
    validateDMCx eig t (Matrix.of fun i j => (flat i).mul (flat j).conj)
  else if iscloseCx ⟨norm1Cx t flat, .fin 0⟩ ⟨.fin 1, .fin 0⟩ then
    validateDMCx eig t (Matrix.of fun i j => if i = j then flat i else ⟨.fin 0, .fin 0⟩)
  else .error .valueError

/-- `cast_to_density_matrix(rho)`, ff_utils.py:208-257, for a vector. -/
noncomputable def castVecCx (eig : Except PyErr Bool) (t : (k : ℕ) → SumTree (Fin k)) {n : ℕ} (v : Fin n → Cx) :
    Except PyErr (Σ d : ℕ, Matrix (Fin d) (Fin d) Cx) := castVectorCx eig t v

/-- `cast_to_density_matrix(rho)`, ff_utils.py:208-257, for a matrix. -/
noncomputable def castMatCx (eig : Except PyErr Bool) (t : (k : ℕ) → SumTree (Fin k)) {m n : ℕ} (A : Matrix (Fin m) (Fin n) Cx) :
    Except PyErr (Σ d : ℕ, Matrix (Fin d) (Fin d) Cx) :=
  if min m n = 1 then castVectorCx eig t fun k : Fin (m * n) => A k.divNat k.modNat else validateDMCx eig t A

end FF
