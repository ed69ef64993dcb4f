import Verif.Model.Machine
import Verif.Model.Utils
import Verif.Model.Coefficients

/-!
# Model of the functions on arrays that contain nan

A number is `none` (nan) or a complex number; a complex float with a nan part counts as nan. Every operation with nan gives nan, and
every comparison with nan is false. Infinities are not modelled.
-/

namespace FF

open scoped ComplexConjugate

/-- Arithmetic with nan. -/
noncomputable def nanArith : Arith (Option ℂ) :=
  ⟨fun z => some (z : ℂ), Option.map₂ (· + ·), Option.map₂ (· * ·)⟩

/-- `s / k`. -/
noncomputable def nanDiv (s : Option ℂ) (k : ℤ) : Option ℂ := s.map (· / (k : ℂ))

/-- The number 0. -/
def nanZero : Zero (Option ℂ) := ⟨some 0⟩

/-- `dt(A)`, ff_combinatorics.py:148-177. -/
noncomputable def dtNan {m n : ℕ} (A : Matrix (Fin m) (Fin n) (Option ℂ)) : Except PyErr (Option ℂ) := dtOn nanArith A
/-- `pt(A)`, ff_combinatorics.py:116-145. -/
noncomputable def ptNan {m n : ℕ} (A : Matrix (Fin m) (Fin n) (Option ℂ)) : Except PyErr (Option ℂ) := ptOn nanArith A
/-- `pf(A)`, ff_combinatorics.py:36-73. -/
noncomputable def pfNan {m n : ℕ} (A : Matrix (Fin m) (Fin n) (Option ℂ)) : Except PyErr (Option ℂ) :=
  letI := nanZero
  pfOn nanArith nanDiv A
/-- `hf(A)`, ff_combinatorics.py:76-113. -/
noncomputable def hfNan {m n : ℕ} (A : Matrix (Fin m) (Fin n) (Option ℂ)) : Except PyErr (Option ℂ) :=
  letI := nanZero
  hfOn nanArith nanDiv A

/-- The sum of the entries of an array. -/
noncomputable def sumNan {ι : Type} [Fintype ι] (v : ι → Option ℂ) : Option ℂ :=
  open Classical in if ∀ i, (v i).isSome then some (∑ i, (v i).getD 0) else none

/-- `np.isclose`. -/
def iscloseNan : Option ℂ → Option ℂ → Prop
  | some a, some b => isclose a b
  | _, _ => False

/-- `np.allclose` for two arrays of the same shape. -/
def allcloseNan {m n : ℕ} (A B : Matrix (Fin m) (Fin n) (Option ℂ)) : Prop := ∀ i j, iscloseNan (A i j) (B i j)

/-- `A @ B`. -/
noncomputable def matmulNan {a b c : ℕ} (A : Matrix (Fin a) (Fin b) (Option ℂ)) (B : Matrix (Fin b) (Fin c) (Option ℂ)) :
    Matrix (Fin a) (Fin c) (Option ℂ) := Matrix.of fun i j => sumNan fun k => Option.map₂ (· * ·) (A i k) (B k j)

/-- `A.conj().T`. -/
noncomputable def ctNan {a b : ℕ} (A : Matrix (Fin a) (Fin b) (Option ℂ)) : Matrix (Fin b) (Fin a) (Option ℂ) :=
  Matrix.of fun i j => (A j i).map conj

/-- Lines 245-257 of `cast_to_density_matrix`. `pos` is the outcome of the test `np.all(np.linalg.eigvalsh(rho) >= -1e-12)` on an array
that contains nan, which is not specified. -/
noncomputable def validateDMNan (pos : Bool) {m n : ℕ} (rho : Matrix (Fin m) (Fin n) (Option ℂ)) :
    Except PyErr (Σ d : ℕ, Matrix (Fin d) (Fin d) (Option ℂ)) :=
  open Classical in
  if h : m ≠ n then .error .valueError
  else
    let rho : Matrix (Fin m) (Fin m) (Option ℂ) := rho.submatrix id (Fin.cast (not_not.mp h))
    if ¬ iscloseNan (some 1) (sumNan fun i => rho i i) then .error .assertionError
    else if ¬ allcloseNan rho (ctNan rho) then .error .assertionError
    else if (if ∀ i j, (rho i j).isSome then ¬ (∀ i, eigvalsh (Matrix.of fun i j => (rho i j).getD 0) i ≥ -1e-12) else pos = false) then
      .error .assertionError
    else .ok ⟨m, rho⟩

/-- Lines 225-243 of `cast_to_density_matrix`, the branch for vectors, on the flattened input. -/
noncomputable def castVectorNan (pos : Bool) {n : ℕ} (flat : Fin n → Option ℂ) :
    Except PyErr (Σ d : ℕ, Matrix (Fin d) (Fin d) (Option ℂ)) :=
  open Classical in
  if iscloseNan ((sumNan fun i => (flat i).map fun z => ((‖z‖ ^ 2 : ℝ) : ℂ)).map fun z => ((Real.sqrt z.re : ℝ) : ℂ)) (some 1) then
    validateDMNan pos (Matrix.of fun i j => Option.map₂ (fun z w => z * conj w) (flat i) (flat j))
  else if iscloseNan (sumNan fun i => (flat i).map fun z => ((‖z‖ : ℝ) : ℂ)) (some 1) then
    validateDMNan pos (Matrix.of fun i j => if i = j then flat i else some 0)
  else .error .valueError

/-- `cast_to_density_matrix(rho)`, ff_utils.py:208-257, for a vector. -/
noncomputable def castVecNan (pos : Bool) {n : ℕ} (v : Fin n → Option ℂ) :
    Except PyErr (Σ d : ℕ, Matrix (Fin d) (Fin d) (Option ℂ)) := castVectorNan pos v

/-- `cast_to_density_matrix(rho)`, ff_utils.py:208-257, for a matrix. -/
noncomputable def castMatNan (pos : Bool) {m n : ℕ} (A : Matrix (Fin m) (Fin n) (Option ℂ)) :
    Except PyErr (Σ d : ℕ, Matrix (Fin d) (Fin d) (Option ℂ)) :=
  if min m n = 1 then castVectorNan pos fun k : Fin (m * n) => A k.divNat k.modNat else validateDMNan pos A

/-- `is_symp(U)`, ff_lib.py:630-673, for square arrays of even size. -/
noncomputable def isSympNan {n : ℕ} (U : Matrix (Fin (n + n)) (Fin (n + n)) (Option ℂ)) : Bool :=
  open Classical in
  let S : Matrix (Fin (n + n)) (Fin (n + n)) (Option ℂ) := (swapS n).map some
  let aa := U.submatrix (Fin.castAdd n) (Fin.castAdd n)
  let bb := U.submatrix (Fin.castAdd n) (Fin.natAdd n)
  let cc := U.submatrix (Fin.natAdd n) (Fin.castAdd n)
  let dd := U.submatrix (Fin.natAdd n) (Fin.natAdd n)
  if allcloseNan aa (dd.map fun z => z.map conj) ∧ allcloseNan cc (bb.map fun z => z.map conj) then
    if allcloseNan (matmulNan (matmulNan U S) U.transpose) S then true else false
  else
    if allcloseNan (matmulNan (matmulNan U S) U.transpose) S then true else false

/-- `build_op(n_sites, R, alphas)`, ff_lib.py:758-794, for a coefficient array of the documented shape that may contain nan, and
finite operators. -/
noncomputable def buildOpNan {n d : ℕ} (R : Matrix (Fin (n + n)) (Fin (n + n)) (Option ℂ)) (alphas : Fin (n + n) → Op d) :
    Matrix (Fin d) (Fin d) (Option ℂ) :=
  open Classical in
  (List.finRange (n + n)).foldl (fun acc i => (List.finRange (n + n)).foldl (fun acc j =>
    if (∃ r, R i j = some r ∧ ‖r‖ < 1e-10) then acc
    else Matrix.of fun x y =>
      Option.map₂ (· + ·) (acc x y) (Option.map₂ (· * ·) (R i j) (some (((alphas i).conjTranspose * alphas j) x y)))) acc)
    (Matrix.of fun _ _ => some 0)

end FF
