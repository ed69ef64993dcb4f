import Verif.Model.Coefficients
import Verif.Model.Utils

/-!
# Model of `src/ff/ff_lib.py`, part 3: the symplectic eigensolvers

External numerical routines are parameters of the model:

* `schur : real array → (T, Z)` is `scipy.linalg.schur` (for `eigh_sp` with the sorting callback of lines
  1076-1081, for `eigm_sp_can` without). What it is assumed to return is stated in `Spec/Eigen.lean`.
* `argsort : real vector → index vector` is `np.argsort`, whose order among equal entries is unspecified.

`np.linalg.eigvalsh` is the model of `Model/Numpy.lean`.
-/

namespace FF

open scoped ComplexConjugate

/-- Real arrays. -/
abbrev RMat (m : ℕ) := Matrix (Fin m) (Fin m) ℝ

/-- A real array used as a complex one. -/
noncomputable def toC {m k : ℕ} (M : Matrix (Fin m) (Fin k) ℝ) : Matrix (Fin m) (Fin k) ℂ := M.map Complex.ofReal

/-- `M.real`. -/
def reArr {m k : ℕ} (M : Matrix (Fin m) (Fin k) ℂ) : Matrix (Fin m) (Fin k) ℝ := M.map Complex.re

/-- `M.imag`. -/
def imArr {m k : ℕ} (M : Matrix (Fin m) (Fin k) ℂ) : Matrix (Fin m) (Fin k) ℝ := M.map Complex.im

/-- `np.sign(x)` for a real number. -/
noncomputable def npSign (x : ℝ) : ℝ := if 0 < x then 1 else if x < 0 then -1 else 0

/-- `assert cond`. -/
noncomputable def pyAssert (cond : Prop) : Except PyErr Unit :=
  open Classical in if cond then .ok () else .error .assertionError

/-- One round of the loop at ff_lib.py:1117-1122. -/
noncomputable def flipStep {n : ℕ} (evsLMag evsA : Fin n → ℝ) (F : RMat (n + n)) (i : Fin n) : RMat (n + n) :=
  open Classical in
  if isclose (npSign (evsLMag i) : ℂ) (npSign (evsA i) : ℂ) then
    set2 (set2 (set2 (set2 F ⟨2 * i, by omega⟩ ⟨2 * i + 1, by omega⟩ 1)
      ⟨2 * i + 1, by omega⟩ ⟨2 * i, by omega⟩ 1)
      ⟨2 * i, by omega⟩ ⟨2 * i, by omega⟩ 0)
      ⟨2 * i + 1, by omega⟩ ⟨2 * i + 1, by omega⟩ 0
  else F

/-- `Flips`, ff_lib.py:1116-1122. -/
noncomputable def flips {n : ℕ} (evsLMag evsA : Fin n → ℝ) : RMat (n + n) :=
  (List.finRange n).foldl (flipStep evsLMag evsA) 1

/-- The matrix `P` by which the columns of `Orth` are rearranged, ff_lib.py:1100-1128.
`permutation_to_matrix` returns `None` for entries out of range, on which `np.kron` raises `TypeError`. -/
noncomputable def sortMatrix {n : ℕ} (argsort : (Fin n → ℝ) → Fin n → ℕ) (L : RMat (n + n)) (A : Op n) :
    Except PyErr (RMat (n + n)) := do
  let evsA := eigvalsh A
  let evsL : Fin n → ℝ := fun i => L ⟨2 * i, by omega⟩ ⟨2 * i + 1, by omega⟩
  let permA := argsort fun i => |evsA i|
  let permL := argsort fun i => |evsL i|
  let perm ← (List.finRange n).mapM fun i => listGet (List.ofFn permL) (permA i)
  let evsLMag ← perm.mapM fun k => listGet (List.ofFn evsL) k
  let F := flips (fun i => evsLMag.getD i 0) evsA
  match permutationToMatrix (fun i : Fin n => ((perm.getD i 0 : ℕ) : ℤ)) with
  | none => .error .typeError
  | some P =>
    let blocks : RMat (n * 2) := npKron (P.map fun z => (z : ℝ)) (1 : RMat 2)
    .ok (blocks.submatrix (Fin.cast (Nat.mul_two n).symm) (Fin.cast (Nat.mul_two n).symm) * F)

/-- The phases, ff_lib.py:1139-1144. -/
noncomputable def phasesU {m : ℕ} (U : Op m) : Fin m → ℂ := fun i =>
  open Classical in
  if 1e-9 < ‖conj (U i i)‖ then conj (U i i) / (‖conj (U i i)‖ : ℂ) else 1

/-- Lines 1131-1149 of `eigh_sp`: from the orthogonal matrix to the returned pair. -/
noncomputable def eighFinish {n : ℕ} (H : Op (n + n)) (Orth : RMat (n + n)) : Op (n + n) × Op (n + n) :=
  let Omega := buildOmega n
  let Uo := Omega.conjTranspose * toC Orth * Omega
  let U := Uo * (buildK n).conjTranspose
  let U := U * Matrix.diagonal (phasesU U)
  (U.conjTranspose * H * U, U)

/-- `eigh_sp(H)`, ff_lib.py:1016-1150, for a square array of even size; returns the pair `(L, U)`. -/
noncomputable def eighSp {n : ℕ} (schur : RMat (n + n) → RMat (n + n) × RMat (n + n))
    (argsort : (Fin n → ℝ) → Fin n → ℕ) (H : Op (n + n)) : Except PyErr (Op (n + n) × Op (n + n)) :=
  open Classical in do
  let Omega := buildOmega n
  let ih := Complex.I • Omega * H * Omega.conjTranspose
  pyAssert (allclose 0 (ih + ih.transpose))
  pyAssert (allclose ih (toC (reArr ih)))
  let ih := reArr ih
  let L := (schur ih).1
  let Orth := (schur ih).2
  pyAssert (checkCanonicalForm (toC L) = true)
  pyAssert (allclose (toC (Orth * Orth.transpose)) 1)
  pyAssert (checkCanonicalForm (toC (Orth.transpose * ih * Orth)) = true)
  pyAssert (allclose (toC Orth) (toC (reArr (toC Orth))))
  pyAssert (allclose (toC (Orth * L * Orth.transpose)) (toC ih))
  let A := blk22 H
  if allclose A 0 then pure (eighFinish H Orth)
  else do
    let P ← sortMatrix argsort L A
    pure (eighFinish H (Orth * P))

/-- `eigv_sp(V)`, ff_lib.py:1153-1200. -/
noncomputable def eigvSp {n : ℕ} (schur : RMat (n + n) → RMat (n + n) × RMat (n + n))
    (argsort : (Fin n → ℝ) → Fin n → ℕ) (V : Op (n + n)) : Except PyErr (Op (n + n) × Op (n + n)) := do
  let S := swapS n
  let H := S * V
  let r ← eighSp schur argsort H
  pure (S * r.1, r.2)

/-- `eigm_sp(G)`, ff_lib.py:1290-1339. -/
noncomputable def eigmSp {n : ℕ} (schur : RMat (n + n) → RMat (n + n) × RMat (n + n))
    (argsort : (Fin n → ℝ) → Fin n → ℕ) (G : Op (n + n)) : Except PyErr (Op (n + n) × Op (n + n)) := do
  let Omega := buildOmega n
  let H := Omega.conjTranspose * G * Omega
  let r ← eighSp schur argsort H
  let Orth := Omega * r.2 * Omega.conjTranspose
  let L := Orth.transpose * G * Orth
  pure (L, Orth)

/-- The loop at ff_lib.py:1267-1278: the blocks `x` or `id` joined with `kron_plus`, for the first `k + 1`
eigenvalues. -/
noncomputable def pMat (evs : ℕ → ℝ) : (k : ℕ) → Except PyErr (RMat (2 * k + 2))
  | 0 => .ok ((if evs 0 > 0 then !![0, 1; 1, 0] else 1 : RMat 2))
  | k + 1 => do
    let P ← pMat evs k
    let Q : RMat (2 * k + 2 + 2) ← kronPlus P (if evs (k + 1) > 0 then !![0, 1; 1, 0] else 1 : RMat 2)
    .ok Q

/-- `eigm_sp_can(G)`, ff_lib.py:1203-1287; `evs_a_p[0]` raises `IndexError` for an empty array. -/
noncomputable def eigmSpCan {n : ℕ} (schur : RMat (n + n) → RMat (n + n) × RMat (n + n))
    (argsort : (Fin n → ℝ) → Fin n → ℕ) (G : Op (n + n)) : Except PyErr (Op (n + n) × RMat (n + n)) :=
  open Classical in do
  pyAssert (allclose G (Complex.I • toC (imArr G)))
  let iG := - imArr G
  let O := (schur iG).2
  let Omega := buildOmega n
  let H := Omega.conjTranspose * G * Omega
  let A := blk22 H
  if allclose A 0 then
    pure ((toC O).transpose * G * toC O, O)
  else do
    let evsA := eigvalsh A
    let p : List ℕ := (List.ofFn (argsort fun i => |evsA i|)).reverse
    let evsAp ← p.mapM fun k => listGet (List.ofFn evsA) k
    if h : n = 0 then .error .indexError
    else do
      let P ← pMat (fun k => evsAp.getD k 0) (n - 1)
      let O' := O * P.submatrix (Fin.cast (by omega)) (Fin.cast (by omega))
      pure ((toC O').transpose * G * toC O', O')

end FF
