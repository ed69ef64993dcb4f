import Verif.Model.Coefficients
import Verif.Model.Combinatorics
import Verif.Model.Distance
import Mathlib.LinearAlgebra.Matrix.Rank

/-!
# Model of the messages of `ff_lib.py`, `ff_combinatorics.py` and `ff_distance_measures.py`

The functions of the other files that print, once more, with everything they print. A call is modelled by the list of its
calls of `print`, each with the list of printed objects, together with the value it returns or the exception it raises;
what was printed before an exception is kept. How a number or an array is turned into text is not modelled.
-/

namespace FF

/-- An object passed to `print`. -/
inductive Item where
  | str (s : String)
  | nat (n : ℕ)
  | bool (b : Bool)
  | num (z : ℂ)
  | real (x : ℝ)
  /-- a 1-D array -/
  | arr1 (l : List ℂ)
  /-- a 2-D array -/
  | arr2 {m k : ℕ} (M : Matrix (Fin m) (Fin k) ℂ)
  /-- a tuple of integers, the shape of an array -/
  | shape (l : List ℕ)

/-- The printed lines of a call, and the returned value or the exception. -/
structure Talk (α : Type) where
  lines : List (List Item)
  result : Except PyErr α

/-- Run one computation after the other; nothing is printed after an exception. -/
def Talk.bind {α β : Type} (x : Talk α) (f : α → Talk β) : Talk β :=
  match x.result with
  | .error e => ⟨x.lines, .error e⟩
  | .ok a => ⟨x.lines ++ (f a).lines, (f a).result⟩

instance : Monad Talk where
  pure a := ⟨[], .ok a⟩
  bind := Talk.bind

/-- `print(...)`. -/
def say (l : List Item) : Talk Unit := ⟨[l], .ok ()⟩

/-- A computation that prints nothing. -/
def silent {α : Type} (x : Except PyErr α) : Talk α := ⟨[], x⟩

/-- `if c: print(...)`. -/
def sayIf (c : Prop) [Decidable c] (l : List Item) : Talk Unit := if c then say l else pure ()

/-- The loop of `permutation_to_matrix` with its message, ff_lib.py:40-46, over the remaining positions. -/
def permutationLoopTalk {n : ℕ} (permutation : Fin n → ℤ) :
    List (Fin n) → Matrix (Fin n) (Fin n) ℤ → Talk (Option (Matrix (Fin n) (Fin n) ℤ))
  | [], matrix => pure (some matrix)
  | i :: l, matrix =>
    if h : 0 ≤ permutation i ∧ permutation i < n then
      permutationLoopTalk permutation l (set2 matrix ⟨(permutation i).toNat, by omega⟩ i 1)
    else do
      say [.str "Invalid permutation"]
      pure none

/-- `permutation_to_matrix(permutation)` with its message, ff_lib.py:27-46. -/
def permutationToMatrixTalk {n : ℕ} (permutation : Fin n → ℤ) : Talk (Option (Matrix (Fin n) (Fin n) ℤ)) :=
  permutationLoopTalk permutation (List.finRange n) 0

/-- `_perform_rotation(C, alphas, verbose)` with its messages, ff_lib.py:299-345. -/
noncomputable def performRotationTalk {m k d : ℕ} (C : Matrix (Fin m) (Fin k) ℂ) (alphas : List (Op d)) (verbose : Bool) :
    Talk (List (Op d)) :=
  open Classical in
  (List.range alphas.length).mapM fun j => do
    sayIf verbose [.str "\nj", .nat j, .str "\n----"]
    (List.range alphas.length).foldlM (fun b i => do
      let c ← silent (get2 C j i)
      if ‖c‖ < 1e-9 then pure b
      else do
        let a ← silent (listGet alphas i)
        sayIf verbose [.str "b[", .nat j, .str "] += C[", .nat j, .str ",", .nat i, .str "]  alpha_", .nat i, .str "= ",
          .num (npRoundC 3 c), .str " alpha_", .nat i, .str "\n"]
        pure (b + c • a)) 0

/-- `rotate_operators(C, alphas, Left, verbose)` with its messages, ff_lib.py:259-296. -/
noncomputable def rotateOperatorsTalk {m k d : ℕ} (args : RotArgs m k d) (left verbose : Bool) :
    Talk (Option (List (Op d))) :=
  let (C, alphas) : Matrix (Fin m) (Fin k) ℂ × List (Op d) :=
    match args with
    | .matrixFirst C alphas => (C, alphas)
    | .listFirst alphas C => (C, alphas)
  let n := alphas.length
  if m ≠ n ∧ k ≠ n then do
    say [.str "dimensions are incompatible"]
    if ¬ (m > n ∧ k > n) then pure none
    else if left then return some (← performRotationTalk C.conjTranspose alphas verbose)
    else return some (← performRotationTalk C alphas verbose)
  else if left then return some (← performRotationTalk C.conjTranspose alphas verbose)
  else return some (← performRotationTalk C alphas verbose)

/-- `is_symp(U)` with its messages, ff_lib.py:630-673, for square arrays of even size. -/
noncomputable def isSympTalk {n : ℕ} (U : Op (n + n)) : Talk Bool :=
  open Classical in
  let S := swapS n
  if allclose (blk11 U) (cj (blk22 U)) ∧ allclose (blk21 U) (cj (blk12 U)) then
    if allclose (U * S * U.transpose) S then pure true
    else do
      say [.str "Error: Canonical form but not symplectic"]
      pure false
  else
    if allclose (U * S * U.transpose) S then do
      say [.str "Not canonical but still symplectic"]
      pure true
    else pure false

/-- `check_canonical_form(L)` with its messages, ff_lib.py:676-715. -/
noncomputable def checkCanonicalFormTalk {m k : ℕ} (L : Matrix (Fin m) (Fin k) ℂ) : Talk Bool :=
  open Classical in
  if m % 2 ≠ 0 then do
    say [.str "Odd dimension for input matrix"]
    pure false
  else if h : k ≠ m then do
    say [.str "Not square, real, and skew-symmetric"]
    pure false
  else
    let L : Op m := L.submatrix id (Fin.cast (not_not.mp h).symm)
    if ¬ allclose L (cj L) ∨ ¬ allclose L (-L.transpose) then do
      say [.str "Not square, real, and skew-symmetric"]
      pure false
    else if ¬ allclose (canonicalCopy L (m / 2)) L then do
      say [.str "Too many non-zero elements"]
      pure false
    else pure true

/-- `build_op(n_sites, R, alphas, verbose, direct)` with its messages, ff_lib.py:758-794. -/
noncomputable def buildOpTalk {m k d : ℕ} (nSites : ℕ) (R : Matrix (Fin m) (Fin k) ℂ)
    (alphas : List (Op d)) (verbose direct : Bool) : Talk (Op d) :=
  open Classical in do
  sayIf (m ≠ 2 * nSites ∨ k ≠ 2 * nSites) [.str "R incorrectly formmatted. Use `build_H` to create R"]
  let _ ← silent (listGet alphas 0)
  (List.range (2 * nSites)).foldlM (fun acc i =>
    (List.range (2 * nSites)).foldlM (fun acc j => do
      let r ← silent (get2 R i j)
      if ‖r‖ < 1e-10 then pure acc
      else do
        let ai ← silent (listGet alphas i)
        let aj ← silent (listGet alphas j)
        let acc := if direct then acc + r • (ai * aj) else acc + r • (ai.conjTranspose * aj)
        sayIf verbose [.str "\nR_op so far:"]
        sayIf verbose [.arr2 acc]
        pure acc) acc) 0

/-- `generate_gaussian_state(n_sites, H, alphas)` with its messages, ff_lib.py:718-755. -/
noncomputable def generateGaussianStateTalk {h : ℕ} (n : ℕ) (H : Op h)
    (alphas : Option (List (Op (2 ^ n)))) : Talk (Option (Op (2 ^ n))) := do
  let alphas := alphas.getD (jordanWignerAlphas n)
  let hop : Option (Op (2 ^ n)) ←
    if h = 2 * n then do
      let r ← buildOpTalk n H alphas false false
      pure (some r)
    else pure none
  let hop := if e : h = 2 ^ n then some (castOp e H) else hop
  match hop with
  | none =>
    say [.shape [h, h]]
    say [.str "Invalid Hamiltonian size ", .shape [h, h], .str "\nShould be dim: ", .nat (2 * n), .str " or ", .nat (2 ^ n)]
    pure none
  | some hop =>
    let rho := expm (-hop)
    pure (some ((npTrace rho)⁻¹ • rho))

/-- The order of complex numbers used by `np.min`, `np.max` and `sort`: by real part, then by imaginary part. -/
noncomputable def lexLt (z w : ℂ) : Bool := open Classical in decide (z.re < w.re ∨ z.re = w.re ∧ z.im < w.im)

/-- `np.min` of a complex array; `np.max` with the arguments of the comparison exchanged. An empty array raises
ValueError. -/
noncomputable def extreme (lt : ℂ → ℂ → Bool) : List ℂ → Except PyErr ℂ
  | [] => .error .valueError
  | z :: l => .ok (l.foldl (fun m w => if lt w m then w else m) z)

/-- The summary printed by `compute_algebra_S(alphas, verbose=True)`, ff_lib.py:934-941. `eigvals` is
`np.linalg.eigvals`. The rank is the exact one; for an array of size 0 `np.linalg.matrix_rank` raises ValueError. -/
noncomputable def algebraSummary (eigvals : {m : ℕ} → Op m → Except PyErr (List ℂ)) {m : ℕ} (S : Op m) : Talk Unit :=
  open Classical in do
  say [.str "\nAlgebra properties\n"]
  say [.str "Is symmetric?", .bool (decide (allclose 0 (S - S.transpose)))]
  let rank ← silent (if m = 0 then .error .valueError else .ok S.rank)
  say [.str "Rank:", .nat rank]
  say [.str "Trace:", .num (npTrace S)]
  let evals ← silent (eigvals S)
  let evals := evals.mergeSort (fun z w => !lexLt w z)
  let lo ← silent (extreme lexLt evals)
  let hi ← silent (extreme (fun z w => lexLt w z) evals)
  say [.str "Eigenvalue max,min:", .num lo, .num hi]

/-- One entry of `compute_algebra_S(alphas, verbose)`, ff_lib.py:913-932. -/
noncomputable def algebraEntry {d : ℕ} (alphas : List (Op d)) (verbose : Bool) (i j : ℕ) : Talk ℂ :=
  open Classical in do
  let ai ← silent (listGet alphas i)
  let aj ← silent (listGet alphas j)
  let anticomm := ai * aj + aj * ai
  if allclose anticomm 0 then pure 0
  else do
    let s ← silent (get2 anticomm 0 0)
    sayIf verbose [.str "s_ij=", .num s]
    sayIf verbose [.str "anticomm_ij.shape", .shape [d, d]]
    if ¬ allclose (s • 1) anticomm then do
      say [.str "Error:"]
      say [.arr1 (List.ofFn fun x => anticomm x x)]
      say [.num s]
      pure s
    else pure s

/-- `compute_algebra_S(alphas, verbose)` with its messages, ff_lib.py:892-943. -/
noncomputable def computeAlgebraSTalk (eigvals : {m : ℕ} → Op m → Except PyErr (List ℂ)) {d : ℕ} (alphas : List (Op d))
    (verbose : Bool) : Talk ((n : ℕ) × Op (n + n)) := do
  let _ ← silent (listGet alphas 0)
  let n := alphas.length / 2
  let rows ← (List.range (2 * n)).mapM fun i => (List.range (2 * n)).mapM fun j => algebraEntry alphas verbose i j
  let S : Op (n + n) := Matrix.of fun i j => (rows.getD i []).getD j 0
  if verbose then do
    algebraSummary eigvals S
    pure ⟨n, S⟩
  else pure ⟨n, S⟩

/-- `is_matchgate(M, verbose)` with its messages, ff_lib.py:946-989. -/
noncomputable def isMatchgateTalk {m k : ℕ} (M : Matrix (Fin m) (Fin k) ℂ) (verbose : Bool) : Talk Bool :=
  open Classical in
  if h : m = 4 ∧ k = 4 then
    let M : Op 4 := M.submatrix (Fin.cast h.1.symm) (Fin.cast h.2.symm)
    let corner : Op 2 := !![M 0 0, M 0 3; M 3 0, M 3 3]
    let inner : Op 2 := M.submatrix ![1, 2] ![1, 2]
    if isclose inner.det corner.det then do
      sayIf verbose [.str "Satisfies the matchgate condition, det1=det2=", .num (npRoundC 4 inner.det)]
      pure true
    else do
      sayIf verbose [.str "Not matchgate\n det1=", .num (npRoundC 4 inner.det), .str "; det2=",
        .num (npRoundC 4 corner.det)]
      pure false
  else do
    say [.str "Wrong size - input must be 4x4 matrix"]
    pure false

/-- `dt_eigen(A)` with its messages, ff_combinatorics.py:180-212. -/
def dtEigenTalk (eigvals : {n : ℕ} → Matrix (Fin n) (Fin n) ℂ → Except PyErr (List ℂ))
    {rows cols : ℕ} (A : Matrix (Fin rows) (Fin cols) ℂ) : Talk (Option ℂ) :=
  if h : rows ≠ cols then do
    say [.str "Input matrix must be square."]
    pure none
  else
    match eigvals (n := rows) (A.submatrix id (Fin.cast (not_not.mp h))) with
    | .ok eigenvalues => pure (some (eigenvalues.foldl (· * ·) 1))
    | .error .linAlgError => do
      say [.str "Eigenvalue decomposition failed."]
      pure none
    | .error e => silent (.error e)

/-- `stabilizer_distribution(rho)` with its warning, ff_distance_measures.py:35-149. The printed sum is
`clean(np.sum(xi))`, here before cleaning. -/
noncomputable def stabilizerDistributionTalk (x : Arr) : Talk (List ℝ) :=
  open Classical in do
  let ⟨N, rho⟩ ← silent (castToDensityMatrix x)
  let nQubits := intLog2 N
  let purRho ← silent (realPart (npTrace (rho * rho)))
  let d : ℝ := 2 ^ nQubits * purRho
  let ⟨k, pauliGroup, _⟩ ← silent (generatePauliGroup (.int nQubits) false)
  if e : N = 2 ^ k then
    let xi ← silent (pauliGroup.mapM fun Pj => do
      let expectP ← realPart (npTrace (Pj * castOp e rho))
      pure (expectP * expectP / d))
    sayIf (¬ isclose (xi.sum : ℝ) 1) [.str "Warning: stabilizer distribution sum =", .real xi.sum]
    if isclose (xi.sum : ℝ) 1 then pure xi else silent (.error .assertionError)
  else silent (.error .valueError)

end FF
