import Verif.Model.Numpy
import Mathlib.Algebra.BigOperators.Fin

/-!
# Model of `src/ff/ff_lib.py`, part 1: permutation matrices, Pauli and Jordan-Wigner operators

Operators are square complex matrices; Python lists of operators are Lean lists.
-/

namespace FF

open scoped ComplexConjugate

/-- A `(d, d)` complex array. -/
abbrev Op (d : ℕ) := Matrix (Fin d) (Fin d) ℂ

/-- `M[r, c] = v`. -/
def set2 {K : Type} {m n : ℕ} (M : Matrix (Fin m) (Fin n) K) (r : Fin m) (c : Fin n) (v : K) :
    Matrix (Fin m) (Fin n) K :=
  Matrix.of fun x y => if x = r ∧ y = c then v else M x y

/-- `permutation_to_matrix(permutation)`, ff_lib.py:27-46, for a list of `n` integers. `none` is Python's
`None`; the printed message is not modelled. -/
def permutationToMatrix {n : ℕ} (permutation : Fin n → ℤ) : Option (Matrix (Fin n) (Fin n) ℤ) :=
  (List.finRange n).foldlM (fun matrix i =>
    if h : 0 ≤ permutation i ∧ permutation i < n then
      some (set2 matrix ⟨(permutation i).toNat, by omega⟩ i 1)
    else none) 0

/-- `pauli_matrices()`, ff_lib.py:49-54. -/
def sigmaX : Op 2 := !![0, 1; 1, 0]
@[inherit_doc sigmaX] def sigmaY : Op 2 := !![0, -Complex.I; Complex.I, 0]
@[inherit_doc sigmaX] def sigmaZ : Op 2 := !![1, 0; 0, -1]

/-- The loop `t = 1; for j in range(k): t = np.kron(t, f(j))` over 2 x 2 matrices. The running scalar or
array is kept as a `2^j x 2^j` array from the start (`np.kron(1, M)` is `M`, as is `np.kron([[1]], M)`).
Used at ff_lib.py:150-154 (there the loop starts with the first factor itself) and 188-198. -/
def kronAll : (k : ℕ) → (Fin k → Op 2) → Op (2 ^ k)
  | 0, _ => 1
  | k + 1, f => npKron (kronAll k (f ∘ Fin.castSucc)) (f (Fin.last k))

/-- `itertools.product(pool, repeat=k)`, as defined in the Python documentation:
`result = [[]]; repeat: result = [x + [y] for x in result for y in pool]`. -/
def productRepeat {α : Type} (pool : List α) : (k : ℕ) → List (Fin k → α)
  | 0 => [Fin.elim0]
  | k + 1 => (productRepeat pool k).flatMap fun x => pool.map fun y => Fin.snoc x y

/-- `paulis = [identity, sigma_x, sigma_y, sigma_z]`, ff_lib.py:139. -/
def paulis : List (Op 2) := [1, sigmaX, sigmaY, sigmaZ]

/-- `pauli_names`, ff_lib.py:140. -/
def pauliNames : List Char := ['I', 'X', 'Y', 'Z']

/-- The loop at ff_lib.py:164-167: the name of the first matrix in the list equal to `M`. -/
noncomputable def pauliName (M : Op 2) : Option Char :=
  open Classical in
  ((paulis.zip pauliNames).find? fun pn => decide (M = pn.1)).map (·.2)

/-- An argument that should be an integer. -/
inductive IntArg where
  | int (n : ℤ)
  | other

/-- The loop of `generate_pauli_group`, ff_lib.py:145-168: the list of operators and the printed lines. -/
noncomputable def pauliLoop (n : ℕ) (verbose : Bool) : List (Op (2 ^ n)) × List (List Char) :=
  (productRepeat paulis n).foldl (fun acc combination =>
    (acc.1 ++ [kronAll n combination],
     if verbose then acc.2 ++ [(List.ofFn combination).filterMap pauliName] else acc.2)) ([], [])

/-- `generate_pauli_group(n, verbose)`, ff_lib.py:57-170: the returned list and the printed lines. -/
noncomputable def generatePauliGroup (n : IntArg) (verbose : Bool) :
    Except PyErr ((k : ℕ) × (List (Op (2 ^ k)) × List (List Char))) :=
  match n with
  | .other => .error .typeError
  | .int n =>
    if n ≤ 0 then .error .valueError
    else .ok ⟨n.toNat, pauliLoop n.toNat verbose⟩

/-- `Sminus = (sigma_x + 1j * sigma_y) / 2`, ff_lib.py:190. -/
noncomputable def sMinus : Op 2 := (2⁻¹ : ℂ) • (sigmaX + Complex.I • sigmaY)

/-- Lines 188-198 of `jordan_wigner_lowering`: the operator for site `i`. -/
noncomputable def jwLower (nSites : ℕ) (i : ℕ) : Op (2 ^ nSites) :=
  kronAll nSites fun j => if (j : ℕ) < i then sigmaZ else if (j : ℕ) = i then sMinus else 1

/-- `jordan_wigner_lowering(n_sites)`, ff_lib.py:173-202. -/
noncomputable def jordanWignerLowering (nSites : ℕ) : List (Op (2 ^ nSites)) :=
  (List.range nSites).map (jwLower nSites)

/-- `jordan_wigner_alphas(n_sites)`, ff_lib.py:205-219: `raising + lowering`. -/
noncomputable def jordanWignerAlphas (nSites : ℕ) : List (Op (2 ^ nSites)) :=
  let lowering := jordanWignerLowering nSites
  let raising := lowering.map Matrix.conjTranspose
  raising ++ lowering

/-- `jordan_wigner_majoranas(n_sites)`, ff_lib.py:222-256. -/
noncomputable def jordanWignerMajoranas (nSites : ℕ) : List (Op (2 ^ nSites)) :=
  let a := jordanWignerLowering nSites
  a.map (fun x => (((Real.sqrt 2 : ℝ) : ℂ)⁻¹) • (x.conjTranspose + x)) ++
  a.map (fun x => (((Real.sqrt 2 : ℝ) : ℂ)⁻¹) • ((-Complex.I) • (x - x.conjTranspose)))

end FF
