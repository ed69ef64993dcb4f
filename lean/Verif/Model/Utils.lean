import Verif.Model.Numpy

/-!
# Model of `src/ff/ff_utils.py`

Drawing is not modelled; the data that `analyze_pdf` draws is in Model/Plot.lean.
-/

namespace FF

open scoped ComplexConjugate

/-! ## kron_plus -/

/-- `kron_plus(a, b)`, ff_utils.py:177-188. `Z01` has shape `(a.shape[0], b.shape[1])`.
`np.block` first joins each row of blocks: `[a, Z01]` always fits, `[Z01.T, b]` needs
`b.shape[1] == b.shape[0]`; then the two rows need equal widths
`a.shape[1] + b.shape[1] == a.shape[0] + b.shape[1]`. Otherwise it raises `ValueError`. -/
def kronPlus {K : Type} [Zero K] {p q r s : ℕ} (a : Matrix (Fin p) (Fin q) K)
    (b : Matrix (Fin r) (Fin s) K) : Except PyErr (Matrix (Fin (p + r)) (Fin (q + s)) K) :=
  if s ≠ r then .error .valueError
  else if q + s ≠ p + s then .error .valueError
  else .ok (Matrix.of fun i j =>
    Fin.addCases
      (fun i' => Fin.addCases (fun j' => a i' j') (fun _ => 0) j)
      (fun i' => Fin.addCases (fun _ => 0) (fun j' => b i' j') j) i)

/-! ## generate_random_bitstring -/

/-- `generate_random_bitstring(n, k)`, ff_utils.py:155-174. `choice n k` is the array of indices that
`np.random.choice(n, size=k, replace=False)` returns; `none` is Python's `None`. The weight `k` may be
any integer. -/
def generateRandomBitstring (choice : ℕ → ℕ → List ℕ) (n : ℕ) (k : ℤ) : Option (List ℕ) :=
  if k < 0 ∨ k > n then none
  else
    let bitstring := List.replicate n 0
    let indices := choice n k.toNat
    some (indices.foldl (fun bs i => bs.set i 1) bitstring)

/-! ## casting to states -/

/-- An array argument: 1-D of length `n` or 2-D of shape `(m, n)`, with complex entries
(`np.asarray(rho, dtype=complex)`). Arrays with 0 or more than 2 axes are not modelled. -/
inductive Arr where
  | vec (n : ℕ) (v : Fin n → ℂ)
  | mat (m n : ℕ) (A : Matrix (Fin m) (Fin n) ℂ)

/-- `rho.flatten()` (row-major). -/
def Arr.flatten : Arr → Σ n : ℕ, (Fin n → ℂ)
  | .vec n v => ⟨n, v⟩
  | .mat m n A => ⟨m * n, fun k => A k.divNat k.modNat⟩

/-- `np.linalg.norm(v, ord=1)`. -/
noncomputable def l1norm {n : ℕ} (v : Fin n → ℂ) : ℝ := ∑ i, ‖v i‖
/-- `np.linalg.norm(v, ord=2)`. -/
noncomputable def l2norm {n : ℕ} (v : Fin n → ℂ) : ℝ := Real.sqrt (∑ i, ‖v i‖ ^ 2)

/-- Lines 245-257 of `cast_to_density_matrix`: the checks on the candidate matrix, in order. -/
noncomputable def validateDM {m n : ℕ} (rho : Matrix (Fin m) (Fin n) ℂ) :
    Except PyErr (Σ d : ℕ, Matrix (Fin d) (Fin d) ℂ) :=
  open Classical in
  if h : m ≠ n then .error .valueError
  else
    let rho : Matrix (Fin m) (Fin m) ℂ := rho.submatrix id (Fin.cast (not_not.mp h))
    if ¬ isclose 1 (npTrace rho) then .error .assertionError
    else if ¬ allclose rho rho.conjTranspose then .error .assertionError
    else if ¬ (∀ i, eigvalsh rho i ≥ -1e-12) then .error .assertionError
    else .ok ⟨m, rho⟩

/-- Lines 225-243 of `cast_to_density_matrix`, the branch for vectors, on the flattened input. -/
noncomputable def castVector {n : ℕ} (flat : Fin n → ℂ) :
    Except PyErr (Σ d : ℕ, Matrix (Fin d) (Fin d) ℂ) :=
  open Classical in
  if isclose (l2norm flat) 1 then
    -- rho.reshape(-1, 1) @ its conjugate transpose
    validateDM (Matrix.of fun i j => flat i * conj (flat j))
  else if isclose (l1norm flat) 1 then
    validateDM (Matrix.diagonal flat)
  else .error .valueError

/-- `cast_to_density_matrix(rho)`, ff_utils.py:208-257: 1-D arrays and arrays with a side of length 1
are vectors. -/
noncomputable def castToDensityMatrix (rho : Arr) :
    Except PyErr (Σ d : ℕ, Matrix (Fin d) (Fin d) ℂ) :=
  match rho with
  | .vec n v => castVector v
  | .mat m n A => if min m n = 1 then castVector (Arr.mat m n A).flatten.2 else validateDM A

/-- `cast_to_pdf(rho)`, ff_utils.py:191-205. -/
noncomputable def castToPdf (rho : Arr) : Except PyErr (Σ d : ℕ, Fin d → ℝ) :=
  open Classical in do
  let ⟨d, rho⟩ ← castToDensityMatrix rho
  let pdf : Fin d → ℂ := fun i => rho i i
  if allclose1 pdf (fun i => ((pdf i).re : ℂ)) then .ok ⟨d, fun i => (pdf i).re⟩
  else .error .valueError

/-! ## partial traces -/

/-- The test `int(D / d) == D / d` of both partial traces (ff_utils.py:407-409, 461-464), and the block
count `int(D / d)`. Division by zero raises `ZeroDivisionError`. The divisor is a natural number:
negative `d` is not modelled (the docstring asks for a positive integer). -/
def blockCount (D d : ℕ) : Except PyErr ℕ :=
  if d = 0 then .error .zeroDivisionError
  else if ¬ (d ∣ D) then .error .assertionError
  else .ok (D / d)

/-- `AB[x, y]` where the caller knows the subscripts are in range (0 otherwise; the slices of the
partial traces never leave the array). -/
def entry {D E : ℕ} (AB : Matrix (Fin D) (Fin E) ℂ) (x y : ℕ) : ℂ :=
  if h : x < D ∧ y < E then AB ⟨x, h.1⟩ ⟨y, h.2⟩ else 0

/-- `partial_trace_diagblocksum(AB, d)` (exported as `partial_trace_over_1`), ff_utils.py:373-424, for
square `AB`. The result has shape `(d, d)`. -/
def partialTraceOver1 {D : ℕ} (AB : Matrix (Fin D) (Fin D) ℂ) (d : ℕ) :
    Except PyErr (Matrix (Fin d) (Fin d) ℂ) := do
  let d2 ← blockCount D d
  -- for j in range(d2): A += AB[j*d : j*d + d, j*d : j*d + d]
  .ok ((List.range d2).foldl (fun A j =>
    A + Matrix.of fun (x y : Fin d) => entry AB (j * d + x) (j * d + y)) 0)

/-- `partial_trace_blockTr(AB, d)` (exported as `partial_trace_over_2`), ff_utils.py:427-488, for square
`AB`. The final cast to real drops the imaginary part when all of it is below the tolerance of
`np.allclose`. -/
noncomputable def partialTraceOver2 {D : ℕ} (AB : Matrix (Fin D) (Fin D) ℂ) (d : ℕ) :
    Except PyErr (Matrix (Fin d) (Fin d) ℂ) :=
  open Classical in do
  let d1 ← blockCount D d
  let B : Matrix (Fin d) (Fin d) ℂ := Matrix.of fun i j =>
    (List.range d1).foldl (fun t k => t + entry AB (i * d1 + k) (j * d1 + k)) 0
  if allclose (Matrix.of fun i j => ((B i j).im : ℂ)) (0 : Matrix (Fin d) (Fin d) ℂ) then
    .ok (Matrix.of fun i j => ((B i j).re : ℂ))
  else .ok B

end FF
