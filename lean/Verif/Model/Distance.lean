import Verif.Model.Utils
import Verif.Model.Operators
import Verif.Model.Coefficients
import Verif.Model.Eigen
import Mathlib.Analysis.SpecialFunctions.Log.ERealExp
import Mathlib.Analysis.SpecialFunctions.Pow.Real

/-!
# Model of `ff_distance_measures.py`

Entropies that can be infinite are extended reals. Printing is not modelled.
-/

namespace FF

open Matrix

/-- `int(np.log2(d))` for a positive dimension `d`: truncation of the exact logarithm. -/
noncomputable def intLog2 (d : ℕ) : ℕ := ⌊Real.logb 2 d⌋₊

/-! ## the stabilizer distribution -/

/-- `abs(z.imag) < 1e-9`, keep `z.real`, otherwise raise ValueError: ff_distance_measures.py:109-112 and
129-135. -/
noncomputable def realPart (z : ℂ) : Except PyErr ℝ :=
  open Classical in if |z.im| < 1e-9 then .ok z.re else .error .valueError

/-- `stabilizer_distribution(rho)`, ff_distance_measures.py:35-149. A dimension that is not a power of two makes
the first product `Pj @ rho` raise ValueError. -/
noncomputable def stabilizerDistribution (x : Arr) : Except PyErr (List ℝ) :=
  open Classical in do
  let ⟨N, rho⟩ ← castToDensityMatrix x
  let nQubits := intLog2 N
  let purRho ← realPart (npTrace (rho * rho))
  let d : ℝ := 2 ^ nQubits * purRho
  let ⟨k, pauliGroup, _⟩ ← generatePauliGroup (.int nQubits) false
  if e : N = 2 ^ k then
    let xi ← pauliGroup.mapM fun Pj => do
      let expectP ← realPart (npTrace (Pj * castOp e rho))
      pure (expectP * expectP / d)
    if isclose (xi.sum : ℝ) 1 then pure xi else .error .assertionError
  else .error .valueError

/-! ## entropies -/

/-- The order of a Rényi entropy: a number or `np.inf`. Negative numbers are outside the documented domain, but the code
accepts them. The order `-np.inf` (the result is `nan`) is not modelled. -/
inductive Order where
  | num (a : ℝ)
  | inf

/-- `scipy.special.entr(x)`: `-x log x` for positive `x`, 0 at 0, `-inf` for negative `x`. -/
noncomputable def entr (x : ℝ) : EReal :=
  if 0 < x then ((-(x * Real.log x) : ℝ) : EReal) else if x = 0 then 0 else ⊥

/-- `scipy.special.rel_entr(x, y)`: `x log(x/y)` for positive arguments, 0 for `x = 0, y >= 0`, otherwise
`inf`. -/
noncomputable def relEntr (x y : ℝ) : EReal :=
  if 0 < x ∧ 0 < y then ((x * Real.log (x / y) : ℝ) : EReal) else if x = 0 ∧ 0 ≤ y then 0 else ⊤

/-- `scipy.stats.entropy(pk)`: normalise, then sum `entr`. -/
noncomputable def entropy1 {d : ℕ} (p : Fin d → ℝ) : EReal := ∑ i, entr (p i / ∑ j, p j)

/-- `scipy.stats.entropy(pk, qk)` for arrays of the same length: normalise both, then sum `rel_entr`. -/
noncomputable def entropy2 {d : ℕ} (p q : Fin d → ℝ) : EReal :=
  ∑ i, relEntr (p i / ∑ j, p j) (q i / ∑ j, q j)

/-- `np.count_nonzero(p)`. -/
noncomputable def countNonzero {d : ℕ} (p : Fin d → ℝ) : ℕ :=
  open Classical in (Finset.univ.filter fun i => p i ≠ 0).card

/-- `np.max(p)`; the arrays that reach it are not empty (they passed `cast_to_pdf`). -/
noncomputable def npMax {d : ℕ} (p : Fin d → ℝ) : ℝ := ⨆ i, p i

/-- `np.linalg.norm(p, ord=a)` for a 1-D array and an order other than 0 and infinity. -/
noncomputable def lpNorm {d : ℕ} (p : Fin d → ℝ) (a : ℝ) : ℝ := (∑ i, |p i| ^ a) ^ (1 / a)

/-- Lines 299-317 of `renyi_entropy`: the computation after the cast. For a negative order a zero entry contributes
`0.0 ** a = inf` to the norm, whose power `1 / a` is then 0, with logarithm `-inf`; the factor `a / (1 - a)` is negative. -/
noncomputable def renyiCore {d : ℕ} (p : Fin d → ℝ) : Order → EReal
  | .inf => ((-Real.log (npMax p) : ℝ) : EReal)
  | .num a =>
    open Classical in
    if a = 1 then entropy1 p
    else if a = 0 then ((Real.log (countNonzero p) : ℝ) : EReal)
    else if a < 0 ∧ ∃ i, p i = 0 then ⊤
    else ((Real.log (lpNorm p a) * (a / (1 - a)) : ℝ) : EReal)

/-- `renyi_entropy(p, a)`, ff_distance_measures.py:226-317. -/
noncomputable def renyiEntropy (x : Arr) (a : Order) : Except PyErr EReal := do
  let ⟨_, p⟩ ← castToPdf x
  pure (renyiCore p a)

/-- A 1-D array of real numbers as an argument. -/
noncomputable def realVec {d : ℕ} (p : Fin d → ℝ) : Arr := .vec d fun i => (p i : ℂ)

/-- `SRE(rho, a)`, ff_distance_measures.py:152-223. -/
noncomputable def sre (x : Arr) (a : Order) : Except PyErr EReal :=
  open Classical in do
  let ⟨d, rho⟩ ← castToDensityMatrix x
  let xi ← stabilizerDistribution (.mat d d rho)
  if countNonzero xi.get = 1 then pure 0
  else do
    let s ← renyiEntropy (realVec xi.get) a
    pure (s - ((Real.log d : ℝ) : EReal))

/-- `linear_entropy(p)`, ff_distance_measures.py:320-395. -/
noncomputable def linearEntropy (x : Arr) : Except PyErr ℝ := do
  let ⟨d, p⟩ ← castToPdf x
  let sqrtD : ℝ := Real.sqrt d
  pyAssert (isclose ((sqrtD - (⌊sqrtD⌋₊ : ℝ) : ℝ) : ℂ) 0)
  let l2Squared := lpNorm p 2 ^ 2
  let sL := 1 - l2Squared
  let sLAlt := 1 - ∑ i, p i ^ 2
  pyAssert (isclose (sL : ℂ) (sLAlt : ℂ))
  pure sL

/-! ## fermionic anti-flatness -/

/-- `np.linalg.norm(M)` for a matrix: the Frobenius norm. -/
noncomputable def frobNorm {m k : ℕ} (M : Matrix (Fin m) (Fin k) ℂ) : ℝ := Real.sqrt (∑ i, ∑ j, ‖M i j‖ ^ 2)

/-- Lines 475-487 of `cov_distribution`: the squares of the entries of the upper triangle (diagonal included)
of modulus above `1e-10`, row by row. -/
noncomputable def upperSquares {m : ℕ} (L : Op m) : List ℂ :=
  open Classical in
  (List.finRange m).flatMap fun i => (List.finRange m).filterMap fun j =>
    if i ≤ j ∧ 1e-10 < ‖L i j‖ then some (L i j ^ 2) else none

/-- `cov_distribution(rho)`, ff_distance_measures.py:398-487. `schurR` and `schurC` are
`scipy.linalg.schur` on real and complex arrays (only the first result is used). A dimension that is not a
power of two makes the products in `compute_cov_matrix` raise ValueError. -/
noncomputable def covDistribution (schurR : {m : ℕ} → RMat m → RMat m) (schurC : {m : ℕ} → Op m → Op m) (x : Arr) :
    Except PyErr (List ℂ) :=
  open Classical in do
  let ⟨N, rho⟩ ← castToDensityMatrix x
  let nSites := intLog2 N
  if e : N = 2 ^ nSites then
    let ⟨n, G⟩ ← computeCovMatrix (castOp e rho) (some nSites) (jordanWignerMajoranas nSites)
    let M : Op (n + n) := (-Complex.I) • G
    if isclose (frobNorm (toC (imArr M)) : ℝ) 0 then
      let M' : RMat (n + n) := reArr M
      pyAssert (isclose (frobNorm (toC (M' + M'ᵀ)) : ℝ) 0)
      pure (upperSquares (toC (schurR M')))
    else
      pyAssert (isclose (frobNorm (M + Mᵀ) : ℝ) 0)
      pure (upperSquares (schurC M))
  else .error .valueError

/-- `np.linalg.norm(pm, k)` for a 1-D array of complex numbers and a natural number `k`; order 0 counts the
non-zero entries. -/
noncomputable def lkNorm (pm : List ℂ) (k : ℕ) : ℝ :=
  open Classical in
  if k = 0 then (pm.filter fun z => z ≠ 0).length else (pm.map fun z => ‖z‖ ^ k).sum ^ (1 / (k : ℝ))

/-- `FAF(rho, k)`, ff_distance_measures.py:728-814. -/
noncomputable def faf (schurR : {m : ℕ} → RMat m → RMat m) (schurC : {m : ℕ} → Op m → Op m) (x : Arr) (k : ℕ) :
    Except PyErr ℝ := do
  let ⟨d, rho⟩ ← castToDensityMatrix x
  let nSites := intLog2 d
  let pm ← covDistribution schurR schurC (.mat d d rho)
  pure (nSites - lkNorm pm k ^ k)

/-! ## distances between distributions -/

/-- numpy broadcasting of two 1-D arrays: equal lengths, or one of the two has length 1. -/
def broadcast (p q : Σ d : ℕ, Fin d → ℝ) : Except PyErr (Σ d : ℕ, (Fin d → ℝ) × (Fin d → ℝ)) :=
  if h : q.1 = p.1 then .ok ⟨p.1, p.2, fun i => q.2 (Fin.cast h.symm i)⟩
  else if h : q.1 = 1 then .ok ⟨p.1, p.2, fun _ => q.2 (Fin.cast h.symm 0)⟩
  else if h : p.1 = 1 then .ok ⟨q.1, fun _ => p.2 (Fin.cast h.symm 0), q.2⟩
  else .error .valueError

/-- `total_variation_distance(p, q)`, ff_distance_measures.py:490-535. -/
noncomputable def totalVariationDistance (x y : Arr) : Except PyErr ℝ := do
  let p ← castToPdf x
  let q ← castToPdf y
  let ⟨_, p, q⟩ ← broadcast p q
  pure (0.5 * ∑ i, |p i - q i|)

/-- `relative_entropy(p, q)`, ff_distance_measures.py:577-630. scipy broadcasts arrays of different length like
numpy; no theorem is about that case. -/
noncomputable def relativeEntropy (x y : Arr) : Except PyErr EReal := do
  let p ← castToPdf x
  let q ← castToPdf y
  let ⟨_, p, q⟩ ← broadcast p q
  pure (entropy2 p q)

/-- `np.sqrt(x)` for a real number; `none` is `nan`, the result for a negative number. -/
noncomputable def npSqrtNan (x : ℝ) : Option ℝ := if x < 0 then none else some (Real.sqrt x)

/-- `np.sum(v)` for numbers that may be `nan`: one of them makes the sum `nan`. -/
def nanSum {d : ℕ} (v : Fin d → Option ℝ) : Option ℝ :=
  if ∀ i, (v i).isSome then some (∑ i, (v i).getD 0) else none

/-- `bhattacharyya_coeff(p, q)`, ff_distance_measures.py:633-666. `none` is `nan`. -/
noncomputable def bhattacharyyaCoeff (x y : Arr) : Except PyErr (Option ℝ) := do
  let p ← castToPdf x
  let q ← castToPdf y
  let ⟨_, p, q⟩ ← broadcast p q
  pure (nanSum fun i => npSqrtNan (p i * q i))

/-- `jensen_shannon_divergence(p, q)`, ff_distance_measures.py:669-725. -/
noncomputable def jensenShannonDivergence (x y : Arr) : Except PyErr EReal := do
  let p ← castToPdf x
  let q ← castToPdf y
  let ⟨_, p, q⟩ ← broadcast p q
  let m := fun i => 0.5 * (p i + q i)
  pure (((0.5 : ℝ) : EReal) * (entropy2 p m + entropy2 q m))

/-- `trace_distance(A, B)`, ff_distance_measures.py:538-574. `eigvals` is `np.linalg.eigvals`. Matrices of
different size raise ValueError, except that a 1 x 1 matrix is subtracted from every entry. -/
noncomputable def traceDistance (eigvals : {n : ℕ} → Op n → List ℂ) (x y : Arr) : Except PyErr ℝ := do
  let ⟨a, A⟩ ← castToDensityMatrix x
  let ⟨b, B⟩ ← castToDensityMatrix y
  if h : b = a then
    pure (0.5 * ((eigvals (A - castOp h B)).map fun z => ‖z‖).sum)
  else if h : b = 1 then
    pure (0.5 * ((eigvals (Matrix.of fun i j => A i j - castOp h B 0 0)).map fun z => ‖z‖).sum)
  else if h : a = 1 then
    pure (0.5 * ((eigvals (Matrix.of fun i j => castOp h A 0 0 - B i j)).map fun z => ‖z‖).sum)
  else .error .valueError

end FF
