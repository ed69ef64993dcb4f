import Verif.Model.Machine
import Verif.Model.Utils
import Verif.Model.Distance
import Mathlib.Analysis.Real.Sqrt

/-!
# Model of the distances, `linear_entropy` and the partial traces with 64-bit floats

The casts pass the entries of a probability vector through unchanged, so the functions are modelled from the line after the
casts on. Every operation is rounded (`rnd`, Model/Machine.lean). numpy does not fix the order in which it adds up an array:
a sum is computed along a tree.
-/

namespace FF

/-- A way to add up the entries of an array. -/
inductive SumTree (ι : Type) where
  | zero
  | leaf (i : ι)
  | node (l r : SumTree ι)

/-- The entries that are added up. -/
def SumTree.leaves {ι : Type} : SumTree ι → List ι
  | .zero => []
  | .leaf i => [i]
  | .node l r => l.leaves ++ r.leaves

/-- The largest number of additions an entry goes through. -/
def SumTree.depth {ι : Type} : SumTree ι → ℕ
  | .zero => 0
  | .leaf _ => 0
  | .node l r => max l.depth r.depth + 1

/-- The computed sum. -/
noncomputable def SumTree.eval {ι : Type} (v : ι → ℝ) : SumTree ι → ℝ
  | .zero => 0
  | .leaf i => v i
  | .node l r => rnd (l.eval v + r.eval v)

/-- `0.5 * np.sum(np.abs(p - q))`, ff_distance_measures.py:533. `t` is the order of the summation. -/
noncomputable def tvdFloat {n : ℕ} (t : SumTree (Fin n)) (p q : Fin n → ℝ) : ℝ :=
  rnd (0.5 * t.eval fun i => |rnd (p i - q i)|)

/-- `np.sum(np.sqrt(p * q))`, ff_distance_measures.py:664, for arrays without negative entries. -/
noncomputable def bhattacharyyaFloat {n : ℕ} (t : SumTree (Fin n)) (p q : Fin n → ℝ) : ℝ :=
  t.eval fun i => rnd (Real.sqrt (rnd (p i * q i)))

/-- `1 - np.linalg.norm(p, ord=2)**2`, ff_distance_measures.py:387-389. The norm is the square root of a scalar product; the product of
two entries may or may not be rounded before it is added (`fused i`: fused multiply-add). -/
noncomputable def linearEntropyFloat {n : ℕ} (t : SumTree (Fin n)) (fused : Fin n → Bool) (p : Fin n → ℝ) : ℝ :=
  let norm := rnd (Real.sqrt (t.eval fun i => if fused i then p i * p i else rnd (p i * p i)))
  rnd (1 - rnd (norm * norm))

/-- `1 - np.sum(np.square(p))`, ff_distance_measures.py:391. -/
noncomputable def linearEntropyAltFloat {n : ℕ} (t : SumTree (Fin n)) (p : Fin n → ℝ) : ℝ :=
  rnd (1 - t.eval fun i => rnd (p i * p i))

/-- `linear_entropy(p)`, ff_distance_measures.py:320-395. The cast and the check of the length are those of `linearEntropy`; the test
`np.allclose` of the two results is evaluated without rounding. -/
noncomputable def linearEntropyF (t t' : (n : ℕ) → SumTree (Fin n)) (fused : (n : ℕ) → Fin n → Bool) (x : Arr) : Except PyErr ℝ := do
  let ⟨d, p⟩ ← castToPdf x
  let sqrtD : ℝ := Real.sqrt d
  pyAssert (isclose ((sqrtD - (⌊sqrtD⌋₊ : ℝ) : ℝ) : ℂ) 0)
  let sL := linearEntropyFloat (t d) (fused d) p
  pyAssert (isclose (sL : ℂ) (linearEntropyAltFloat (t' d) p : ℂ))
  pure sL

/-- A complex addition: both parts are rounded. -/
noncomputable def addC (z w : ℂ) : ℂ := ⟨rnd (z.re + w.re), rnd (z.im + w.im)⟩

/-- `partial_trace_diagblocksum(AB, d)`, ff_utils.py:407-424. -/
noncomputable def partialTraceOver1Float {D : ℕ} (AB : Matrix (Fin D) (Fin D) ℂ) (d : ℕ) : Except PyErr (Matrix (Fin d) (Fin d) ℂ) := do
  let d2 ← blockCount D d
  .ok ((List.range d2).foldl (fun A j => Matrix.of fun (x y : Fin d) => addC (A x y) (entry AB (j * d + x) (j * d + y))) 0)

/-- `partial_trace_blockTr(AB, d)`, ff_utils.py:461-488. `np.trace` adds up the diagonal of each block along the tree `t`. The test of the
final cast to real is evaluated without rounding. -/
noncomputable def partialTraceOver2Float (t : (k : ℕ) → SumTree (Fin k)) {D : ℕ} (AB : Matrix (Fin D) (Fin D) ℂ) (d : ℕ) :
    Except PyErr (Matrix (Fin d) (Fin d) ℂ) :=
  open Classical in do
  let d1 ← blockCount D d
  let B : Matrix (Fin d) (Fin d) ℂ := Matrix.of fun i j =>
    ⟨(t d1).eval fun (k : Fin d1) => (entry AB (i * d1 + k) (j * d1 + k)).re,
      (t d1).eval fun (k : Fin d1) => (entry AB (i * d1 + k) (j * d1 + k)).im⟩
  if allclose (Matrix.of fun i j => ((B i j).im : ℂ)) (0 : Matrix (Fin d) (Fin d) ℂ) then
    .ok (Matrix.of fun i j => ((B i j).re : ℂ))
  else .ok B

end FF
