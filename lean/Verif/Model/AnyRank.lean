import Verif.Model.Shapes
import Verif.Model.Distance

/-!
# Model of the casts on arrays with any number of axes, and of the partial traces for any integer

`Model/Utils.lean` models the casts for arrays with one or two axes and the partial traces for natural
numbers.
-/

namespace FF

/-- The subscripts of place `k` of the flattened array of the given shape (row-major). -/
def unravel : List ℕ → ℕ → List ℕ
  | [], _ => []
  | _ :: s, k => k / s.prod :: unravel s (k % s.prod)

/-- `A.flatten()`. -/
def NdArr.flatten (A : NdArr) : Fin A.shape.prod → ℂ := fun k => A.val (unravel A.shape k)

/-- `min(A.shape) == 1`. -/
def minIsOne (shape : List ℕ) : Bool := shape.contains 1 && !shape.contains 0

/-- `cast_to_density_matrix(rho)`, ff_utils.py:208-257, for arrays with any number of axes. `min(())` raises
ValueError. -/
noncomputable def castToDensityMatrixN (rho : NdArr) : Except PyErr (Σ d : ℕ, Matrix (Fin d) (Fin d) ℂ) :=
  if rho.shape.length = 1 then castVector rho.flatten
  else if rho.shape = [] then .error .valueError
  else if minIsOne rho.shape then castVector rho.flatten
  else match rho.shape with
    | [m, n] => validateDM (Matrix.of fun (i : Fin m) (j : Fin n) => rho.val [i, j])
    | _ => .error .valueError

/-- `cast_to_pdf(rho)`, ff_utils.py:191-205, for arrays with any number of axes. -/
noncomputable def castToPdfN (rho : NdArr) : Except PyErr (Σ d : ℕ, Fin d → ℝ) :=
  open Classical in do
  let ⟨d, rho⟩ ← castToDensityMatrixN rho
  let pdf : Fin d → ℂ := fun i => rho i i
  if allclose1 pdf (fun i => ((pdf i).re : ℂ)) then .ok ⟨d, fun i => (pdf i).re⟩
  else .error .valueError

/-- `renyi_entropy(p, a)`, ff_distance_measures.py:226-317, for arrays with any number of axes. -/
noncomputable def renyiEntropyN (x : NdArr) (a : Order) : Except PyErr EReal := do
  let ⟨_, p⟩ ← castToPdfN x
  pure (renyiCore p a)

/-- `partial_trace_diagblocksum(AB, d)` (exported as `partial_trace_over_1`), ff_utils.py:373-424, for any integer
`d`: a negative divisor passes the test, and then `np.zeros((d, d))` raises ValueError. -/
def partialTraceOver1Z {D : ℕ} (AB : Matrix (Fin D) (Fin D) ℂ) (d : ℤ) :
    Except PyErr (Σ k : ℕ, Matrix (Fin k) (Fin k) ℂ) :=
  if d = 0 then .error .zeroDivisionError
  else if ¬ (d ∣ D) then .error .assertionError
  else if d < 0 then .error .valueError
  else do
    let A ← partialTraceOver1 AB d.toNat
    pure ⟨d.toNat, A⟩

/-- `partial_trace_blockTr(AB, d)` (exported as `partial_trace_over_2`), ff_utils.py:427-488, for any integer `d`. -/
noncomputable def partialTraceOver2Z {D : ℕ} (AB : Matrix (Fin D) (Fin D) ℂ) (d : ℤ) :
    Except PyErr (Σ k : ℕ, Matrix (Fin k) (Fin k) ℂ) :=
  if d = 0 then .error .zeroDivisionError
  else if ¬ (d ∣ D) then .error .assertionError
  else if d < 0 then .error .valueError
  else do
    let B ← partialTraceOver2 AB d.toNat
    pure ⟨d.toNat, B⟩

end FF
