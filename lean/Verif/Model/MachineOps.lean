import Verif.Model.MachineComplex
import Verif.Model.Coefficients

/-!
# Model of the operators of `src/ff/ff_lib.py` with complex floats

As in `Model/MachineComplex.lean` every operation on the real and imaginary parts is rounded to 53 digits, without overflow and underflow.
numpy converts the integer and real arrays among the factors to complex ones; this is exact.
-/

namespace FF

open Matrix

/-- `np.kron(A, B)` for complex floats. -/
noncomputable def kronF {m n p q : ℕ} (A : Matrix (Fin m) (Fin n) ℂ) (B : Matrix (Fin p) (Fin q) ℂ) :
    Matrix (Fin (m * p)) (Fin (n * q)) ℂ :=
  of fun i j => mulC (A i.divNat j.divNat) (B i.modNat j.modNat)

/-- The loop over `np.kron`, ff_lib.py:150-154 and 188-198, as `kronAll`. -/
noncomputable def kronAllF : (k : ℕ) → (Fin k → Op 2) → Op (2 ^ k)
  | 0, _ => 1
  | k + 1, f => kronF (kronAllF k (f ∘ Fin.castSucc)) (f (Fin.last k))

/-- The operators of `generate_pauli_group(n)`, ff_lib.py:145-168. -/
noncomputable def pauliGroupF (n : ℕ) : List (Op (2 ^ n)) := (productRepeat paulis n).map (kronAllF n)

/-- `Sminus = (sigma_x + 1j * sigma_y) / 2`, ff_lib.py:190. -/
noncomputable def sMinusF : Op 2 := of fun i j => divComplex (addC (sigmaX i j) (mulC Complex.I (sigmaY i j))) 2

/-- Lines 188-198 of `jordan_wigner_lowering`. -/
noncomputable def jwLowerF (nSites : ℕ) (i : ℕ) : Op (2 ^ nSites) :=
  kronAllF nSites fun j => if (j : ℕ) < i then sigmaZ else if (j : ℕ) = i then sMinusF else 1

/-- `jordan_wigner_lowering(n_sites)`, ff_lib.py:173-202. -/
noncomputable def jordanWignerLoweringF (nSites : ℕ) : List (Op (2 ^ nSites)) := (List.range nSites).map (jwLowerF nSites)

/-- `jordan_wigner_alphas(n_sites)`, ff_lib.py:205-219. -/
noncomputable def jordanWignerAlphasF (nSites : ℕ) : List (Op (2 ^ nSites)) :=
  (jordanWignerLoweringF nSites).map conjTranspose ++ jordanWignerLoweringF nSites

/-- How `@` computes an entry of a product of two complex arrays: the order in which the products of parts are added up to the real part
(`false`) and to the imaginary part (`true`), and which of them are rounded before they are added (`fused`: fused multiply-add). The
product of the entries `k` has two parts, numbered by `(k, false)` and `(k, true)`. -/
structure MatmulPlan (d : ℕ) where
  tree : Fin d → Fin d → Bool → SumTree (Fin d × Bool)
  fused : Fin d → Fin d → Bool → Fin d × Bool → Bool

/-- `A @ B` for complex floats. -/
noncomputable def matmulF {d : ℕ} (p : MatmulPlan d) (A B : Op d) : Op d := of fun i j =>
  let re : Fin d × Bool → ℝ := fun k => if k.2 then -((A i k.1).im * (B k.1 j).im) else (A i k.1).re * (B k.1 j).re
  let im : Fin d × Bool → ℝ := fun k => if k.2 then (A i k.1).im * (B k.1 j).re else (A i k.1).re * (B k.1 j).im
  ⟨(p.tree i j false).eval fun k => if p.fused i j false k then re k else rnd (re k),
    (p.tree i j true).eval fun k => if p.fused i j true k then im k else rnd (im k)⟩

/-- `build_op(n_sites, R, alphas, direct)`, ff_lib.py:758-794. The product in step `i, j` is computed with `plan i j`. The test of the modulus
is evaluated without rounding. -/
noncomputable def buildOpF {m k d : ℕ} (plan : ℕ → ℕ → MatmulPlan d) (nSites : ℕ) (R : Matrix (Fin m) (Fin k) ℂ)
    (alphas : List (Op d)) (direct : Bool) : Except PyErr (Op d) :=
  open Classical in do
  let _ ← listGet alphas 0
  (List.range (2 * nSites)).foldlM (fun acc i =>
    (List.range (2 * nSites)).foldlM (fun acc j => do
      let r ← get2 R i j
      if ‖r‖ < 1e-10 then pure acc
      else do
        let ai ← listGet alphas i
        let aj ← listGet alphas j
        let prod := if direct then matmulF (plan i j) ai aj else matmulF (plan i j) ai.conjTranspose aj
        pure (of fun x y => addC (acc x y) (mulC r (prod x y)))) acc) 0

/-- `compute_algebra_S(alphas)`, ff_lib.py:892-943. The tests of `np.allclose` are evaluated without rounding. -/
noncomputable def computeAlgebraSF {d : ℕ} (plan : ℕ → ℕ → MatmulPlan d) (alphas : List (Op d)) : Except PyErr ((n : ℕ) × Op (n + n)) :=
  open Classical in do
  let _ ← listGet alphas 0
  let S ← fillArray (alphas.length / 2) fun i j => do
    let ai ← listGet alphas i
    let aj ← listGet alphas j
    let anticomm : Op d := of fun x y => addC (matmulF (plan i j) ai aj x y) (matmulF (plan j i) aj ai x y)
    if allclose anticomm 0 then pure 0
    else get2 anticomm 0 0
  pure ⟨alphas.length / 2, S⟩

end FF
