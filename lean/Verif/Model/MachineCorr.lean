import Verif.Model.MachineOps

/-!
# Model of the correlation and covariance matrices with complex floats

As in `Model/MachineOps.lean`; `np.trace` adds up the diagonal along a tree that depends on the size of the array only.
-/

namespace FF

open Matrix

/-- `np.trace(A)` for a complex array. -/
noncomputable def traceF {d : ℕ} (t : SumTree (Fin d)) (A : Op d) : ℂ := ⟨t.eval fun x => (A x x).re, t.eval fun x => (A x x).im⟩

/-- `compute_2corr_matrix(rho, n_sites, alphas, conjugation)`, ff_lib.py:850-889. The two products in step `i, j` are computed with
`plan i j false` and `plan i j true`. -/
noncomputable def compute2CorrF {d : ℕ} (plan : ℕ → ℕ → Bool → MatmulPlan d) (t : SumTree (Fin d)) (rho : Op d) (n : ℕ)
    (alphas : List (Op d)) (conjugation : Option ℤ) : Except PyErr (Op (n + n)) :=
  fillArray n fun i j => do
    let ai ← listGet alphas i
    let aj ← listGet alphas j
    match conjugation with
    | none => pure (traceF t (matmulF (plan i j true) (matmulF (plan i j false) rho ai) aj))
    | some c =>
      if c < 0 then pure (traceF t (matmulF (plan i j true) (matmulF (plan i j false) rho ai.conjTranspose) aj))
      else pure (traceF t (matmulF (plan i j true) (matmulF (plan i j false) rho ai) aj.conjTranspose))

/-- `compute_cov_matrix(rho, n_sites, alphas)` for an integer `n_sites`, ff_lib.py:797-825. -/
noncomputable def computeCovMatrixF {d : ℕ} (plan : ℕ → ℕ → Bool → MatmulPlan d) (t : SumTree (Fin d)) (rho : Op d) (n : ℕ)
    (alphas : List (Op d)) : Except PyErr (Op (n + n)) :=
  fillArray n fun i j => do
    let ai ← listGet alphas i
    let aj ← listGet alphas j
    pure (addC (traceF t (matmulF (plan i j true) (matmulF (plan i j false) rho ai) aj))
      (-(traceF t (matmulF (plan j i true) (matmulF (plan j i false) rho aj) ai))))

end FF
