import Verif.Model.Random
import Verif.Model.Eigen

/-!
# Model of a script of the documentation

The section "Complete Example" of docs/quickstart.rst combines three functions of the library.
-/

namespace FF

variable {σ : Type}

/-- docs/quickstart.rst:193-216, for `n_sites = k + 1` (the text has `n_sites = 2`): `eigh_sp` reads the number of sites off the shape of
`H`, which is `2^k + 2^k`. `schur` and `argsort` are the routines used by `eigh_sp`. Printing is not modelled; the variable `seed` of the script
is not used by it. -/
noncomputable def completeExample (rng : Rng σ) (logm : (d : ℕ) → Op d → Op d) (k : ℕ)
    (schur : RMat (2 ^ k + 2 ^ k) → RMat (2 ^ k + 2 ^ k) × RMat (2 ^ k + 2 ^ k)) (argsort : (Fin (2 ^ k) → ℝ) → Fin (2 ^ k) → ℕ) :
    Rand σ ((Fin (2 ^ k + 2 ^ k) → ℂ) × Op ((k + 1) + (k + 1))) := do
  let r ← randomFFStateMixed rng logm (k + 1) false none true
  match r.2 with
  | none => noDraw (.error .typeError)
  | some H => do
    let gamma ← noDraw (compute2Corr r.1 (k + 1) (jordanWignerAlphas (k + 1)) none)
    let LU ← noDraw (eighSp schur argsort (castOp (by rw [pow_succ, mul_two]) H))
    pure (fun i => LU.1 i i, gamma)

end FF
