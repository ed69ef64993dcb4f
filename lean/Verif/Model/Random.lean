import Verif.Model.Rng

/-!
# Model of the random rotations and states of `src/ff/ff_lib.py` and `src/ff/ff_random_states.py`

Parameters: the generator `rng` (see `Model/Rng.lean`), `logm = scipy.linalg.logm`, `qr = np.linalg.qr` and
`svd = np.linalg.svd`; their contracts are in `Spec/Random.lean`. Column vectors of shape `(d, 1)` are functions
`Fin d → ℂ`. `random_CHP_state` is in `Model/Plot.lean`.
-/

namespace FF

open Matrix

/-- `np.linalg.norm(v)` of a vector. -/
noncomputable def vnorm {d : ℕ} (v : Fin d → ℂ) : ℝ := Real.sqrt (∑ i, ‖v i‖ ^ 2)

/-- The column `zero_state` with a one in position 0 (ff_lib.py:475-476, ff_random_states.py:147-149, 400-401). -/
def zeroState (d : ℕ) : Fin d → ℂ := fun i => if (i : ℕ) = 0 then 1 else 0

section
variable {σ : Type} (rng : Rng σ) (logm : (d : ℕ) → Op d → Op d)

/-- Lines 427-435 of `random_FF_rotation`, ff_lib.py: seeding, the draw and the orbital rotation `C`. The call with
`returnOrb=True` returns it. -/
noncomputable def randomFFRotationOrb (n : ℕ) (seed : Option ℤ) : Rand σ (Op (n + n)) := do
  seedRng rng seed
  let randO ← draw (rng.orthogonal (n + n))
  let omega := buildOmega n
  let C := omega.conjTranspose * toC randO * omega
  noDraw (pyAssert (isSymp C = true))
  pure C

/-- `random_FF_rotation(n_sites, seed, returnH=True)`, ff_lib.py:414-447: the generator. -/
noncomputable def randomFFRotationH (n : ℕ) (seed : Option ℤ) : Rand σ (Op (2 ^ n)) := do
  let C ← randomFFRotationOrb rng n seed
  let z : ℂ := -Complex.I
  let h := z⁻¹ • (-(logm _ C))
  let H := (2 : ℂ)⁻¹ • (-h)
  noDraw (buildOp n H (jordanWignerAlphas n) false)

/-- `random_FF_rotation(n_sites, seed)`, ff_lib.py:414-449. -/
noncomputable def randomFFRotation (n : ℕ) (seed : Option ℤ) : Rand σ (Op (2 ^ n)) := do
  let G ← randomFFRotationH rng logm n seed
  pure (expm ((-Complex.I) • G))

/-- `random_H_generator(n_sites, fixedN, seed)`, ff_lib.py:512-538. -/
noncomputable def randomHGenerator (n : ℕ) (fixedN : Bool) (seed : Option ℤ) : Rand σ (Op (n + n)) := do
  seedRng rng seed
  let A := toC (← draw (rng.randn n n))
  let A := A + Complex.I • toC (← draw (rng.randn n n))
  let Z := toC (← draw (rng.randn n n))
  let Z := Z + Complex.I • toC (← draw (rng.randn n n))
  let A := A + A.conjTranspose
  let Z := Z - Z.transpose
  let Z := if fixedN then (0 : ℂ) • Z else Z
  pure (buildH n A (some Z))

/-- `random_FF_state(n_sites, seed=seed, returnH=returnH, pure=True)`, ff_lib.py:470-488. The second component is
the generator that is returned when `returnH` is set. -/
noncomputable def randomFFStatePure (n : ℕ) (seed : Option ℤ) (returnH : Bool) :
    Rand σ ((Fin (2 ^ n) → ℂ) × Option (Op (2 ^ n))) := do
  seedRng rng seed
  let W ← randomFFRotation rng logm n seed
  let psi := W *ᵥ zeroState (2 ^ n)
  noDraw (pyAssert (isclose 1 (vnorm psi : ℝ)))
  if returnH then do
    let H ← randomFFRotationH rng logm n seed
    pure (psi, some H)
  else pure (psi, none)

/-- `random_FF_state(n_sites, fixedN, seed, returnH, pure=False)`, ff_lib.py:469-470 and 490-509. The second
component is the generator that is returned when `returnH` is set. -/
noncomputable def randomFFStateMixed (n : ℕ) (fixedN : Bool) (seed : Option ℤ) (returnH : Bool) :
    Rand σ (Op (2 ^ n) × Option (Op (2 ^ n))) := do
  seedRng rng seed
  let H_op ←
    if fixedN then do
      let H ← randomHGenerator rng n true seed
      noDraw (buildOp n H (jordanWignerAlphas n) false)
    else randomFFRotationH rng logm n seed
  let beta ← draw rng.exponential
  let rho := expm ((-(beta : ℂ)) • H_op)
  let rho := (npTrace rho)⁻¹ • rho
  if returnH then pure (rho, some H_op) else pure (rho, none)

/-- What `random_FF_state` returns: a vector or a density matrix, with the generator when `returnH` is set. -/
inductive FFStateOut (n : ℕ)
  | pure (psi : Fin (2 ^ n) → ℂ) (H : Option (Op (2 ^ n)))
  | mixed (rho : Op (2 ^ n)) (H : Option (Op (2 ^ n)))

/-- `random_FF_state(n_sites, fixedN, seed, returnH, pure)`, ff_lib.py:452-511: `pure` is tested at line 473, before
`fixedN` is looked at (line 492). -/
noncomputable def randomFFState (n : ℕ) (fixedN : Bool) (seed : Option ℤ) (returnH isPure : Bool) : Rand σ (FFStateOut n) :=
  if isPure then do
    let r ← randomFFStatePure rng logm n seed returnH
    return .pure r.1 r.2
  else do
    let r ← randomFFStateMixed rng logm n fixedN seed returnH
    return .mixed r.1 r.2

/-- `random_qubit_state(n, seed)`, ff_random_states.py:42-93. -/
noncomputable def randomQubitState (n : PyObj) (seed : Option ℤ) : Rand σ (Σ d : ℕ, Op d) := do
  let n ← noDraw (checkPositive n)
  seedRng rng seed
  let s ← draw (rng.dirichlet (2 ^ n))
  let U ← draw (rng.unitary (2 ^ n))
  noDraw (castToDensityMatrix (.mat _ _ (U * diagonal (fun i => ((s i : ℝ) : ℂ)) * U.conjTranspose)))

/-- `random_qubit_pure_state(n, seed)`, ff_random_states.py:96-155. -/
noncomputable def randomQubitPureState (n : PyObj) (seed : Option ℤ) : Rand σ (Σ n : ℕ, Fin (2 ^ n) → ℂ) := do
  let n ← noDraw (checkPositive n)
  seedRng rng seed
  let U ← draw (rng.unitary (2 ^ n))
  let psi := U *ᵥ zeroState (2 ^ n)
  noDraw (pyAssert (isclose 1 (vnorm psi : ℝ)))
  pure ⟨n, psi⟩

/-- `random_FF_state_randH(n_sites, seed)`, ff_random_states.py:222-285. -/
noncomputable def randomFFStateRandH (n : PyObj) (seed : Option ℤ) : Rand σ (Σ n : ℕ, Op (2 ^ n)) := do
  let n ← noDraw (checkPositive n)
  seedRng rng seed
  let A := toC (← draw (rng.randn n n))
  let A := A + Complex.I • toC (← draw (rng.randn n n))
  let Z := toC (← draw (rng.randn n n))
  let Z := Z + Complex.I • toC (← draw (rng.randn n n))
  let A := A + A.conjTranspose
  let Z := Z - Z.transpose
  let rescale : ℂ := 2 ^ (2 - (n : ℤ))
  let G := rescale • buildV n A (some Z)
  let H_op ← noDraw (buildOp n G (jordanWignerAlphas n) true)
  let rho := expm (-H_op)
  let rho := (npTrace rho)⁻¹ • rho
  pure ⟨n, rho⟩

/-- `random_FF_state_rotPDF(n_sites, returnS, seed)`, ff_random_states.py:288-352. The second component is what is
returned in addition when `returnS` is set. -/
noncomputable def randomFFStateRotPDF (n : PyObj) (seed : Option ℤ) :
    Rand σ (Σ n : ℕ, Op (2 ^ n) × (Fin (2 ^ n) → ℝ)) := do
  let n ← noDraw (checkPositive n)
  seedRng rng seed
  let W ← randomFFRotation rng logm n none
  noDraw (pyAssert (allclose (W * W.conjTranspose) 1))
  let s ← draw (rng.dirichlet (2 ^ n))
  let rho := W * diagonal (fun i => ((s i : ℝ) : ℂ)) * W.conjTranspose
  pure ⟨n, rho, s⟩

/-- `random_FF_pure_state_W0(n_sites, seed)`, ff_random_states.py:355-409. -/
noncomputable def randomFFPureStateW0 (n : PyObj) (seed : Option ℤ) : Rand σ (Σ n : ℕ, Fin (2 ^ n) → ℂ) := do
  let n ← noDraw (checkPositive n)
  seedRng rng seed
  let W ← randomFFRotation rng logm n seed
  let psi := W *ᵥ zeroState (2 ^ n)
  noDraw (pyAssert (isclose 1 (vnorm psi : ℝ)))
  pure ⟨n, psi⟩

/-- `np.append(np.ones(N), np.zeros(n - N))[j]`, ff_random_states.py:468 and 544. -/
def occupation (N j : ℕ) : ℕ := if j < N then 1 else 0

/-- The loop applying creation operators, ff_random_states.py:476-478 and 584-586:
`for j in np.flip(range(n)): if K[j] == 1: psi = ops[j] @ psi`. -/
noncomputable def fillSites {d : ℕ} (n N : ℕ) (ops : List (Op d)) (psi : Fin d → ℂ) : Except PyErr (Fin d → ℂ) :=
  (List.range n).reverse.foldlM (fun psi j =>
    if occupation N j = 1 then do
      let a ← listGet ops j
      pure (a *ᵥ psi)
    else pure psi) psi

/-- The initial state of `random_FF_pure_state_WN`, ff_random_states.py:468-478. -/
noncomputable def initialStateWN (n N : ℕ) : Except PyErr (Fin (2 ^ n) → ℂ) :=
  fillSites n N (jordanWignerAlphas n) (zeroState (2 ^ n))

/-- `seed + 1 if seed is not None else None`. -/
def nextSeed (seed : Option ℤ) : Option ℤ := seed.map (· + 1)

/-- The test of the argument `N` in `random_FF_pure_state_WN`, ff_random_states.py:459-460: ValueError unless it is
None or an integer in `0 .. n`. -/
def checkN (n : ℕ) : Option PyObj → Except PyErr (Option ℕ)
  | none => .ok none
  | some .other => .error .valueError
  | some (.int z) => if z < 0 ∨ z > n then .error .valueError else .ok (some z.toNat)

/-- `random_FF_pure_state_WN(n_sites, N, seed)`, ff_random_states.py:412-489. -/
noncomputable def randomFFPureStateWN (n : PyObj) (N : Option PyObj) (seed : Option ℤ) :
    Rand σ (Σ n : ℕ, Fin (2 ^ n) → ℂ) := do
  let n ← noDraw (checkPositive n)
  let N ← noDraw (checkN n N)
  seedRng rng seed
  let N ← match N with
    | some N => pure N
    | none => draw (rng.randint (n + 1))
  let psi ← noDraw (initialStateWN n N)
  let W ← randomFFRotation rng logm n (nextSeed seed)
  pure ⟨n, W *ᵥ psi⟩

/-- The product of projectors of `random_FF_pure_state_CN`, ff_random_states.py:572-575. -/
noncomputable def vacuumProjector {d : ℕ} (n : ℕ) (ops : List (Op d)) : Except PyErr (Op d) :=
  (List.range n).foldlM (fun PP i => do
    let a ← listGet ops i
    pure (PP * (1 - a * a.conjTranspose))) 1

/-- Lines 560-588 of `random_FF_pure_state_CN`, ff_random_states.py: from the random vector `Y` to the state. If
`PP @ Y` is zero numpy divides by zero; the model then returns the zero vector. -/
noncomputable def stateFromOrbitals {d : ℕ} (n N : ℕ) (ops : List (Op d)) (Y : Fin d → ℂ) :
    Except PyErr (Fin d → ℂ) := do
  let Y := ((vnorm Y : ℝ) : ℂ)⁻¹ • Y
  let PP ← vacuumProjector n ops
  let vac := PP *ᵥ Y
  let vac := ((vnorm vac : ℝ) : ℂ)⁻¹ • vac
  fillSites n N ops vac

/-- `assert np.allclose(S, Sr)` on two results of `compute_algebra_S`; arrays of different shapes cannot occur and
are rejected. -/
noncomputable def algebraClose (S Sr : (n : ℕ) × Op (n + n)) : Prop :=
  ∃ h : Sr.1 = S.1, allclose S.2 (h ▸ Sr.2)

/-- The result of `rotate_operators`, used as a list: the number 0 is not a list. -/
def asList {α : Type} : Option (List α) → Except PyErr (List α)
  | some l => .ok l
  | none => .error .typeError

/-- `random_FF_pure_state_CN(n_sites, seed)`, ff_random_states.py:492-588. -/
noncomputable def randomFFPureStateCN (n : PyObj) (seed : Option ℤ) : Rand σ (Σ n : ℕ, Fin (2 ^ n) → ℂ) := do
  let n ← noDraw (checkPositive n)
  seedRng rng seed
  let N ← draw (rng.randint (n + 1))
  let C ← randomFFRotationOrb rng n (nextSeed seed)
  noDraw (pyAssert (allclose (C * C.conjTranspose) 1))
  let randAlphas ← noDraw (rotateOperators (.matrixFirst C (jordanWignerAlphas n)) false)
  let randAlphas ← noDraw (asList randAlphas)
  let S ← noDraw (computeAlgebraS (jordanWignerAlphas n))
  let Sr ← noDraw (computeAlgebraS randAlphas)
  noDraw (pyAssert (algebraClose S Sr))
  let Y ← draw (rng.randn (2 ^ n) 1)
  let psi ← noDraw (stateFromOrbitals n N randAlphas fun i => ((Y i 0 : ℝ) : ℂ))
  pure ⟨n, psi⟩

end

/-! ## paths -/

/-- `get_orthogonal_vectors(v)`, ff_random_states.py:591-652. `none` is the empty array returned for `n < 2`. -/
noncomputable def getOrthogonalVectors {n : ℕ} (qr : Op n → Op n × Op n) (v : Fin n → ℂ) : Option (Op n) :=
  open Classical in
  if n < 2 then none
  else if isclose (vnorm v : ℝ) 0 then some 1
  else
    let vhat : Fin n → ℂ := ((vnorm v : ℝ) : ℂ)⁻¹ • v
    let A : Op n := Matrix.of fun i j => if (j : ℕ) = 0 then vhat i else (1 : Op n) i j
    let Q := (qr A).1
    some (Matrix.of fun i j => if (j : ℕ) = 0 then vhat i else Q i j)

/-- The loop building `U` in `build_unitary_path`, ff_random_states.py:711-716:
`U = U + V[:, i] @ W[:, i].conj().T`. -/
noncomputable def pathU {n : ℕ} (W V : Op n) : Op n :=
  (List.finRange n).foldl (fun U i => U + Matrix.of fun x y => V x i * star (W y i)) 0

/-- `build_unitary_path(w, v)`, ff_random_states.py:655-742, for two vectors of the same length: the function
`path`. Zero vectors, for which numpy divides by zero, are not covered by the theorems. -/
noncomputable def buildUnitaryPath {n : ℕ} (qr : Op n → Op n × Op n) (svd : Op n → Op n × (Fin n → ℝ) × Op n)
    (logm : Op n → Op n) (w v : Fin n → ℂ) : Except PyErr (ℝ → Fin n → ℂ) :=
  open Classical in do
  let w : Fin n → ℂ := ((vnorm w : ℝ) : ℂ)⁻¹ • w
  let v : Fin n → ℂ := ((vnorm v : ℝ) : ℂ)⁻¹ • v
  match getOrthogonalVectors qr w, getOrthogonalVectors qr v with
  | some W, some V =>
    let U := pathU W V
    pyAssert (allclose (W * W.conjTranspose) 1)
    pyAssert (allclose (V * V.conjTranspose) 1)
    let U := if allclose (U * U.conjTranspose) 1 then U else (svd U).1 * (svd U).2.2
    pyAssert (allclose (U * U.conjTranspose) 1)
    let H := Complex.I • logm U
    pyAssert (allclose (H - H.conjTranspose) 0)
    pure fun t => expm ((t : ℂ) • ((-Complex.I) • H)) *ᵥ w
  | _, _ => .error .indexError

/-- `build_linear_path(w, v)`, ff_random_states.py:745-800, for two vectors of the same length. -/
noncomputable def buildLinearPath {n : ℕ} (w v : Fin n → ℂ) : ℝ → Fin n → ℂ :=
  let w : Fin n → ℂ := ((vnorm w : ℝ) : ℂ)⁻¹ • w
  let v : Fin n → ℂ := ((vnorm v : ℝ) : ℂ)⁻¹ • v
  fun s => ((vnorm ((s : ℂ) • v + (1 - (s : ℂ)) • w) : ℝ) : ℂ)⁻¹ • ((s : ℂ) • v + (1 - (s : ℂ)) • w)

end FF
