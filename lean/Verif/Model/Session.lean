import Verif.Model.Random
import Verif.Model.Graph

/-!
# Model of a sequence of calls of the functions that draw random numbers

The functions of `ff_lib.py`, `ff_random_states.py` and `ff_utils.py` draw from the global generator of numpy, the function
`generate_random_planar_graph` of `ff_graph_theory.py` from the global generator of the module `random` (networkx's `gnm_random_graph` without
a seed uses it too). `random_CHP_state` draws from stim's own generator, which cannot be seeded through this library; it is not part of this
model.
-/

namespace FF

/-- A call that uses the generator of numpy. `user f` is a draw made by the caller's own code. -/
inductive NpCall (σ : Type) where
  /-- `random_FF_rotation(n, seed, returnOrb=True)` -/
  | rotationOrb (n : ℕ) (seed : Option ℤ)
  /-- `random_FF_rotation(n, seed, returnH=True)` -/
  | rotationH (n : ℕ) (seed : Option ℤ)
  /-- `random_FF_rotation(n, seed)` -/
  | rotation (n : ℕ) (seed : Option ℤ)
  /-- `random_H_generator(n, fixedN, seed)` -/
  | generator (n : ℕ) (fixedN : Bool) (seed : Option ℤ)
  /-- `random_FF_state(n, seed=seed, returnH=returnH, pure=True)` -/
  | statePure (n : ℕ) (seed : Option ℤ) (returnH : Bool)
  /-- `random_FF_state(n, fixedN, seed, returnH)` -/
  | stateMixed (n : ℕ) (fixedN : Bool) (seed : Option ℤ) (returnH : Bool)
  /-- `random_qubit_state(n, seed)` -/
  | qubit (n : PyObj) (seed : Option ℤ)
  /-- `random_qubit_pure_state(n, seed)` -/
  | qubitPure (n : PyObj) (seed : Option ℤ)
  /-- `random_FF_state_randH(n, seed)` -/
  | randH (n : PyObj) (seed : Option ℤ)
  /-- `random_FF_state_rotPDF(n, seed=seed)` -/
  | rotPDF (n : PyObj) (seed : Option ℤ)
  /-- `random_FF_pure_state_W0(n, seed)` -/
  | pureW0 (n : PyObj) (seed : Option ℤ)
  /-- `random_FF_pure_state_WN(n, N, seed)` -/
  | pureWN (n : PyObj) (N : Option PyObj) (seed : Option ℤ)
  /-- `random_FF_pure_state_CN(n, seed)` -/
  | pureCN (n : PyObj) (seed : Option ℤ)
  /-- `generate_random_bitstring(n, k)` -/
  | bitstring (n : ℕ) (k : ℤ)
  /-- a draw by the caller -/
  | user (f : σ → ℝ × σ)

/-- What the call returns. -/
def NpCall.Result {σ : Type} : NpCall σ → Type
  | .rotationOrb n _ => Op (n + n)
  | .rotationH n _ => Op (2 ^ n)
  | .rotation n _ => Op (2 ^ n)
  | .generator n _ _ => Op (n + n)
  | .statePure n _ _ => (Fin (2 ^ n) → ℂ) × Option (Op (2 ^ n))
  | .stateMixed n _ _ _ => Op (2 ^ n) × Option (Op (2 ^ n))
  | .qubit _ _ => Σ d : ℕ, Op d
  | .qubitPure _ _ => Σ n : ℕ, Fin (2 ^ n) → ℂ
  | .randH _ _ => Σ n : ℕ, Op (2 ^ n)
  | .rotPDF _ _ => Σ n : ℕ, Op (2 ^ n) × (Fin (2 ^ n) → ℝ)
  | .pureW0 _ _ => Σ n : ℕ, Fin (2 ^ n) → ℂ
  | .pureWN _ _ _ => Σ n : ℕ, Fin (2 ^ n) → ℂ
  | .pureCN _ _ => Σ n : ℕ, Fin (2 ^ n) → ℂ
  | .bitstring _ _ => Option (List ℕ)
  | .user _ => ℝ

/-- `generate_random_bitstring(n, k)`, ff_utils.py:155-174: nothing is drawn if `k` is out of range. `choice n k` is
`np.random.choice(n, size=k, replace=False)`. -/
def randomBitstring {σ : Type} (choice : ℕ → ℕ → σ → List ℕ × σ) (n : ℕ) (k : ℤ) : Rand σ (Option (List ℕ)) := fun s =>
  if k < 0 ∨ k > n then (.ok none, s)
  else (.ok (generateRandomBitstring (fun a b => (choice a b s).1) n k), (choice n k.toNat s).2)

/-- The external routines: numpy's generator, `logm`, `np.random.choice`, the generator of `random` and networkx. -/
structure Externals (σ τ : Type) where
  rng : Rng σ
  logm : (d : ℕ) → Op d → Op d
  choice : ℕ → ℕ → σ → List ℕ × σ
  prng : GraphRng τ
  nx : Nx

/-- The code that the call executes. -/
noncomputable def NpCall.code {σ τ : Type} (x : Externals σ τ) : (c : NpCall σ) → Rand σ c.Result
  | .rotationOrb n seed => randomFFRotationOrb x.rng n seed
  | .rotationH n seed => randomFFRotationH x.rng x.logm n seed
  | .rotation n seed => randomFFRotation x.rng x.logm n seed
  | .generator n fixedN seed => randomHGenerator x.rng n fixedN seed
  | .statePure n seed returnH => randomFFStatePure x.rng x.logm n seed returnH
  | .stateMixed n fixedN seed returnH => randomFFStateMixed x.rng x.logm n fixedN seed returnH
  | .qubit n seed => randomQubitState x.rng n seed
  | .qubitPure n seed => randomQubitPureState x.rng n seed
  | .randH n seed => randomFFStateRandH x.rng n seed
  | .rotPDF n seed => randomFFStateRotPDF x.rng x.logm n seed
  | .pureW0 n seed => randomFFPureStateW0 x.rng x.logm n seed
  | .pureWN n N seed => randomFFPureStateWN x.rng x.logm n N seed
  | .pureCN n seed => randomFFPureStateCN x.rng n seed
  | .bitstring n k => randomBitstring x.choice n k
  | .user f => draw f

/-- A call of a function that draws random numbers. -/
inductive RandomCall (σ : Type) where
  | np (c : NpCall σ)
  /-- `generate_random_planar_graph(n, seed)` -/
  | planar (n : ℤ) (seed : Option ℤ)

/-- What the call returns. -/
def RandomCall.Result {σ : Type} : RandomCall σ → Type
  | .np c => c.Result
  | .planar _ _ => Option (NxGraph ℕ)

/-- The states of the two generators. -/
structure Gens (σ τ : Type) where
  np : σ
  py : τ

/-- Execute a call. -/
noncomputable def RandomCall.exec {σ τ : Type} (x : Externals σ τ) : (c : RandomCall σ) → Gens σ τ → Except PyErr c.Result × Gens σ τ
  | .np c, s => let r := (c.code x).exec s.np; (r.1, ⟨r.2, s.py⟩)
  | .planar n seed, s => let r := (generateRandomPlanarGraph x.prng x.nx n seed).exec s.py; (r.1, ⟨s.np, r.2⟩)

/-- Execute calls one after the other: an exception ends the call, not the session. The outcomes are recorded with the calls. -/
noncomputable def session {σ τ : Type} (x : Externals σ τ) : List (RandomCall σ) → Gens σ τ → List ((c : RandomCall σ) × Except PyErr c.Result) × Gens σ τ
  | [], s => ([], s)
  | c :: cs, s =>
    let r := c.exec x s
    let rs := session x cs r.2
    (⟨c, r.1⟩ :: rs.1, rs.2)

end FF
