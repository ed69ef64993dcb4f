import Verif.Model.Eigen

/-!
# Model of numpy's global random generator

The generator is a state machine with an arbitrary type `σ` of states. What the draws are assumed to satisfy is
stated in `Spec/Random.lean`; nothing is assumed about their distribution. `scipy.stats.special_ortho_group` and
`scipy.stats.unitary_group` draw from the same global generator.
-/

namespace FF

/-- The draws the code makes, each consuming and returning a generator state, and the state after
`np.random.seed(s)`. -/
structure Rng (σ : Type) where
  /-- The state after `np.random.seed(s)`. -/
  seeded : ℕ → σ
  /-- `special_ortho_group.rvs(dim=m)`. -/
  orthogonal : (m : ℕ) → σ → RMat m × σ
  /-- `unitary_group.rvs(dim=d)`. -/
  unitary : (d : ℕ) → σ → Op d × σ
  /-- `np.random.randn(r, c)`. -/
  randn : (r c : ℕ) → σ → Matrix (Fin r) (Fin c) ℝ × σ
  /-- `np.random.dirichlet(np.ones(d))`. -/
  dirichlet : (d : ℕ) → σ → (Fin d → ℝ) × σ
  /-- `np.random.exponential(1.0)`. -/
  exponential : σ → ℝ × σ
  /-- `np.random.randint(k)`. -/
  randint : ℕ → σ → ℕ × σ

/-- Python code that draws random numbers and may raise: a raised exception does not undo the draws made so far. -/
abbrev Rand (σ : Type) (α : Type) := ExceptT PyErr (StateM σ) α

/-- Run random code from a state of the generator: the outcome and the new state. -/
def Rand.exec {σ α : Type} (m : Rand σ α) (s : σ) : Except PyErr α × σ := (ExceptT.run m).run s

/-- A draw. -/
def draw {σ α : Type} (f : σ → α × σ) : Rand σ α := fun s => (.ok (f s).1, (f s).2)

/-- Code that draws nothing. -/
def noDraw {σ α : Type} (x : Except PyErr α) : Rand σ α := fun s => (x, s)

/-- `if seed is not None: np.random.seed(seed)`. numpy raises ValueError for seeds outside `0 .. 2**32 - 1`. -/
def seedRng {σ : Type} (rng : Rng σ) : Option ℤ → Rand σ Unit
  | none => pure ()
  | some s => if 0 ≤ s ∧ s < 2 ^ 32 then fun _ => (.ok (), rng.seeded s.toNat) else throw .valueError

/-- An argument that should be an integer: `other` stands for every value that is not an instance of `int`. -/
inductive PyObj where
  | int (z : ℤ)
  | other
  deriving DecidableEq

/-- The validation at the head of the functions of ff_random_states.py (e.g. lines 74-79): TypeError for
non-integers, ValueError for integers that are not positive. -/
def checkPositive : PyObj → Except PyErr ℕ
  | .other => .error .typeError
  | .int z => if z ≤ 0 then .error .valueError else .ok z.toNat

end FF
