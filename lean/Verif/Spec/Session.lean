import Verif.Model.Session

/-! # Specification: which calls of a session set a generator -/

namespace FF.Spec

variable {σ : Type}

/-- The seed the caller passes. -/
def seedOf : NpCall σ → Option ℤ
  | .rotationOrb _ s | .rotationH _ s | .rotation _ s | .generator _ _ s | .statePure _ s _ | .stateMixed _ _ s _ => s
  | .qubit _ s | .qubitPure _ s | .randH _ s | .rotPDF _ s | .pureW0 _ s | .pureWN _ _ s | .pureCN _ s => s
  | .bitstring _ _ | .user _ => none

/-- The argument is a positive integer. -/
def Positive (n : PyObj) : Prop := ∃ z : ℤ, 0 < z ∧ n = .int z

/-- The arguments other than the seed are in the documented range, as far as the function tests them. -/
def ArgsOk : NpCall σ → Prop
  | .qubit n _ | .qubitPure n _ | .randH n _ | .rotPDF n _ | .pureW0 n _ | .pureCN n _ => Positive n
  | .pureWN n N _ => ∃ z : ℤ, 0 < z ∧ n = .int z ∧ (N = none ∨ ∃ y : ℤ, 0 ≤ y ∧ y ≤ z ∧ N = some (.int y))
  | _ => True

/-- The call sets numpy's generator: a seed in `0 .. 2^32 - 1` and arguments that pass the tests. -/
def SetsNp (c : NpCall σ) : Prop := ArgsOk c ∧ ∃ k : ℤ, 0 ≤ k ∧ k < 2 ^ 32 ∧ seedOf c = some k

/-- The call has a seed of its own (0 is no seed for `generate_random_planar_graph`). -/
def OwnSeed : RandomCall σ → Prop
  | .np c => seedOf c ≠ none
  | .planar _ seed => ∃ k, seed = some k ∧ k ≠ 0

/-- After `d`, the calls that use the generator used by `c` start from a state determined by the seed of `d`. -/
def Fixes (d c : RandomCall σ) : Prop :=
  match d, c with
  | .np d, .np _ => SetsNp d
  | .planar _ seed, .planar _ _ => ∃ k, seed = some k ∧ k ≠ 0
  | _, _ => False

/-- Every call has its own seed or comes after a call that set the generator it uses. -/
def Replayable (cs : List (RandomCall σ)) : Prop :=
  ∀ before c after, cs = before ++ c :: after → OwnSeed c ∨ ∃ d ∈ before, Fixes d c

/-- The call uses numpy's generator. -/
def isNp : RandomCall σ → Bool
  | .np _ => true
  | .planar _ _ => false

end FF.Spec
