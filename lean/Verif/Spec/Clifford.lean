import Verif.Spec.Plot
import Verif.Spec.Law

/-! # Specification: the set of stabilizer states, and random tableaux -/

namespace FF.Spec

open Matrix MeasureTheory

/-- The stabilizer states on `n` qubits, as density matrices. -/
def stabStates (n : ℕ) : Set (Matrix (Fin (2 ^ n)) (Fin (2 ^ n)) ℂ) := {ρ | ∃ ψ, IsStabilizerVec ψ ∧ ρ = proj ψ}

/-- The tableau of a Clifford unitary: what it makes of the Pauli strings. It determines the unitary up to a phase. -/
def tableau {n : ℕ} (V : Matrix (Fin (2 ^ n)) (Fin (2 ^ n)) ℂ) : (Fin n → Fin 4) → Matrix (Fin (2 ^ n)) (Fin (2 ^ n)) ℂ := fun w => Vᴴ * pauliString w * V

/-- The tableaux of all Clifford unitaries. -/
def tableaux (n : ℕ) : Set ((Fin n → Fin 4) → Matrix (Fin (2 ^ n)) (Fin (2 ^ n)) ℂ) := {t | ∃ V, IsClifford V ∧ t = tableau V}

/-- The contract of `stim.Tableau.random(n).to_state_vector()`: all tableaux are drawn with the same probability, and the vector is what a
Clifford unitary with this tableau makes of the first basis vector. -/
def StimUniform {σ : Type} [MeasurableSpace σ] (stim : Stim σ) (μ : Measure σ) (n : ℕ) : Prop :=
  ∃ V : σ → Matrix (Fin (2 ^ n)) (Fin (2 ^ n)) ℂ,
    (∀ s, IsClifford (V s) ∧ ∀ i, (stim.stateVector n s).1 i = V s i ⟨0, by positivity⟩) ∧
    ∀ t ∈ tableaux n, MeasurableSet {s | tableau (V s) = t} ∧ μ {s | tableau (V s) = t} = ((tableaux n).ncard : ENNReal)⁻¹

end FF.Spec
