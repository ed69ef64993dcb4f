import Verif.Spec.Quantum
import Verif.Spec.Operators
import Verif.Model.Utils
import Mathlib.Analysis.SpecialFunctions.Pow.Real
import Mathlib.LinearAlgebra.Matrix.Charpoly.Basic

/-! # Specification: distributions, states and entropies

Only the type `Arr` of array arguments is taken from the model. -/

namespace FF.Spec

open Matrix

/-- The argument `x` stands for the distribution `p`: it is a wavefunction with `|ψ_i|^2 = p_i`, a density matrix
with diagonal `p`, or the vector `p` itself, if that cannot be confused with a wavefunction (its 2-norm is not within
numpy's tolerance of one; see C17). Deterministic vectors are wavefunctions, so they are covered. -/
def Represents (x : Arr) {d : ℕ} (p : Fin d → ℝ) : Prop :=
  (∃ ψ : Fin d → ℂ, IsUnitVec ψ ∧ x = .vec d ψ ∧ ∀ i, p i = ‖ψ i‖ ^ 2) ∨
  (∃ ρ : Matrix (Fin d) (Fin d) ℂ, IsDensity ρ ∧ x = .mat d d ρ ∧ ∀ i, (p i : ℂ) = ρ i i) ∨
  (IsProb p ∧ x = .vec d (fun i => (p i : ℂ)) ∧ 1e-8 + 1e-5 < |Real.sqrt (∑ i, p i ^ 2) - 1|)

/-- The argument `x` stands for the quantum state `ρ`. -/
def IsState (x : Arr) {d : ℕ} (ρ : Matrix (Fin d) (Fin d) ℂ) : Prop :=
  (∃ ψ : Fin d → ℂ, IsUnitVec ψ ∧ x = .vec d ψ ∧ ρ = proj ψ) ∨
  (IsDensity ρ ∧ x = .mat d d ρ) ∨
  (∃ p : Fin d → ℝ, IsProb p ∧ x = .vec d (fun i => (p i : ℂ)) ∧ ρ = Matrix.diagonal (fun i => (p i : ℂ)) ∧
    1e-8 + 1e-5 < |Real.sqrt (∑ i, p i ^ 2) - 1|)

/-- The Rényi entropy of order `a` (the sum runs over the support, so order 0 gives the logarithm of its size); order
1 is the Shannon entropy, with `0 log 0 = 0`. -/
noncomputable def renyi {d : ℕ} (p : Fin d → ℝ) (a : ℝ) : ℝ :=
  open Classical in
  if a = 1 then -∑ i, p i * Real.log (p i)
  else 1 / (1 - a) * Real.log (∑ i with p i ≠ 0, p i ^ a)

/-- `m` is the largest entry of `p`. -/
def IsMax {d : ℕ} (p : Fin d → ℝ) (m : ℝ) : Prop := (∃ i, p i = m) ∧ ∀ i, p i ≤ m

/-- All the mass is on one outcome. -/
def Deterministic {d : ℕ} (p : Fin d → ℝ) : Prop := ∃ k, ∀ i, p i = if i = k then 1 else 0

/-- The uniform distribution. -/
def Uniform {d : ℕ} (p : Fin d → ℝ) : Prop := ∀ i, p i = 1 / (d : ℝ)

/-- No outcome has positive weight in both. -/
def DisjointSupports {d : ℕ} (p q : Fin d → ℝ) : Prop := ∀ i, p i = 0 ∨ q i = 0

/-- The independent product of two distributions, with numpy's index convention `i = (i // e, i % e)`. -/
def product {d e : ℕ} (p : Fin d → ℝ) (q : Fin e → ℝ) : Fin (d * e) → ℝ := fun i => p i.divNat * q i.modNat

/-- The contract of `np.linalg.eigvals`: the roots of the characteristic polynomial, with multiplicity, in any
order. -/
def EigvalsOk (eigvals : {n : ℕ} → Matrix (Fin n) (Fin n) ℂ → List ℂ) : Prop :=
  ∀ {n : ℕ} (A : Matrix (Fin n) (Fin n) ℂ), (eigvals A : Multiset ℂ) = A.charpoly.roots

/-- The state `ρ` of `n` qubits is pure. -/
def Pure {n : ℕ} (ρ : Matrix (Fin (2 ^ n)) (Fin (2 ^ n)) ℂ) : Prop := ∃ ψ, IsUnitVec ψ ∧ ρ = proj ψ

/-- All Pauli expectation values are 0, 1 or -1. -/
def PauliFlat {n : ℕ} (ρ : Matrix (Fin (2 ^ n)) (Fin (2 ^ n)) ℂ) : Prop :=
  ∀ w : Fin n → Fin 4, (pauliString w * ρ).trace = 0 ∨ (pauliString w * ρ).trace = 1 ∨
    (pauliString w * ρ).trace = -1

/-- `M` is the covariance matrix of the state `ρ` for the Majorana operators `g`:
`M_ij = -i Tr[ρ (γ_i γ_j - γ_j γ_i)]`. -/
def IsMajoranaCov {m d : ℕ} (g : Fin m → Matrix (Fin d) (Fin d) ℂ) (ρ : Matrix (Fin d) (Fin d) ℂ)
    (M : Matrix (Fin m) (Fin m) ℝ) : Prop :=
  ∀ i j, (M i j : ℂ) = -Complex.I * (ρ * (g i * g j - g j * g i)).trace

end FF.Spec
