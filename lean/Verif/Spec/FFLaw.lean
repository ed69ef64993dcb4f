import Verif.Spec.Law

/-! # Specification: the uniform distribution of free-fermion states -/

namespace FF.Spec

open Matrix MeasureTheory

/-- The free-fermion rotations: unitaries that map every creation and annihilation operator `f k` to a linear combination
of them, by a symplectic unitary with determinant one. -/
def FFRotations {n : ℕ} (f : Fin (n + n) → Matrix (Fin (2 ^ n)) (Fin (2 ^ n)) ℂ) : Set (Matrix (Fin (2 ^ n)) (Fin (2 ^ n)) ℂ) :=
  {V | V ∈ unitaryGroup (Fin (2 ^ n)) ℂ ∧ ∃ C : Matrix (Fin (n + n)) (Fin (n + n)) ℂ,
    C ∈ unitaryGroup (Fin (n + n)) ℂ ∧ IsSymplectic C ∧ C.det = 1 ∧ ∀ k, Vᴴ * f k * V = ∑ l, C k l • f l}

/-- The uniform distribution of the states that free-fermion rotations make from `ψ₀`: it is carried by these states, and
no free-fermion rotation changes it. Vectors that differ by a phase are the same state. -/
structure IsUniformFF {n : ℕ} (f : Fin (n + n) → Matrix (Fin (2 ^ n)) (Fin (2 ^ n)) ℂ) (ψ₀ : Fin (2 ^ n) → ℂ)
    (ν : Measure (Matrix (Fin (2 ^ n)) (Fin (2 ^ n)) ℂ)) : Prop where
  prob : IsProbabilityMeasure ν
  support : ∀ᵐ ρ ∂ν, ∃ V ∈ FFRotations f, ρ = proj (V *ᵥ ψ₀)
  invariant : ∀ V ∈ FFRotations f, ν.map (fun ρ => V * ρ * Vᴴ) = ν

/-- With probability one the code returns a vector `ψ` at distance at most `ε` from a vector `φ` whose state is a sample of
law `ν`, independent of the state left behind, which has law `μ`. -/
def SamplesNear {σ : Type} [MeasurableSpace σ] (μ : Measure σ) {n : ℕ} (m : Rand σ (Σ n : ℕ, Fin (2 ^ n) → ℂ))
    (ν : Measure (Matrix (Fin (2 ^ n)) (Fin (2 ^ n)) ℂ)) (ε : ℝ) : Prop :=
  ∃ f : σ → Matrix (Fin (2 ^ n)) (Fin (2 ^ n)) ℂ × σ, Fresh f ν μ ∧
    ∀ᵐ s ∂μ, ∃ ψ φ : Fin (2 ^ n) → ℂ, m.exec s = (.ok ⟨n, ψ⟩, (f s).2) ∧ (f s).1 = proj φ ∧
      √(∑ i, ‖ψ i - φ i‖ ^ 2) ≤ ε

/-- The same for a state `ρ` that is returned with its spectrum `p`: `ρ` is close, in operator norm, to a state which together with `p` is a sample
of law `ν`. -/
def SamplesNearPair {σ : Type} [MeasurableSpace σ] (μ : Measure σ) {n : ℕ} (m : Rand σ (Σ n : ℕ, Matrix (Fin (2 ^ n)) (Fin (2 ^ n)) ℂ × (Fin (2 ^ n) → ℝ)))
    (ν : Measure (Matrix (Fin (2 ^ n)) (Fin (2 ^ n)) ℂ × (Fin (2 ^ n) → ℝ))) (ε : ℝ) : Prop :=
  ∃ f : σ → (Matrix (Fin (2 ^ n)) (Fin (2 ^ n)) ℂ × (Fin (2 ^ n) → ℝ)) × σ, Fresh f ν μ ∧
    ∀ᵐ s ∂μ, ∃ ρ : Matrix (Fin (2 ^ n)) (Fin (2 ^ n)) ℂ, m.exec s = (.ok ⟨n, ρ, (f s).1.2⟩, (f s).2) ∧
      ∀ x : Fin (2 ^ n) → ℂ, √(∑ i, ‖((ρ - (f s).1.1) *ᵥ x) i‖ ^ 2) ≤ ε * √(∑ i, ‖x i‖ ^ 2)

/-- The distribution of a state with spectrum `p` of law `λ`, in a frame that is uniformly distributed over the free-fermion rotations: no
rotation changes it. -/
structure IsRotatedSpectrum {n : ℕ} (f : Fin (n + n) → Matrix (Fin (2 ^ n)) (Fin (2 ^ n)) ℂ) (law : Measure (Fin (2 ^ n) → ℝ))
    (ν : Measure (Matrix (Fin (2 ^ n)) (Fin (2 ^ n)) ℂ × (Fin (2 ^ n) → ℝ))) : Prop where
  spectrum : ν.map Prod.snd = law
  form : ∀ᵐ x ∂ν, ∃ V ∈ FFRotations f, x.1 = V * diagonal (fun i => ((x.2 i : ℝ) : ℂ)) * Vᴴ
  invariant : ∀ V ∈ FFRotations f, ν.map (fun x => (V * x.1 * Vᴴ, x.2)) = ν

end FF.Spec
