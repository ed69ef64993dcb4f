import Verif.Spec.Random
import Mathlib.MeasureTheory.Constructions.BorelSpace.Complex
import Mathlib.MeasureTheory.Measure.Prod
import Mathlib.MeasureTheory.Constructions.Pi
import Mathlib.Probability.Distributions.Exponential
import Mathlib.Probability.Distributions.Gaussian.Real
import Mathlib.Probability.UniformOn

/-! # Specification: the distributions of random draws -/

namespace FF.Spec

open Matrix MeasureTheory ProbabilityTheory

/-- Events about matrices are generated by events about their entries. -/
instance matrixMeasurableSpace {m n α : Type} [MeasurableSpace α] : MeasurableSpace (Matrix m n α) := MeasurableSpace.pi

/-- `f`, run on a source of randomness with law `μ`, gives a sample of law `ν` and leaves the source in a state that
is again of law `μ` and independent of the sample. -/
structure Fresh {σ α : Type} [MeasurableSpace σ] [MeasurableSpace α] (f : σ → α × σ) (ν : Measure α) (μ : Measure σ) : Prop where
  measurable : Measurable f
  law : μ.map f = ν.prod μ

/-- `ν` is the Haar distribution of the group `G` of matrices. -/
structure IsHaar {d : ℕ} {R : Type} [CommRing R] [MeasurableSpace R] (G : Set (Matrix (Fin d) (Fin d) R))
    (ν : Measure (Matrix (Fin d) (Fin d) R)) : Prop where
  prob : IsProbabilityMeasure ν
  support : ∀ᵐ U ∂ν, U ∈ G
  left : ∀ V ∈ G, ν.map (fun U => V * U) = ν
  right : ∀ V ∈ G, ν.map (fun U => U * V) = ν

/-- The rotations of `R^m`. -/
def rotations (m : ℕ) : Set (Matrix (Fin m) (Fin m) ℝ) := {O | O * Oᵀ = 1 ∧ O.det = 1}

/-- The flat Dirichlet distribution: independent exponential numbers divided by their sum. -/
noncomputable def flatDirichlet (d : ℕ) : Measure (Fin d → ℝ) :=
  (Measure.pi fun _ : Fin d => expMeasure 1).map fun x i => x i / ∑ j, x j

/-- Independent standard normal numbers. -/
noncomputable def normalMatrix (r c : ℕ) : Measure (Matrix (Fin r) (Fin c) ℝ) :=
  Measure.pi fun _ : Fin r => Measure.pi fun _ : Fin c => gaussianReal 0 1

/-- An ideal random generator: started in a state of law `μ`, successive draws are independent and have the
distributions that numpy and scipy document. -/
structure IdealSource {σ : Type} [MeasurableSpace σ] (rng : Rng σ) (μ : Measure σ) : Prop where
  prob : IsProbabilityMeasure μ
  orthogonal : ∀ m, ∃ ν, IsHaar (rotations m) ν ∧ Fresh (rng.orthogonal m) ν μ
  unitary : ∀ d, ∃ ν, IsHaar (unitaryGroup (Fin d) ℂ : Set (Matrix (Fin d) (Fin d) ℂ)) ν ∧ Fresh (rng.unitary d) ν μ
  randn : ∀ r c, Fresh (rng.randn r c) (normalMatrix r c) μ
  dirichlet : ∀ d, 0 < d → Fresh (rng.dirichlet d) (flatDirichlet d) μ
  exponential : Fresh rng.exponential (expMeasure 1) μ
  randint : ∀ k, 0 < k → Fresh (rng.randint k) (uniformOn {i | i < k}) μ

/-- Whatever the state of the source, the code returns a value `emb a`, and `a` is a sample of law `ν` that is
independent of the state left behind, which has law `μ`. -/
def Samples {σ α β : Type} [MeasurableSpace σ] [MeasurableSpace α] (μ : Measure σ) (m : Rand σ β) (emb : α → β)
    (ν : Measure α) : Prop :=
  ∃ f : σ → α × σ, Fresh f ν μ ∧ ∀ s, m.exec s = (.ok (emb (f s).1), (f s).2)

/-- The uniform distribution on the unit vectors: it is invariant under every unitary. -/
structure IsUniformVec {d : ℕ} (ν : Measure (Fin d → ℂ)) : Prop where
  prob : IsProbabilityMeasure ν
  support : ∀ᵐ v ∂ν, IsUnitVec v
  invariant : ∀ V ∈ unitaryGroup (Fin d) ℂ, ν.map (fun v => V *ᵥ v) = ν

end FF.Spec
