import Verif.Spec.FFLaw
import Mathlib.MeasureTheory.Integral.Bochner.Basic

/-! # Specification: averages of random states -/

namespace FF.Spec

open Matrix MeasureTheory

/-- A random matrix of law `ν` has the average `M`, entry by entry. -/
structure HasMean {d : ℕ} (ν : Measure (Matrix (Fin d) (Fin d) ℂ)) (M : Matrix (Fin d) (Fin d) ℂ) : Prop where
  integrable : ∀ i j, Integrable (fun ρ : Matrix (Fin d) (Fin d) ℂ => ρ i j) ν
  mean : ∀ i j, ∫ ρ, ρ i j ∂ν = M i j

end FF.Spec
