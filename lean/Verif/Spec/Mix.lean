import Verif.Spec.Distance

/-! # Specification: mixtures -/

namespace FF.Spec

/-- The mixture of the distributions `p i` with weights `w i`. -/
def mixture {m d : ℕ} (w : Fin m → ℝ) (p : Fin m → Fin d → ℝ) : Fin d → ℝ := fun j => ∑ i, w i * p i j

/-- The mixture of the states `ρ i` with weights `w i`. -/
noncomputable def mixedState {m d : ℕ} (w : Fin m → ℝ) (ρ : Fin m → Matrix (Fin d) (Fin d) ℂ) : Matrix (Fin d) (Fin d) ℂ :=
  ∑ i, (w i : ℂ) • ρ i

/-- The first of two outcomes that are listed row by row. -/
def marginal1 {d e : ℕ} (r : Fin (d * e) → ℝ) : Fin d → ℝ := fun i => ∑ j, r (finProdFinEquiv (i, j))

/-- The second of two outcomes that are listed row by row. -/
def marginal2 {d e : ℕ} (r : Fin (d * e) → ℝ) : Fin e → ℝ := fun j => ∑ i, r (finProdFinEquiv (i, j))

end FF.Spec
