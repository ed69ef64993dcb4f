import Verif.Proofs.TraceNorm
import Verif.Props.Entropy

/-! # Properties of the trace distance (C69, C87) -/

namespace FF.Props

open Matrix
open scoped ComplexOrder

variable {d : ℕ} {ρ σ τ : Op d} {x y z : Arr}

theorem eigvals_exist : ∃ eigvals : {n : ℕ} → Op n → List ℂ, Spec.EigvalsOk eigvals :=
  ⟨fun A => A.charpoly.roots.toList, fun A => Multiset.coe_toList _⟩

variable {eigvals : {n : ℕ} → Op n → List ℂ}

theorem traceDistance_eq (hE : Spec.EigvalsOk eigvals) (hx : Spec.IsState x ρ) (hy : Spec.IsState y σ) :
    traceDistance eigvals x y = .ok (1 / 2 * tnorm (ρ - σ)) := by
  rw [traceDistance, (state_cast hx).1, (state_cast hy).1]
  simp only [bind, Except.bind]
  have e : castOp rfl σ = σ := by ext; rfl
  have h : ((eigvals (ρ - σ)).map fun z => ‖z‖).sum = tnorm (ρ - σ) := by
    rw [tnorm, ← hE (ρ - σ), Multiset.map_coe, Multiset.sum_coe]
  rw [dif_pos trivial, e, h]
  norm_num [pure, Except.pure]

theorem diff_herm (hx : Spec.IsState x ρ) (hy : Spec.IsState y σ) : (ρ - σ).IsHermitian :=
  (state_cast hx).2.psd.isHermitian.sub (state_cast hy).2.psd.isHermitian

/-- C69. The value: if `ρ - σ = U diag(l) U†` with `U` unitary, the distance is `½ Σ |l_i|`. -/
theorem C69_value (hE : Spec.EigvalsOk eigvals) (hx : Spec.IsState x ρ) (hy : Spec.IsState y σ) (U : Op d) (l : Fin d → ℝ)
    (hU : Uᴴ * U = 1) (h : ρ - σ = U * diagonal (fun i => (l i : ℂ)) * Uᴴ) :
    traceDistance eigvals x y = .ok (1 / 2 * ∑ i, |l i|) := by
  rw [traceDistance_eq hE hx hy, h, tnorm_conj _ hU, tnorm_diagonal]

/-- C69. The trace distance is symmetric, in `[0, 1]`, 0 exactly for equal states, and satisfies the triangle
inequality. -/
theorem C69_metric (hE : Spec.EigvalsOk eigvals) (hx : Spec.IsState x ρ) (hy : Spec.IsState y σ) (hz : Spec.IsState z τ) :
    ∃ a b c : ℝ, traceDistance eigvals x y = .ok a ∧ traceDistance eigvals y x = .ok a ∧
      traceDistance eigvals y z = .ok b ∧ traceDistance eigvals x z = .ok c ∧
      0 ≤ a ∧ a ≤ 1 ∧ (a = 0 ↔ ρ = σ) ∧ c ≤ a + b := by
  refine ⟨_, _, _, traceDistance_eq hE hx hy, ?_, traceDistance_eq hE hy hz, traceDistance_eq hE hx hz, ?_, ?_, ?_, ?_⟩
  · rw [traceDistance_eq hE hy hx, ← neg_sub ρ σ, tnorm_neg (diff_herm hx hy)]
  · have := tnorm_nonneg (ρ - σ)
    positivity
  · have h := tnorm_triangle (state_cast hx).2.psd.isHermitian (state_cast hy).2.psd.isHermitian.neg
    rw [tnorm_neg (state_cast hy).2.psd.isHermitian, tnorm_density (state_cast hx).2,
      tnorm_density (state_cast hy).2, ← sub_eq_add_neg] at h
    linarith
  · rw [← sub_eq_zero (a := ρ), ← tnorm_zero_iff (diff_herm hx hy)]
    constructor <;> intro h <;> linarith
  · have h := tnorm_triangle (diff_herm hx hy) (diff_herm hy hz)
    rw [sub_add_sub_cancel] at h
    linarith

/-- C69. Invariance under conjugation of both states with a unitary. -/
theorem C69_unitary (hE : Spec.EigvalsOk eigvals) (hx : Spec.IsState x ρ) (hy : Spec.IsState y σ) (V : Op d)
    (hV : Vᴴ * V = 1) {x' y' : Arr} (hx' : Spec.IsState x' (V * ρ * Vᴴ)) (hy' : Spec.IsState y' (V * σ * Vᴴ)) :
    traceDistance eigvals x' y' = traceDistance eigvals x y := by
  rw [traceDistance_eq hE hx' hy', traceDistance_eq hE hx hy, ← sub_mul, ← mul_sub, tnorm_conj _ hV]

/-- C69. The total variation distance of the diagonals is at most the trace distance. -/
theorem C69_dominates (hE : Spec.EigvalsOk eigvals) (hx : Spec.IsState x ρ) (hy : Spec.IsState y σ) :
    ∃ t a : ℝ, totalVariationDistance x y = .ok t ∧ traceDistance eigvals x y = .ok a ∧ t ≤ a := by
  refine ⟨_, _, C68_value (state_represents hx) (state_represents hy), traceDistance_eq hE hx hy, ?_⟩
  have h := tnorm_diag_le (diff_herm hx hy)
  simp only [Matrix.sub_apply, Complex.sub_re] at h
  linarith

/-- C69. For diagonal states it equals the total variation distance of the diagonals. -/
theorem C69_classical (hE : Spec.EigvalsOk eigvals) (p q : Fin d → ℝ) (hx : Spec.IsState x (diagonal fun i => (p i : ℂ)))
    (hy : Spec.IsState y (diagonal fun i => (q i : ℂ))) :
    traceDistance eigvals x y = .ok (1 / 2 * ∑ i, |p i - q i|) := by
  rw [traceDistance_eq hE hx hy, diagonal_sub]
  have : (fun i => (p i : ℂ) - (q i : ℂ)) = fun i => ((p i - q i : ℝ) : ℂ) := by funext i; push_cast; rfl
  rw [this, tnorm_diagonal]

/-- C69. Operational meaning (Helstrom): the distance is the largest difference of the probabilities that a yes-no
measurement `0 ≤ E ≤ 1` says yes. -/
theorem C69_helstrom (hE : Spec.EigvalsOk eigvals) (hx : Spec.IsState x ρ) (hy : Spec.IsState y σ) :
    ∃ a : ℝ, traceDistance eigvals x y = .ok a ∧
      (∀ E : Op d, E.PosSemidef → (1 - E).PosSemidef → (E * ρ).trace.re - (E * σ).trace.re ≤ a) ∧
      ∃ E : Op d, E.PosSemidef ∧ (1 - E).PosSemidef ∧ (E * ρ).trace.re - (E * σ).trace.re = a := by
  have h0 : (ρ - σ).trace = 0 := by
    rw [trace_sub, (state_cast hx).2.trace_one, (state_cast hy).2.trace_one, sub_self]
  have e : ∀ E : Op d, (E * ρ).trace.re - (E * σ).trace.re = (E * (ρ - σ)).trace.re := fun E => by
    rw [mul_sub, trace_sub, Complex.sub_re]
  refine ⟨_, traceDistance_eq hE hx hy, fun E h1 h2 => ?_, ?_⟩
  · rw [e]; exact helstrom_le (diff_herm hx hy) h0 h1 h2
  · obtain ⟨E, h1, h2, h3⟩ := helstrom_attained (diff_herm hx hy) h0
    exact ⟨E, h1, h2, by rw [e, h3]⟩

/-- C69. States of different dimension, neither one-dimensional, are rejected with ValueError. -/
theorem C69_dimensions {e : ℕ} {σ : Op e} (hx : Spec.IsState x ρ) (hy : Spec.IsState y σ) (hde : d ≠ e) (hd : d ≠ 1)
    (he : e ≠ 1) : traceDistance eigvals x y = .error .valueError := by
  rw [traceDistance, (state_cast hx).1, (state_cast hy).1]
  simp only [bind, Except.bind]
  rw [dif_neg (Ne.symm hde), dif_neg he, dif_neg hd]

theorem state_vec {ψ : Fin d → ℂ} (h : Spec.IsUnitVec ψ) : Spec.IsState (.vec d ψ) (Spec.proj ψ) := .inl ⟨ψ, h, rfl, rfl⟩

/-- Two different pure states. -/
example : Spec.IsState (.vec 2 ![1, 0]) (Spec.proj ![1, 0]) ∧ Spec.IsState (.vec 2 ![0, Complex.I]) (Spec.proj ![0, Complex.I]) ∧
    Spec.proj ![1, 0] ≠ Spec.proj ![0, Complex.I] ∧ ∃ eigvals : {n : ℕ} → Op n → List ℂ, Spec.EigvalsOk eigvals := by
  refine ⟨state_vec ?_, state_vec ?_, fun h => ?_, eigvals_exist⟩
  · simp [Spec.IsUnitVec, Fin.sum_univ_two]
  · simp [Spec.IsUnitVec, Fin.sum_univ_two]
  · have := congrFun (congrFun h 0) 0
    simp [Spec.proj] at this

/-! ## C87 -/

/-- C87. Tracing out the first subsystem with `partial_trace_over_1` never increases the trace distance. -/
theorem C87_contraction (hE : Spec.EigvalsOk eigvals) {a b : ℕ} (hb : b ≠ 0) {ρ σ : Op (a * b)} (hx : Spec.IsState x ρ)
    (hy : Spec.IsState y σ) :
    ∃ (R S : Op b) (s t : ℝ), partialTraceOver1 ρ b = .ok R ∧ partialTraceOver1 σ b = .ok S ∧
      traceDistance eigvals (.mat b b R) (.mat b b S) = .ok s ∧ traceDistance eigvals x y = .ok t ∧ s ≤ t := by
  have key : ∀ {x : Arr} {ρ : Op (a * b)}, Spec.IsState x ρ → Spec.IsState (.mat b b (pt1 ρ)) (pt1 ρ) := by
    intro x ρ h
    obtain ⟨-, h⟩ := state_cast h
    exact .inr (.inl ⟨⟨pt1_psd h.psd, by rw [trace_pt1, h.trace_one]⟩, rfl⟩)
  refine ⟨pt1 ρ, pt1 σ, _, _, partialTraceOver1_ok hb ρ, partialTraceOver1_ok hb σ,
    traceDistance_eq hE (key hx) (key hy), traceDistance_eq hE hx hy, ?_⟩
  have e : pt1 ρ - pt1 σ = pt1 (ρ - σ) := by
    rw [pt1, pt1, pt1, ← Finset.sum_sub_distrib]; rfl
  rw [e]
  have := tnorm_pt1 (diff_herm hx hy)
  linarith

example : ∃ (x y : Arr) (ρ σ : Op (2 * 2)), Spec.IsState x ρ ∧ Spec.IsState y σ ∧ ρ ≠ σ := by
  refine ⟨_, _, _, _, state_vec (ψ := ![1, 0, 0, 0]) ?_, state_vec (ψ := ![0, 1, 0, 0]) ?_, fun h => ?_⟩
  · simp [Spec.IsUnitVec, Fin.sum_univ_four]
  · simp [Spec.IsUnitVec, Fin.sum_univ_four]
  · have := congrFun (congrFun h 0) 0
    simp [Spec.proj] at this

end FF.Props
