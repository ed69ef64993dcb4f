import Verif.Spec.Ground
import Verif.Proofs.GibbsInj
import Mathlib.Analysis.SpecialFunctions.Exp
import Mathlib.Topology.Instances.Matrix

/-! # Helper lemmas: projectors onto ground states, and Gibbs states at low temperature -/

namespace FF

open Matrix Filter Topology
open scoped ComplexOrder

variable {d : ℕ}

theorem ground_energy_unique {Q : Op d} {E E' : ℝ} (h : Spec.IsGroundEnergy Q E) (h' : Spec.IsGroundEnergy Q E') : E = E' :=
  h.unique h'

/-- A matrix is determined by its action on vectors. -/
theorem mulVec_ext {A B : Op d} (h : ∀ v, A *ᵥ v = B *ᵥ v) : A = B := by
  ext i j
  have := congrFun (h (Pi.single j 1)) i
  simpa using this

/-- There is at most one projector onto the ground states. -/
theorem ground_unique {Q P P' : Op d} (h : Spec.IsGroundProjector Q P) (h' : Spec.IsGroundProjector Q P') : P = P' := by
  obtain ⟨E, hE, hv⟩ := h.range
  obtain ⟨E', hE', hv'⟩ := h'.range
  obtain rfl := ground_energy_unique hE hE'
  have h1 : P * P' = P' := mulVec_ext fun v => by
    rw [← mulVec_mulVec]
    exact (hv _).2 ((hv' _).1 (by rw [mulVec_mulVec, h'.idem]))
  have h2 : P' * P = P := mulVec_ext fun v => by
    rw [← mulVec_mulVec]
    exact (hv' _).2 ((hv _).1 (by rw [mulVec_mulVec, h.idem]))
  have h3 := congrArg conjTranspose h1
  rw [conjTranspose_mul, h.herm.eq, h'.herm.eq, h2] at h3
  exact h3

/-- The projector onto the ground states of `V diag(l) V†`. -/
noncomputable def groundP (V : Op d) (l : Fin d → ℝ) (E : ℝ) : Op d :=
  V * diagonal (fun i => if l i = E then (1 : ℂ) else 0) * Vᴴ

theorem diag_eigen {V : Op d} (hV : V * Vᴴ = 1) (l : Fin d → ℝ) (E : ℂ) (v : Fin d → ℂ) :
    (V * diagonal (fun i => (l i : ℂ)) * Vᴴ) *ᵥ v = E • v ↔ ∀ i, (Vᴴ *ᵥ v) i = 0 ∨ (l i : ℂ) = E := by
  have hV' : Vᴴ * V = 1 := mul_eq_one_comm.1 hV
  have h1 : (V * diagonal (fun i => (l i : ℂ)) * Vᴴ) *ᵥ v = E • v ↔
      diagonal (fun i => (l i : ℂ)) *ᵥ (Vᴴ *ᵥ v) = E • (Vᴴ *ᵥ v) := by
    constructor
    · intro h
      have := congrArg (fun w => Vᴴ *ᵥ w) h
      simp only [mulVec_mulVec, mulVec_smul] at this
      rwa [← Matrix.mul_assoc, ← Matrix.mul_assoc, hV', one_mul, ← mulVec_mulVec] at this
    · intro h
      have := congrArg (fun w => V *ᵥ w) h
      simp only [mulVec_mulVec, mulVec_smul] at this
      rwa [hV, one_mulVec, ← Matrix.mul_assoc] at this
  rw [h1, funext_iff]
  refine forall_congr' fun i => ?_
  rw [mulVec_diagonal, Pi.smul_apply, smul_eq_mul, mul_eq_mul_right_iff, or_comm]

theorem groundP_spec {V : Op d} (hV : V * Vᴴ = 1) {l : Fin d → ℝ} {E : ℝ} {i₀ : Fin d} (h0 : l i₀ = E) (hle : ∀ i, E ≤ l i) :
    Spec.IsGroundEnergy (V * diagonal (fun i => (l i : ℂ)) * Vᴴ) E ∧
    Spec.IsGroundProjector (V * diagonal (fun i => (l i : ℂ)) * Vᴴ) (groundP V l E) := by
  have hV' : Vᴴ * V = 1 := mul_eq_one_comm.1 hV
  have hE : Spec.IsGroundEnergy (V * diagonal (fun i => (l i : ℂ)) * Vᴴ) E := by
    constructor
    · refine ⟨V *ᵥ Pi.single i₀ 1, fun h => ?_, ?_⟩
      · have := congrArg (fun v => Vᴴ *ᵥ v) h
        simp only [mulVec_mulVec, hV', one_mulVec, mulVec_zero] at this
        simpa using congrFun this i₀
      · rw [diag_eigen hV]
        intro i
        rw [mulVec_mulVec, hV', one_mulVec]
        by_cases h : i = i₀
        · subst h; right; rw [h0]
        · left; simp [h]
    · rintro E' ⟨v, hv, he⟩
      rw [diag_eigen hV] at he
      have h2 : Vᴴ *ᵥ v ≠ 0 := fun h => hv (by
        have := congrArg (fun v => V *ᵥ v) h
        simpa only [mulVec_mulVec, hV, one_mulVec, mulVec_zero] using this)
      obtain ⟨x, hx⟩ := Function.ne_iff.1 h2
      have := (he x).resolve_left hx
      rw [← Complex.ofReal_injective this]
      exact hle x
  refine ⟨hE, ?_, ?_, E, hE, fun v => ?_⟩
  · rw [IsHermitian, groundP, conjTranspose_mul, conjTranspose_mul, conjTranspose_conjTranspose, diagonal_conjTranspose,
      Matrix.mul_assoc]
    congr 3
    funext i
    simp only [Pi.star_apply]
    split_ifs <;> simp
  · rw [groundP, Matrix.mul_assoc, Matrix.mul_assoc, Matrix.mul_assoc, ← Matrix.mul_assoc Vᴴ V, hV', one_mul,
      ← Matrix.mul_assoc (diagonal _) (diagonal _), diagonal_mul_diagonal]
    congr 3
    funext i
    split_ifs <;> simp
  · have h := diag_eigen hV (fun i => if l i = E then (1 : ℝ) else 0) 1 v
    rw [one_smul] at h
    have e : (V * diagonal (fun i => (((if l i = E then (1 : ℝ) else 0 : ℝ)) : ℂ)) * Vᴴ) = groundP V l E := by
      rw [groundP]
      congr 3
      funext i
      split_ifs <;> simp
    rw [← e, h, diag_eigen hV]
    refine forall_congr' fun i => or_congr Iff.rfl ?_
    split_ifs with hi
    · simp [hi]
    · simpa using hi

theorem groundP_trace {V : Op d} (hV : V * Vᴴ = 1) (l : Fin d → ℝ) (E : ℝ) :
    (groundP V l E).trace = ((∑ i, if l i = E then (1 : ℝ) else 0 : ℝ) : ℂ) := by
  rw [groundP, trace_mul_comm, ← Matrix.mul_assoc, mul_eq_one_comm.1 hV, one_mul, trace_diagonal]
  push_cast
  exact Finset.sum_congr rfl fun i _ => by split_ifs <;> simp

theorem expm_diag {V : Op d} (hV : V * Vᴴ = 1) (l : Fin d → ℝ) :
    expm (-(V * diagonal (fun i => (l i : ℂ)) * Vᴴ)) = V * diagonal (fun i => ((Real.exp (-l i) : ℝ) : ℂ)) * Vᴴ := by
  have hV' : Vᴴ * V = 1 := mul_eq_one_comm.1 hV
  have e : -(V * diagonal (fun i => (l i : ℂ)) * Vᴴ) = V * diagonal (fun i => (-(l i) : ℂ)) * Vᴴ := by
    rw [← Matrix.neg_mul, ← Matrix.mul_neg, ← diagonal_neg]
  rw [e, expm_unitary_conj hV hV', expm_diagonal]
  congr 3
  funext i
  push_cast
  rfl

theorem trace_diag {V : Op d} (hV : V * Vᴴ = 1) (f : Fin d → ℝ) :
    (V * diagonal (fun i => (f i : ℂ)) * Vᴴ).trace = ((∑ i, f i : ℝ) : ℂ) := by
  rw [trace_mul_comm, ← Matrix.mul_assoc, mul_eq_one_comm.1 hV, one_mul, trace_diagonal]
  push_cast
  rfl

/-- Every Hermitian matrix of positive size has a lowest energy and a projector onto its ground states. -/
theorem ground_diag (hd : 0 < d) {Q : Op d} (hQ : Q.IsHermitian) : ∃ (V : Op d) (l : Fin d → ℝ) (i₀ : Fin d),
    V * Vᴴ = 1 ∧ Q = V * diagonal (fun i => (l i : ℂ)) * Vᴴ ∧ ∀ i, l i₀ ≤ l i := by
  obtain ⟨V, l, hV, -, hQe, -⟩ := herm_diag hQ
  haveI : Nonempty (Fin d) := ⟨⟨0, hd⟩⟩
  obtain ⟨i₀, h⟩ := Finite.exists_min l
  exact ⟨V, l, i₀, hV, hQe, h⟩

theorem ground_exists (hd : 0 < d) {Q : Op d} (hQ : Q.IsHermitian) : ∃ P, Spec.IsGroundProjector Q P := by
  obtain ⟨V, l, i₀, hV, rfl, h⟩ := ground_diag hd hQ
  exact ⟨_, (groundP_spec hV rfl h).2⟩

/-- At low temperature the Gibbs state approaches the normalised projector onto the ground states. -/
theorem gibbs_limit (hd : 0 < d) {Q P : Op d} (hQ : Q.IsHermitian) (hP : Spec.IsGroundProjector Q P) :
    Tendsto (fun β : ℝ => (expm (-((β : ℂ) • Q))).trace⁻¹ • expm (-((β : ℂ) • Q))) atTop (𝓝 (P.trace⁻¹ • P)) := by
  obtain ⟨V, l, i₀, hV, rfl, hle⟩ := ground_diag hd hQ
  obtain rfl := ground_unique hP (groundP_spec hV rfl hle).2
  set E := l i₀ with hE
  -- weights relative to the ground states
  set w : ℝ → Fin d → ℝ := fun β i => Real.exp (-(β * (l i - E))) with hw
  have hsm : ∀ β : ℝ, (β : ℂ) • (V * diagonal (fun i => (l i : ℂ)) * Vᴴ) =
      V * diagonal (fun i => ((β * l i : ℝ) : ℂ)) * Vᴴ := by
    intro β
    rw [← Matrix.smul_mul, ← Matrix.mul_smul, ← diagonal_smul]
    congr 3
    funext i
    simp
  have hg : ∀ β : ℝ, (expm (-((β : ℂ) • (V * diagonal (fun i => (l i : ℂ)) * Vᴴ)))).trace⁻¹ •
      expm (-((β : ℂ) • (V * diagonal (fun i => (l i : ℂ)) * Vᴴ))) =
      ((∑ i, w β i : ℝ) : ℂ)⁻¹ • (V * diagonal (fun i => (w β i : ℂ)) * Vᴴ) := by
    intro β
    rw [hsm, expm_diag hV, trace_diag hV]
    have e : ∀ i, Real.exp (-(β * l i)) = Real.exp (-(β * E)) * w β i := by
      intro i
      rw [hw, ← Real.exp_add]
      congr 1
      ring
    simp only [e]
    rw [← Finset.mul_sum]
    have h2 : (diagonal fun i => ((Real.exp (-(β * E)) * w β i : ℝ) : ℂ)) =
        ((Real.exp (-(β * E)) : ℝ) : ℂ) • diagonal fun i => (w β i : ℂ) := by
      rw [← diagonal_smul]
      congr 1
      funext i
      simp
    rw [h2, Matrix.mul_smul, Matrix.smul_mul, smul_smul]
    congr 1
    have h0 : ((Real.exp (-(β * E)) : ℝ) : ℂ) ≠ 0 := Complex.ofReal_ne_zero.2 (Real.exp_pos _).ne'
    rw [Complex.ofReal_mul, mul_inv, mul_comm _⁻¹, mul_assoc, inv_mul_cancel₀ h0, mul_one]
  have hlim : ∀ i, Tendsto (fun β => w β i) atTop (𝓝 (if l i = E then 1 else 0)) := by
    intro i
    split_ifs with h
    · simp only [hw, h, sub_self, mul_zero, neg_zero, Real.exp_zero]
      exact tendsto_const_nhds
    · have hpos : 0 < l i - E := sub_pos.2 (lt_of_le_of_ne (hle i) (Ne.symm h))
      exact Real.tendsto_exp_neg_atTop_nhds_zero.comp (tendsto_id.atTop_mul_const hpos)
  simp only [hg]
  rw [groundP_trace hV]
  refine Tendsto.smul ?_ ?_
  · refine Tendsto.inv₀ ?_ ?_
    · exact (Complex.continuous_ofReal.tendsto _).comp (tendsto_finsetSum _ fun i _ => hlim i)
    · refine Complex.ofReal_ne_zero.2 (ne_of_gt ?_)
      exact Finset.sum_pos' (fun i _ => by split_ifs <;> norm_num) ⟨i₀, Finset.mem_univ _, by simp [hE]⟩
  · have hD : Tendsto (fun β => diagonal (fun i => (w β i : ℂ))) atTop
        (𝓝 (diagonal fun i => if l i = E then (1 : ℂ) else 0)) := by
      have hpi : Tendsto (fun β => fun i => (w β i : ℂ)) atTop (𝓝 fun i => if l i = E then (1 : ℂ) else 0) := by
        refine tendsto_pi_nhds.2 fun i => ?_
        have := (Complex.continuous_ofReal.tendsto _).comp (hlim i)
        have e : (((if l i = E then (1 : ℝ) else 0 : ℝ)) : ℂ) = if l i = E then (1 : ℂ) else 0 := by
          split_ifs <;> simp
        rw [e] at this
        exact this
      exact ((continuous_id.matrix_diagonal).tendsto _).comp hpi
    have hc : Continuous fun D : Op d => V * D * Vᴴ :=
      (continuous_const.matrix_mul continuous_id).matrix_mul continuous_const
    exact (hc.tendsto _).comp hD

end FF
