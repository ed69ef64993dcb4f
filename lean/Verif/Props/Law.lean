import Verif.Proofs.Haar
import Verif.Proofs.IdealSource
import Verif.Props.Reach

/-! # C136: the distributions of the random states and rotations -/

namespace FF.Props

open Matrix MeasureTheory ProbabilityTheory Spec

theorem act_vec_measurable (d : ℕ) : Measurable fun p : Op d × (Fin d → ℂ) => p.1 *ᵥ p.2 :=
  (continuous_fst.matrix_mulVec continuous_snd).measurable

theorem conj_measurable (d : ℕ) : Measurable fun p : Op d × Op d => p.1 * p.2 * p.1ᴴ :=
  ((continuous_fst.matrix_mul continuous_snd).matrix_mul continuous_fst.matrix_conjTranspose).measurable

theorem conj_const_measurable {d : ℕ} (V : Op d) : Measurable fun ρ : Op d => V * ρ * Vᴴ :=
  ((continuous_const.matrix_mul continuous_id).matrix_mul continuous_const).measurable

theorem mul_right_measurable {d : ℕ} (V : Op d) : Measurable fun U : Op d => U * V :=
  (continuous_id.matrix_mul continuous_const).measurable

theorem mul_left_measurable {d : ℕ} (V : Op d) : Measurable fun U : Op d => V * U :=
  (continuous_const.matrix_mul continuous_id).measurable

/-- The image of a fixed unit vector under a Haar distributed unitary is uniformly distributed. -/
theorem haar_uniform {d : ℕ} {l : Measure (Op d)} (hl : IsHaar (unitaryGroup (Fin d) ℂ : Set (Op d)) l) {v : Fin d → ℂ}
    (hv : IsUnitVec v) : IsUniformVec (l.map fun U => U *ᵥ v) := by
  have := hl.prob
  have hm : Measurable fun U : Op d => U *ᵥ v := (continuous_id.matrix_mulVec continuous_const).measurable
  refine ⟨Measure.isProbabilityMeasure_map hm.aemeasurable, ?_, fun V hV => ?_⟩
  · rw [ae_map_iff hm.aemeasurable]
    · filter_upwards [hl.support] with U hU
      exact unit_mulVec (mem_unitaryGroup_iff.1 hU) hv
    · exact (isClosed_eq (by fun_prop) continuous_const : IsClosed {x : Fin d → ℂ | ∑ i, ‖x i‖ ^ 2 = 1}).measurableSet
  · have hV' : Measurable fun w : Fin d → ℂ => V *ᵥ w := (continuous_const.matrix_mulVec continuous_id).measurable
    rw [Measure.map_map hV' hm]
    have e : (fun w : Fin d → ℂ => V *ᵥ w) ∘ (fun U : Op d => U *ᵥ v) = (fun U : Op d => U *ᵥ v) ∘ fun U => V * U := by
      funext U; simp [mulVec_mulVec]
    rw [e, ← Measure.map_map hm (mul_left_measurable V), hl.left V hV]

/-- There is only one uniform distribution on the unit vectors. -/
theorem C136_uniform_unique {d : ℕ} (hd : 0 < d) (ν ν' : Measure (Fin d → ℂ)) (h : IsUniformVec ν) (h' : IsUniformVec ν') : ν = ν' := by
  obtain ⟨l, hl⟩ := haar_unitary d
  have key : ∀ ν : Measure (Fin d → ℂ), IsUniformVec ν → ν = l.map fun U => U *ᵥ zeroState d := fun ν h => by
    refine invariant_unique hl (fun U v => U *ᵥ v) (act_vec_measurable d) mul_right_measurable (zeroState d)
      (fun U _ V _ => by rw [mulVec_mulVec]) ν h.prob ?_ h.invariant
    filter_upwards [h.support] with v hv
    obtain ⟨U, hU, hUv⟩ := exists_unitary_first hd hv
    exact ⟨U, mem_unitaryGroup_iff.2 hU, hUv.symm⟩
  rw [key ν h, key ν' h']

/-- The group of the orbital rotations. -/
theorem orb_range (n : ℕ) : {C : Op (n + n) | C ∈ unitaryGroup (Fin (n + n)) ℂ ∧ IsSymplectic C ∧ C.det = 1} = orb '' rotations (n + n) := by
  ext C
  constructor
  · rintro ⟨hu, hs, hdet⟩
    have hC : C * Cᴴ = 1 := mem_unitaryGroup_iff.1 hu
    obtain ⟨O, hO, hOd, rfl⟩ := exists_orb hC (canonical_of_symp hC hs) hdet
    exact ⟨O, ⟨hO, hOd⟩, rfl⟩
  · rintro ⟨O, ⟨hO, hOd⟩, rfl⟩
    exact ⟨mem_unitaryGroup_iff.2 (orb_unitary hO), orb_symp hO, orb_det hOd⟩

theorem rotGroup_closed (n : ℕ) : IsClosed {C : Op (n + n) | C ∈ unitaryGroup (Fin (n + n)) ℂ ∧ IsSymplectic C ∧ C.det = 1} := by
  have e : {C : Op (n + n) | C ∈ unitaryGroup (Fin (n + n)) ℂ ∧ IsSymplectic C ∧ C.det = 1} =
      {C | C * Cᴴ = 1} ∩ ({C | C * swapS n * Cᵀ = swapS n} ∩ {C | C.det = 1}) := by
    ext C
    exact and_congr mem_unitaryGroup_iff (and_congr (symp_iff C) Iff.rfl)
  rw [e]
  exact (isClosed_eq (continuous_id.matrix_mul continuous_id.matrix_conjTranspose) continuous_const).inter
    ((isClosed_eq ((continuous_id.matrix_mul continuous_const).matrix_mul continuous_id.matrix_transpose) continuous_const).inter
      (isClosed_eq continuous_id.matrix_det continuous_const))

theorem haar_orb {n : ℕ} {l : Measure (RMat (n + n))} (hl : IsHaar (rotations (n + n)) l) :
    IsHaar {C : Op (n + n) | C ∈ unitaryGroup (Fin (n + n)) ℂ ∧ IsSymplectic C ∧ C.det = 1} (l.map orb) := by
  have := hl.prob
  have hc : ∀ V : RMat (n + n), Measurable (fun U => V * U) := fun V => (continuous_const.matrix_mul continuous_id).measurable
  have hc' : ∀ V : RMat (n + n), Measurable (fun U => U * V) := fun V => (continuous_id.matrix_mul continuous_const).measurable
  refine ⟨Measure.isProbabilityMeasure_map orb_measurable.aemeasurable, ?_, ?_, ?_⟩
  · refine (ae_map_iff orb_measurable.aemeasurable (rotGroup_closed n).measurableSet).2 ?_
    filter_upwards [hl.support] with O hO
    exact ⟨mem_unitaryGroup_iff.2 (orb_unitary hO.1), orb_symp hO.1, orb_det hO.2⟩
  · rw [orb_range]
    rintro _ ⟨O, hO, rfl⟩
    rw [Measure.map_map (mul_left_measurable _) orb_measurable]
    have e : (fun U => orb O * U) ∘ orb = orb ∘ fun P => O * P := by funext P; exact (orb_mul O P).symm
    rw [e, ← Measure.map_map orb_measurable (hc O), hl.left O hO]
  · rw [orb_range]
    rintro _ ⟨O, hO, rfl⟩
    rw [Measure.map_map (mul_right_measurable _) orb_measurable]
    have e : (fun U => U * orb O) ∘ orb = orb ∘ fun P => P * O := by funext P; exact (orb_mul P O).symm
    rw [e, ← Measure.map_map orb_measurable (hc' O), hl.right O hO]

theorem spectral_measurable (d : ℕ) : Measurable fun x : (Fin d → ℝ) × Op d => x.2 * diagonal (fun i => ((x.1 i : ℝ) : ℂ)) * x.2ᴴ := by
  refine Continuous.measurable ?_
  refine (continuous_snd.matrix_mul (Continuous.matrix_diagonal ?_)).matrix_mul continuous_snd.matrix_conjTranspose
  fun_prop

theorem spectral_invariant {d : ℕ} {l : Measure (Op d)} (hl : IsHaar (unitaryGroup (Fin d) ℂ : Set (Op d)) l) (V : Op d)
    (hV : V ∈ unitaryGroup (Fin d) ℂ) (κ : Measure (Fin d → ℝ)) [SFinite κ] :
    ((κ.prod l).map (fun x => x.2 * diagonal (fun i => ((x.1 i : ℝ) : ℂ)) * x.2ᴴ)).map (fun ρ => V * ρ * Vᴴ) =
      (κ.prod l).map (fun x => x.2 * diagonal (fun i => ((x.1 i : ℝ) : ℂ)) * x.2ᴴ) := by
  have := hl.prob
  have hV' : Measurable fun ρ : Op d => V * ρ * Vᴴ := conj_const_measurable V
  rw [Measure.map_map hV' (spectral_measurable d)]
  have e : (fun ρ : Op d => V * ρ * Vᴴ) ∘ (fun x : (Fin d → ℝ) × Op d => x.2 * diagonal (fun i => ((x.1 i : ℝ) : ℂ)) * x.2ᴴ) =
      (fun x : (Fin d → ℝ) × Op d => x.2 * diagonal (fun i => ((x.1 i : ℝ) : ℂ)) * x.2ᴴ) ∘ Prod.map id (fun U => V * U) := by
    funext x; simp only [Function.comp, Prod.map, id, conjTranspose_mul, mul_assoc]
  rw [e, ← Measure.map_map (spectral_measurable d) (measurable_id.prodMap (mul_left_measurable V)),
    ← Measure.map_prod_map _ _ measurable_id (mul_left_measurable V), Measure.map_id, hl.left V hV]

section
variable {σ : Type} [MeasurableSpace σ] (rng : Rng σ) (logm : (d : ℕ) → Op d → Op d) (μ : Measure σ)

/-- C136. `random_qubit_pure_state(n)` is uniformly distributed on the unit vectors, and independent of everything drawn
afterwards. -/
theorem C136_pure (hd : DrawsOk rng) (hi : IdealSource rng μ) (n : ℕ) (hn : 1 ≤ n) :
    ∃ ν : Measure (Fin (2 ^ n) → ℂ), IsUniformVec ν ∧ Samples μ (randomQubitPureState rng (.int n) none) (fun ψ => ⟨n, ψ⟩) ν := by
  have := hi.prob
  obtain ⟨l, hl, hf⟩ := hi.unitary (2 ^ n)
  have := hl.prob
  have hz := unit_zeroState (d := 2 ^ n) (by positivity)
  refine ⟨_, haar_uniform hl hz, _, fresh_map hf (continuous_id.matrix_mulVec continuous_const).measurable, fun s => ?_⟩
  rw [randomQubitPureState, exec_bind_ok (exec_check hn s), exec_bind_ok (exec_seed rng (Or.inl ⟨rfl, rfl⟩)),
    exec_bind_ok (exec_draw _ _), exec_bind_ok (exec_noDraw_ok (pyAssert_ok (isclose_one_unit (unit_mulVec (hd.unitary _ _) hz))) _), exec_pure]

/-- C136. `random_qubit_state(n)` is `U diag(p) U†` with independent `U`, Haar distributed, and `p`, of flat Dirichlet
distribution; its distribution is invariant under every unitary. -/
theorem C136_mixed (hd : DrawsOk rng) (hi : IdealSource rng μ) (n : ℕ) (hn : 1 ≤ n) :
    ∃ (ν l : Measure (Op (2 ^ n))), IsProbabilityMeasure ν ∧ IsHaar (unitaryGroup (Fin (2 ^ n)) ℂ : Set (Op (2 ^ n))) l ∧
      ν = ((flatDirichlet (2 ^ n)).prod l).map (fun x => x.2 * diagonal (fun i => ((x.1 i : ℝ) : ℂ)) * x.2ᴴ) ∧
      (∀ V ∈ unitaryGroup (Fin (2 ^ n)) ℂ, ν.map (fun ρ => V * ρ * Vᴴ) = ν) ∧
      Samples μ (randomQubitState rng (.int n) none) (fun ρ => ⟨2 ^ n, ρ⟩) ν := by
  have := hi.prob
  obtain ⟨l, hl, hf⟩ := hi.unitary (2 ^ n)
  have := hl.prob
  have hp := hi.dirichlet (2 ^ n) (by positivity)
  have : IsProbabilityMeasure (flatDirichlet (2 ^ n)) := by
    rw [← fresh_fst' hp]
    exact Measure.isProbabilityMeasure_map (measurable_fst.comp hp.measurable).aemeasurable
  refine ⟨_, l, Measure.isProbabilityMeasure_map (spectral_measurable _).aemeasurable, hl, rfl, fun V hV => spectral_invariant hl V hV _, _,
    fresh_map (fresh_pair hp hf) (spectral_measurable _), fun s => ?_⟩
  · have hdens := density_conj (hd.dirichlet (2 ^ n) (by positivity) s) (hd.unitary (2 ^ n) (rng.dirichlet (2 ^ n) s).2)
    rw [randomQubitState, exec_bind_ok (exec_check hn s), exec_bind_ok (exec_seed rng (Or.inl ⟨rfl, rfl⟩)),
      exec_bind_ok (exec_draw _ _), exec_bind_ok (exec_draw _ _), exec_noDraw_ok (C16_density _ _ hdens)]

/-- C136. `random_FF_rotation(n, returnOrb=True)` is Haar distributed on the group of symplectic unitaries with determinant one. -/
theorem C136_orbital (hd : DrawsOk rng) (hi : IdealSource rng μ) (n : ℕ) :
    ∃ ν : Measure (Op (n + n)), IsHaar {C | C ∈ unitaryGroup (Fin (n + n)) ℂ ∧ IsSymplectic C ∧ C.det = 1} ν ∧
      Samples μ (randomFFRotationOrb rng n none) id ν := by
  have := hi.prob
  obtain ⟨l, hl, hf⟩ := hi.orthogonal (n + n)
  have := hl.prob
  exact ⟨_, haar_orb hl, _, fresh_map hf orb_measurable, fun s => exec_orb rng hd n (Or.inl ⟨rfl, rfl⟩)⟩

end

/-- Beside the theorems: an ideal source exists (a product of independent streams of draws). Two calls in a row for two qubits
give independent uniform vectors: the second call meets a source of the same law as the first, independent of the first vector. -/
example : ∃ ν : Measure (Fin (2 ^ 2) → ℂ), IsUniformVec ν ∧ Samples idealLaw (randomQubitPureState idealRng (.int 2) none) (fun ψ => ⟨2, ψ⟩) ν :=
  C136_pure idealRng idealLaw idealRng_draws idealRng_ideal 2 (by norm_num)

example : ∃ ν : Measure (Op (3 + 3)), IsHaar {C | C ∈ unitaryGroup (Fin (3 + 3)) ℂ ∧ IsSymplectic C ∧ C.det = 1} ν ∧
    Samples idealLaw (randomFFRotationOrb idealRng 3 none) id ν :=
  C136_orbital idealRng idealLaw idealRng_draws idealRng_ideal 3

example : ∃ ν : Measure (Op (2 ^ 2)), Samples idealLaw (randomQubitState idealRng (.int 2) none) (fun ρ => ⟨2 ^ 2, ρ⟩) ν := by
  obtain ⟨ν, -, -, -, -, -, h⟩ := C136_mixed idealRng idealLaw idealRng_draws idealRng_ideal 2 (by norm_num)
  exact ⟨ν, h⟩

/-- The uniform distribution on the unit vectors exists, in every dimension. -/
example (d : ℕ) (hd : 0 < d) : ∃ ν : Measure (Fin d → ℂ), IsUniformVec ν := by
  obtain ⟨l, hl⟩ := haar_unitary d
  exact ⟨_, haar_uniform hl (unit_zeroState hd)⟩

end FF.Props
