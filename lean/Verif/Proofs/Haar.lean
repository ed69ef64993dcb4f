import Verif.Proofs.Law
import Mathlib.MeasureTheory.Measure.Haar.Unique
import Mathlib.LinearAlgebra.UnitaryGroup
import Mathlib.Topology.Instances.Matrix
import Mathlib.Topology.Algebra.Star.Unitary
import Mathlib.Analysis.CStarAlgebra.Matrix

/-! # Haar distributions exist -/

namespace FF

open Matrix MeasureTheory Measure Spec

/-- The Haar distribution of a compact group of matrices. -/
theorem haar_exists {d : ℕ} {R : Type} [CommRing R] [TopologicalSpace R] [IsTopologicalRing R] [MeasurableSpace R] [BorelSpace R]
    [SecondCountableTopology R] [T2Space R] {G : Type} [Group G] [TopologicalSpace G] [IsTopologicalGroup G] [CompactSpace G]
    (f : G →* Matrix (Fin d) (Fin d) R) (hf : Continuous f) : ∃ ν, IsHaar (Set.range f) ν := by
  borelize G
  set K : TopologicalSpace.PositiveCompacts G := ⊤
  set l : Measure G := haarMeasure K with hl
  have hp : IsProbabilityMeasure l := ⟨by
    have := haarMeasure_self (K₀ := K)
    simpa [K] using this⟩
  have hr : ∀ g : G, l.map (fun x => x * g) = l := fun g => by
    have := Measure.isProbabilityMeasure_map (μ := l) (f := fun x => x * g) (measurable_mul_const g).aemeasurable
    have h2 : IsHaarMeasure (l.map (fun x => x * g)) := by infer_instance
    exact isHaarMeasure_eq_of_isProbabilityMeasure _ _
  have hm : Measurable f := hf.measurable
  have hcl : ∀ V : Matrix (Fin d) (Fin d) R, Measurable fun U : Matrix (Fin d) (Fin d) R => V * U :=
    fun V => (continuous_const.matrix_mul continuous_id).measurable
  have hcr : ∀ V : Matrix (Fin d) (Fin d) R, Measurable fun U : Matrix (Fin d) (Fin d) R => U * V :=
    fun V => (continuous_id.matrix_mul continuous_const).measurable
  refine ⟨l.map f, Measure.isProbabilityMeasure_map hm.aemeasurable, ?_, ?_, ?_⟩
  · rw [ae_map_iff hm.aemeasurable]
    · exact Filter.Eventually.of_forall fun x => Set.mem_range_self x
    · exact (isCompact_range hf).isClosed.measurableSet
  · rintro _ ⟨g, rfl⟩
    rw [Measure.map_map (hcl _) hm]
    have e : (fun U => f g * U) ∘ f = f ∘ fun x => g * x := by funext x; simp
    rw [e, ← Measure.map_map hm (measurable_const_mul g), map_mul_left_eq_self]
  · rintro _ ⟨g, rfl⟩
    rw [Measure.map_map (hcr _) hm]
    have e : (fun U => U * f g) ∘ f = f ∘ fun x => x * g := by funext x; simp
    rw [e, ← Measure.map_map hm (measurable_mul_const g), hr]

theorem unit_cube_compact (d : ℕ) (𝕜 : Type) [RCLike 𝕜] : IsCompact {U : Matrix (Fin d) (Fin d) 𝕜 | ∀ i j, ‖U i j‖ ≤ 1} := by
  have h := isCompact_univ_pi fun _ : Fin d => isCompact_univ_pi fun _ : Fin d => isCompact_closedBall (0 : 𝕜) 1
  have e : {U : Matrix (Fin d) (Fin d) 𝕜 | ∀ i j, ‖U i j‖ ≤ 1} =
      (Set.univ.pi fun _ : Fin d => Set.univ.pi fun _ : Fin d => Metric.closedBall (0 : 𝕜) 1) := by
    ext U
    exact ⟨fun h i _ j _ => mem_closedBall_zero_iff.2 (h i j), fun h i j => mem_closedBall_zero_iff.1 (h i trivial j trivial)⟩
  rw [e]
  exact h

instance unitary_compact (d : ℕ) : CompactSpace (unitaryGroup (Fin d) ℂ) := by
  refine isCompact_iff_compactSpace.1 ((unit_cube_compact d ℂ).of_isClosed_subset (t := (unitaryGroup (Fin d) ℂ : Set (Op d))) ?_ ?_)
  · have : (unitaryGroup (Fin d) ℂ : Set (Op d)) = {U | U * star U = 1} := by ext U; exact mem_unitaryGroup_iff
    rw [this]
    exact isClosed_eq (continuous_id.matrix_mul continuous_star) continuous_const
  · exact fun U hU i j => entry_norm_bound_of_unitary hU i j

/-- The Haar distribution of the unitary matrices. -/
theorem haar_unitary (d : ℕ) : ∃ ν, IsHaar (unitaryGroup (Fin d) ℂ : Set (Op d)) ν := by
  obtain ⟨ν, h⟩ := haar_exists (unitaryGroup (Fin d) ℂ).subtype continuous_subtype_val
  exact ⟨ν, by simpa using h⟩

theorem rotations_eq (m : ℕ) : rotations m = (specialUnitaryGroup (Fin m) ℝ : Set (RMat m)) := by
  ext O
  rw [SetLike.mem_coe, mem_specialUnitaryGroup_iff, mem_unitaryGroup_iff, star_eq_conjTranspose, conjTranspose_eq_transpose_of_trivial]
  rfl

instance rotations_group (m : ℕ) : IsTopologicalGroup (specialUnitaryGroup (Fin m) ℝ) where
  continuous_inv := by
    refine Continuous.subtype_mk (continuous_subtype_val.star) _

instance rotations_compact (m : ℕ) : CompactSpace (specialUnitaryGroup (Fin m) ℝ) := by
  refine isCompact_iff_compactSpace.1 ((unit_cube_compact m ℝ).of_isClosed_subset (t := (specialUnitaryGroup (Fin m) ℝ : Set (RMat m))) ?_ ?_)
  · rw [← rotations_eq]
    exact (isClosed_eq (continuous_id.matrix_mul continuous_id.matrix_transpose) continuous_const).inter
      (isClosed_eq continuous_id.matrix_det continuous_const)
  · exact fun U hU i j => entry_norm_bound_of_unitary (mem_specialUnitaryGroup_iff.1 hU).1 i j

/-- The Haar distribution of the rotations. -/
theorem haar_rotations (m : ℕ) : ∃ ν, IsHaar (rotations m) ν := by
  obtain ⟨ν, h⟩ := haar_exists (specialUnitaryGroup (Fin m) ℝ).subtype continuous_subtype_val
  exact ⟨ν, by rw [rotations_eq]; simpa using h⟩

end FF
