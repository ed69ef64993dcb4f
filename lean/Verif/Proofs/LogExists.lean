import Verif.Proofs.Log
import Mathlib.Analysis.CStarAlgebra.Matrix
import Mathlib.Analysis.SpecialFunctions.ContinuousFunctionalCalculus.ExpLog.Basic
import Mathlib.Analysis.CStarAlgebra.ContinuousFunctionalCalculus.Instances
import Mathlib.LinearAlgebra.Matrix.FiniteDimensional
import Mathlib.Analysis.CStarAlgebra.ContinuousFunctionalCalculus.Basic
import Mathlib.LinearAlgebra.Eigenspace.Matrix
import Mathlib.LinearAlgebra.Eigenspace.Minpoly

/-! # Every unitary matrix has a principal logarithm -/

namespace FF

open Matrix
open scoped Matrix.Norms.L2Operator

noncomputable local instance {d : ℕ} : CStarAlgebra (Matrix (Fin d) (Fin d) ℂ) where

theorem finite_spectrum {d : ℕ} (C : Op d) : (spectrum ℂ C).Finite := by
  rw [← spectrum_toLin']
  exact Module.End.finite_spectrum _

theorem log_exists {d : ℕ} {C : Op d} (hC : C * Cᴴ = 1) : ∃ L, Spec.IsPrincipalLog C L := by
  have hn : IsStarNormal C := ⟨by
    rw [commute_iff_eq, star_eq_conjTranspose, hC, mul_eq_one_comm.1 hC]⟩
  have hf := finite_spectrum C
  have hc : ∀ f : ℂ → ℂ, ContinuousOn f (spectrum ℂ C) := fun f => hf.continuousOn f
  have h0 : ∀ z ∈ spectrum ℂ C, z ≠ 0 := by
    rintro z hz rfl
    rw [spectrum.zero_mem_iff] at hz
    exact hz ((Matrix.isUnit_iff_isUnit_det _).2 (Matrix.isUnit_det_of_right_inverse hC))
  refine ⟨cfc Complex.log C, ?_, ?_⟩
  · have h1 := CFC.exp_eq_normedSpace_exp (𝕜 := ℂ) (a := cfc Complex.log C) (cfc_predicate _ _)
    refine (show _ = _ from h1).symm.trans ?_
    rw [← Complex.exp_eq_exp_ℂ, ← cfc_comp' Complex.exp Complex.log C Complex.continuous_exp.continuousOn (hc _)]
    conv_rhs => rw [← cfc_id ℂ C]
    exact cfc_congr fun z hz => Complex.exp_log (h0 z hz)
  · intro μ v hv hμ
    have hm : μ ∈ spectrum ℂ (cfc Complex.log C) := by
      rw [← spectrum_toLin']
      exact (Module.End.hasEigenvalue_of_hasEigenvector (x := v)
        ⟨Module.End.mem_eigenspace_iff.2 (by simpa using hμ), hv⟩).mem_spectrum
    rw [cfc_map_spectrum Complex.log C hn (hc _)] at hm
    obtain ⟨z, _, rfl⟩ := hm
    exact ⟨Complex.neg_pi_lt_log_im z, Complex.log_im_le_pi z⟩

end FF
