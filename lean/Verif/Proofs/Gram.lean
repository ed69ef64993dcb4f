import Verif.Spec.Random
import Verif.Model.Basic
import Mathlib.Analysis.InnerProductSpace.GramSchmidtOrtho
import Mathlib.Analysis.InnerProductSpace.PiL2

/-! # QR factorisations exist -/

namespace FF

open Matrix
open scoped ComplexConjugate

theorem qr_one {n : ℕ} (A : Matrix (Fin n) (Fin n) ℂ) : ∃ Q R, Spec.IsQR A Q R := by
  set f : Fin n → EuclideanSpace ℂ (Fin n) := fun j => WithLp.toLp 2 fun i => A i j with hf
  have hfr : Module.finrank ℂ (EuclideanSpace ℂ (Fin n)) = Fintype.card (Fin n) := by simp
  set b := InnerProductSpace.gramSchmidtOrthonormalBasis hfr f with hb
  refine ⟨Matrix.of fun i j => b j i, Matrix.of fun i j => b.repr (f j) i, ?_, ?_, ?_⟩
  · ext i j
    have h := (orthonormal_iff_ite.1 b.orthonormal) i j
    rw [Matrix.one_apply, ← h, mul_apply]
    simp only [PiLp.inner_apply, RCLike.inner_apply, conjTranspose_apply, of_apply, RCLike.star_def]
    exact Finset.sum_congr rfl fun k _ => mul_comm _ _
  · intro i j hij
    rw [of_apply]
    exact InnerProductSpace.gramSchmidtOrthonormalBasis_inv_triangular' hfr f hij
  · ext i j
    have h := congrArg (fun v : EuclideanSpace ℂ (Fin n) => v i) (b.sum_repr (f j))
    simp only at h
    rw [mul_apply]
    have h2 : f j i = A i j := rfl
    rw [← h2, ← h]
    simp only [of_apply, WithLp.ofLp_sum, WithLp.ofLp_smul, Finset.sum_apply, Pi.smul_apply, smul_eq_mul]
    exact Finset.sum_congr rfl fun k _ => mul_comm _ _

theorem qr_exists (n : ℕ) : ∃ qr : Op n → Op n × Op n, ∀ A, Spec.IsQR A (qr A).1 (qr A).2 := by
  choose Q R h using fun A : Op n => qr_one A
  exact ⟨fun A => (Q A, R A), h⟩

end FF
