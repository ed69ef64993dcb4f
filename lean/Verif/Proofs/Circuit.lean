import Verif.Proofs.GaussRot
import Verif.Proofs.Evolve
import Verif.Proofs.Overlap2

/-! # Proofs: free-fermion gates keep Wick's theorem -/

namespace FF

open Matrix
open scoped ComplexOrder

variable {n : ℕ}

theorem acts_one : Acts (1 : Op (2 ^ n)) 1 := by
  intro k
  rw [comb, one_mul, mul_one, Finset.sum_eq_single k (fun l _ hl => by rw [one_apply_ne hl.symm, zero_smul]) (by simp),
    one_apply_eq, one_smul]

theorem comb_injective {v w : Fin (n + n) → ℂ} (h : comb v = comb w) : v = w := by
  funext k
  have key : ∀ u : Fin (n + n) → ℂ, comb u * comb (Pi.single (fl k) 1) + comb (Pi.single (fl k) 1) * comb u = u k • (1 : Op (2 ^ n)) := by
    intro u
    rw [comb_anticomm]
    congr 1
    rw [dotProduct, Finset.sum_eq_single k]
    · rw [mulVec_single_one, Matrix.col_apply, swapS_apply]
      simp
    · intro l _ hl
      have : fl k ≠ fl l := fun h => hl (by rw [← fl_fl l, ← h, fl_fl])
      rw [mulVec_single_one, Matrix.col_apply, swapS_apply]
      simp [this]
    · simp
  have h1 := key v
  rw [h, key w] at h1
  have := congrFun (congrFun h1 0) 0
  simpa using this.symm

theorem wick_parity {ρ : Op (2 ^ n)} (h : Spec.ObeysWick (al n) ρ) : Spec.parity n * ρ = ρ * Spec.parity n := by
  have hm : ∀ (m : ℕ) (L : Fin m → Fin (n + n)), Spec.parity n * prodOp (al n) L = (-1 : ℂ) ^ m • (prodOp (al n) L * Spec.parity n) := by
    intro m
    induction m with
    | zero => intro L; simp [prodOp]
    | succ m ih =>
      intro L
      rw [prodOp_succ, ← Matrix.mul_assoc, parity_al, Matrix.neg_mul, Matrix.mul_assoc, ih, Matrix.mul_smul, ← Matrix.mul_assoc, pow_succ]
      simp
  have h1 : Spec.parity n * ρ * Spec.parity n = ρ := by
    rw [← sub_eq_zero]
    apply prods_separate
    intro m L
    rw [Matrix.sub_mul, trace_sub, sub_eq_zero, Matrix.mul_assoc, hm, Matrix.mul_smul, trace_smul, Matrix.mul_assoc, trace_mul_comm,
      Matrix.mul_assoc, Matrix.mul_assoc, parity_sq, mul_one]
    rcases Nat.even_or_odd m with he | ho
    · rw [he.neg_one_pow, one_smul]
    · rw [wick_odd h ho, smul_zero]
  calc Spec.parity n * ρ = Spec.parity n * ρ * (Spec.parity n * Spec.parity n) := by rw [parity_sq, mul_one]
    _ = _ := by rw [← Matrix.mul_assoc, h1]

theorem wick_gate {R : Op (n + n)} (hR : R.IsHermitian) (t : ℝ) {ρ : Op (2 ^ n)} (h : Spec.ObeysWick (al n) ρ) (ht : ρ.trace = 1) {W : Op (2 ^ n)}
    (hW : W = expm ((-Complex.I * t) • Spec.quad R (al n))) : Spec.ObeysWick (al n) (W * ρ * Wᴴ) := by
  have hU : W * Wᴴ = 1 := hW ▸ (heis_conj hR t rfl).1
  have hR' : ((t : ℂ) • R).IsHermitian := by
    rw [IsHermitian, conjTranspose_smul, hR.eq]; simp
  have hW' : W = expm ((-Complex.I) • Spec.quad ((t : ℂ) • R) (al n)) := by
    rw [hW, quad_smul', smul_smul]
  refine (gauss_rot hR' (A := 1 - corrP ρ) (B := corrP ρ) ?_ (wick_kms h) (wick_parity h) hW').wick al_anticomm ?_
  · rw [sub_add_cancel]; exact isUnit_one
  · rw [trace_mul_comm, ← Matrix.mul_assoc, mul_eq_one_comm.1 hU, one_mul, ht]

end FF
