import Verif.Proofs.ContinuitySre
import Verif.Props.Continuity
import Verif.Props.FafMore

/-! # Property C144, for the stabilizer distribution and the stabilizer Rényi entropy -/

namespace FF.Props

open Finset Matrix
open scoped ComplexOrder

variable {n : ℕ} {ρ σ : Op (2 ^ n)} {x y : Arr} {eigvals : {n : ℕ} → Op n → List ℂ}

/-- C144. The stabilizer distributions of two states have total variation distance at most
`√(1 - tr(ρσ)² / (tr ρ² tr σ²))`. -/
theorem C144_stabilizer (hn : 1 ≤ n) (hx : Spec.IsState x ρ) (hy : Spec.IsState y σ) :
    ∃ p q : Fin (4 ^ n) → ℝ, stabilizerDistribution x = .ok (List.ofFn p) ∧ stabilizerDistribution y = .ok (List.ofFn q) ∧
      1 / 2 * ∑ k, |p k - q k| ≤ Real.sqrt (1 - ((ρ * σ).trace).re ^ 2 / (((ρ * ρ).trace).re * ((σ * σ).trace).re)) :=
  ⟨_, _, stabilizer_ok hn hx, stabilizer_ok hn hy, by
    have := xiF_close (state_cast hx).2 (state_cast hy).2
    rw [tvd] at this
    linarith⟩

/-- C144. For pure states it is at most `√2` times the trace distance. -/
theorem C144_stabilizer_pure (hE : Spec.EigvalsOk eigvals) (hn : 1 ≤ n) (hx : Spec.IsState x ρ) (hy : Spec.IsState y σ)
    (h1 : Spec.Pure ρ) (h2 : Spec.Pure σ) :
    ∃ (t : ℝ) (p q : Fin (4 ^ n) → ℝ), traceDistance eigvals x y = .ok t ∧ stabilizerDistribution x = .ok (List.ofFn p) ∧
      stabilizerDistribution y = .ok (List.ofFn q) ∧ 1 / 2 * ∑ k, |p k - q k| ≤ Real.sqrt 2 * t :=
  ⟨_, _, _, traceDistance_eq hE hx hy, stabilizer_ok hn hx, stabilizer_ok hn hy, by
    have := xiF_close_pure (state_cast hx).2 (state_cast hy).2 (pure_purity h1) (pure_purity h2)
    rw [tvd] at this
    linarith⟩

theorem sre_two_pure (hn : 1 ≤ n) (hx : Spec.IsState x ρ) (hpure : Spec.Pure ρ) :
    2 / ((2 : ℝ) ^ n + 1) ≤ 2 ^ n * ∑ k, xiF ρ k ^ 2 ∧
      sre x (.num 2) = .ok ((-Real.log (2 ^ n * ∑ k, xiF ρ k ^ 2) : ℝ) : EReal) := by
  have h2 := (state_cast hx).2
  have hpos : 0 < ∑ k, xiF ρ k ^ 2 := by
    obtain ⟨⟨i, hi⟩, -⟩ := xiF_max h2
    refine lt_of_lt_of_le (pow_pos ?_ 2) (single_le_sum (fun k _ => sq_nonneg (xiF ρ k)) (mem_univ i))
    rw [hi]
    exact div_pos one_pos (mul_pos (by positivity) (purity_pos h2))
  have hv : sre x (.num 2) = .ok ((-Real.log (2 ^ n * ∑ k, xiF ρ k ^ 2) : ℝ) : EReal) := by
    rw [sre_eq hn hx (pure_big hn hpure) (by norm_num), renyi_two, Real.log_mul (by positivity) hpos.ne', Real.log_pow]
    congr 2
    ring
  refine ⟨?_, hv⟩
  obtain ⟨v, hv', hle, -⟩ := (C118_upper hn hx hpure).1
  rw [hv', Except.ok.injEq, EReal.coe_eq_coe_iff] at hv
  rw [hv, show Real.log (((2 : ℝ) ^ n + 1) / 2) = -Real.log (2 / (2 ^ n + 1)) by rw [← Real.log_inv, inv_div], neg_le_neg_iff] at hle
  exact (Real.log_le_log_iff (by positivity) (by positivity)).1 hle

theorem log_close {a b m : ℝ} (hm : 0 < m) (ha : m ≤ a) (hb : m ≤ b) : Real.log a - Real.log b ≤ |a - b| / m := by
  have hb' := hm.trans_le hb
  rw [← Real.log_div (hm.trans_le ha).ne' hb'.ne']
  refine (Real.log_le_sub_one_of_pos (div_pos (hm.trans_le ha) hb')).trans ?_
  rw [div_sub_one hb'.ne', div_le_div_iff₀ hb' hm]
  have := le_abs_self (a - b)
  have := abs_nonneg (a - b)
  nlinarith

/-- C144. `SRE` of the default order 2 of two pure states of `n` qubits differs by at most `√2 (2^n + 1)` times their trace distance. -/
theorem C144_sre (hE : Spec.EigvalsOk eigvals) (hn : 1 ≤ n) (hx : Spec.IsState x ρ) (hy : Spec.IsState y σ)
    (h1 : Spec.Pure ρ) (h2 : Spec.Pure σ) :
    ∃ t u v : ℝ, traceDistance eigvals x y = .ok t ∧ sre x (.num 2) = .ok (u : EReal) ∧ sre y (.num 2) = .ok (v : EReal) ∧
      |u - v| ≤ Real.sqrt 2 * (2 ^ n + 1) * t := by
  obtain ⟨a1, a2⟩ := sre_two_pure hn hx h1
  obtain ⟨b1, b2⟩ := sre_two_pure hn hy h2
  refine ⟨_, _, _, traceDistance_eq hE hx hy, a2, b2, ?_⟩
  have dx := (state_cast hx).2
  have dy := (state_cast hy).2
  have hT := xiF_close_pure dx dy (pure_purity h1) (pure_purity h2)
  have hN : (0 : ℝ) < 2 ^ n := by positivity
  have m1 : ∀ i, xiF ρ i ≤ 1 / 2 ^ n := fun i => by simpa [pure_purity h1] using xiF_le dx i
  have m2 : ∀ i, xiF σ i ≤ 1 / 2 ^ n := fun i => by simpa [pure_purity h2] using xiF_le dy i
  have c1 := sumsq_close_max (xiF_prob dx) (xiF_prob dy) m1 m2
  have c2 := sumsq_close_max (xiF_prob dy) (xiF_prob dx) m2 m1
  rw [show tvd (xiF σ) (xiF ρ) = tvd (xiF ρ) (xiF σ) by rw [tvd, tvd]; simp only [abs_sub_comm]] at c2
  have hd : |2 ^ n * ∑ k, xiF ρ k ^ 2 - 2 ^ n * ∑ k, xiF σ k ^ 2| ≤ 2 * tvd (xiF ρ) (xiF σ) := by
    rw [← mul_sub, abs_mul, abs_of_pos hN]
    have : |∑ k, xiF ρ k ^ 2 - ∑ k, xiF σ k ^ 2| ≤ 2 * (1 / 2 ^ n) * tvd (xiF ρ) (xiF σ) := by
      rw [abs_le]; constructor <;> linarith
    refine (mul_le_mul_of_nonneg_left this hN.le).trans (le_of_eq ?_)
    field_simp
  have hm : (0 : ℝ) < 2 / (2 ^ n + 1) := by positivity
  have l1 := log_close hm a1 b1
  have l2 := log_close hm b1 a1
  rw [abs_sub_comm] at l2
  have hfin : |2 ^ n * ∑ k, xiF ρ k ^ 2 - 2 ^ n * ∑ k, xiF σ k ^ 2| / (2 / (2 ^ n + 1)) ≤
      Real.sqrt 2 * (2 ^ n + 1) * (1 / 2 * tnorm (ρ - σ)) := by
    rw [div_le_iff₀ hm]
    refine hd.trans ((mul_le_mul_of_nonneg_left hT (by norm_num)).trans (le_of_eq ?_))
    field_simp
  rw [abs_le]
  constructor <;> linarith

/-- Two different pure states and a routine that meets the contract. -/
example : ∃ (eigvals : {n : ℕ} → Op n → List ℂ) (x y : Arr) (ρ σ : Op (2 ^ 1)), Spec.EigvalsOk eigvals ∧ Spec.IsState x ρ ∧ Spec.IsState y σ ∧
    Spec.Pure ρ ∧ Spec.Pure σ ∧ ρ ≠ σ := by
  obtain ⟨eigvals, hE⟩ := eigvals_exist
  refine ⟨eigvals, .vec 2 ![1, 0], .vec 2 ![nu, nu], Spec.proj ![1, 0], Spec.proj ![nu, nu], hE, state_vec ket0_unit, state_vec plus_unit,
    ⟨_, ket0_unit, rfl⟩, ⟨_, plus_unit, rfl⟩, fun h => ?_⟩
  have := congrFun (congrFun h 1) 1
  have h2 := plus_unit
  simp [Spec.proj] at this
  simp [Spec.IsUnitVec, Fin.sum_univ_two, this] at h2

end FF.Props
