import Verif.Proofs.SreProduct

/-! # Property C104: the stabilizer entropy of product states -/

namespace FF.Props

open Matrix
open scoped ComplexOrder

variable {a b : ℕ} {ρ : Op (2 ^ a)} {σ : Op (2 ^ b)} {x y z : Arr}

/-! ## C104 -/

/-- C104. The stabilizer distribution of a product of two states, on any numbers of qubits, is the product of their
stabilizer distributions, with the Pauli words of the first part as the leading digits. -/
theorem C104_distribution (ha : 1 ≤ a) (hb : 1 ≤ b) (hx : Spec.IsState x ρ) (hy : Spec.IsState y σ)
    (hz : Spec.IsState z (npKron ρ σ)) :
    ∃ (p : Fin (4 ^ a) → ℝ) (q : Fin (4 ^ b) → ℝ), stabilizerDistribution x = .ok (List.ofFn p) ∧
      stabilizerDistribution y = .ok (List.ofFn q) ∧ stabilizerDistribution z = .ok (List.ofFn (Spec.product p q)) := by
  refine ⟨_, _, stabilizer_ok ha hx, stabilizer_ok hb hy, ?_⟩
  rw [stabilizer_ok (by omega) (kr_state hz), ← xiF_kr_fun (state_cast hx).2.psd.isHermitian (state_cast hy).2.psd.isHermitian,
    ofFn_cast]

/-- C104. Additivity of the stabilizer Rényi entropy: at every order the value for a product of two pure states is the sum
of the two values. -/
theorem C104_additive (ha : 1 ≤ a) (hb : 1 ≤ b) (hx : Spec.IsState x ρ) (hy : Spec.IsState y σ)
    (hz : Spec.IsState z (npKron ρ σ)) (hρ : Spec.Pure ρ) (hσ : Spec.Pure σ) (o : Order) (ho : OrderOk o) :
    ∃ u v : ℝ, sre x o = .ok (u : EReal) ∧ sre y o = .ok (v : EReal) ∧ sre z o = .ok ((u + v : ℝ) : EReal) := by
  have d1 := (state_cast hx).2
  have d2 := (state_cast hy).2
  have h1 := pure_big ha hρ
  have h2 := pure_big hb hσ
  have h3 := purity_kr_big d1.psd.isHermitian d2.psd.isHermitian h1 h2
  have hk := xiF_kr_fun (ρ := ρ) (σ := σ) d1.psd.isHermitian d2.psd.isHermitian
  cases o with
  | num r =>
    refine ⟨_, _, sre_eq ha hx h1 ho, sre_eq hb hy h2 ho, ?_⟩
    rw [sre_eq (by omega) (kr_state hz) h3 ho, ← renyi_cast (pow_add 4 a b).symm, hk, renyi_product (xiF_prob d1) (xiF_prob d2)]
    refine congrArg Except.ok (EReal.coe_eq_coe_iff.2 ?_)
    push_cast
    ring
  | inf =>
    have m1 := xiF_max d1
    have m2 := xiF_max d2
    have m3 := max_product (xiF_prob d1) (xiF_prob d2) m1 m2
    rw [← hk, max_cast] at m3
    refine ⟨_, _, sre_inf_eq ha hx h1 m1, sre_inf_eq hb hy h2 m2, ?_⟩
    rw [sre_inf_eq (by omega) (kr_state hz) h3 m3,
      Real.log_mul (max_pos (xiF_prob d1) m1).ne' (max_pos (xiF_prob d2) m2).ne']
    refine congrArg Except.ok (EReal.coe_eq_coe_iff.2 ?_)
    push_cast
    ring

/-- C104. The same for mixed states whose purity is not too close to the smallest possible one. -/
theorem C104_additive_mixed (ha : 1 ≤ a) (hb : 1 ≤ b) (hx : Spec.IsState x ρ) (hy : Spec.IsState y σ)
    (hz : Spec.IsState z (npKron ρ σ)) (h1 : 100003 / 100000 ≤ 2 ^ a * ((ρ * ρ).trace).re)
    (h2 : 100003 / 100000 ≤ 2 ^ b * ((σ * σ).trace).re) (r : ℝ) (hr : 0 ≤ r) :
    ∃ u v : ℝ, sre x (.num r) = .ok (u : EReal) ∧ sre y (.num r) = .ok (v : EReal) ∧
      sre z (.num r) = .ok ((u + v : ℝ) : EReal) := by
  have d1 := (state_cast hx).2
  have d2 := (state_cast hy).2
  have h3 := purity_kr_big d1.psd.isHermitian d2.psd.isHermitian h1 h2
  refine ⟨_, _, sre_eq ha hx h1 hr, sre_eq hb hy h2 hr, ?_⟩
  rw [sre_eq (by omega) (kr_state hz) h3 hr, ← renyi_cast (pow_add 4 a b).symm,
    xiF_kr_fun (ρ := ρ) (σ := σ) d1.psd.isHermitian d2.psd.isHermitian, renyi_product (xiF_prob d1) (xiF_prob d2)]
  refine congrArg Except.ok (EReal.coe_eq_coe_iff.2 ?_)
  push_cast
  ring

/-- C104. The restriction is needed: the maximally mixed state gets the value 0 as a special case, but next to a pure state
its `a` qubits contribute `-a log 2`, at every order. -/
theorem C104_mixed_not_additive (ha : 1 ≤ a) (hb : 1 ≤ b) (hx : Spec.IsState x ((1 / 2 ^ a : ℂ) • (1 : Op (2 ^ a))))
    (hy : Spec.IsState y σ) (hz : Spec.IsState z (npKron ((1 / 2 ^ a : ℂ) • (1 : Op (2 ^ a))) σ)) (hσ : Spec.Pure σ)
    (r : ℝ) (hr : 0 ≤ r) :
    ∃ v : ℝ, sre x (.num r) = .ok 0 ∧ sre y (.num r) = .ok (v : EReal) ∧
      sre z (.num r) = .ok ((v - a * Real.log 2 : ℝ) : EReal) := by
  have d1 := (state_cast hx).2
  have d2 := (state_cast hy).2
  have h2 := pure_big hb hσ
  set m : Op (2 ^ a) := (1 / 2 ^ a : ℂ) • 1 with hm
  have hpur : 2 ^ a * ((m * m).trace).re = 1 := by
    rw [hm, smul_mul_smul_comm, mul_one, trace_smul, trace_one, Fintype.card_fin, smul_eq_mul]
    push_cast
    have : (1 / 2 ^ a * (1 / 2 ^ a) * 2 ^ a : ℂ) = (((1 / 2 ^ a : ℝ)) : ℂ) := by
      push_cast
      field_simp
    rw [this, Complex.ofReal_re]
    field_simp
  have h3 : 100003 / 100000 ≤ 2 ^ (a + b) * ((kr m σ * kr m σ).trace).re := by
    rw [purity_kr d1.psd.isHermitian d2.psd.isHermitian, pow_add, mul_mul_mul_comm, hpur, one_mul]
    exact h2
  have hdet : Spec.renyi (xiF m) r = 0 := by
    have hmax := xiF_max d1
    rw [hpur, div_one] at hmax
    exact renyi_deterministic (deterministic_of_max (xiF_prob d1) hmax le_rfl) r
  refine ⟨_, C63_maximally_mixed ha hx _, sre_eq hb hy h2 hr, ?_⟩
  rw [sre_eq (by omega) (kr_state hz) h3 hr, ← renyi_cast (pow_add 4 a b).symm,
    xiF_kr_fun (ρ := m) (σ := σ) d1.psd.isHermitian d2.psd.isHermitian, renyi_product (xiF_prob d1) (xiF_prob d2), hdet]
  refine congrArg Except.ok (EReal.coe_eq_coe_iff.2 ?_)
  push_cast
  ring

/-- Any two states have a product, given as a matrix. -/
theorem product_state (hx : Spec.IsState x ρ) (hy : Spec.IsState y σ) :
    Spec.IsState (.mat (2 ^ a * 2 ^ b) (2 ^ a * 2 ^ b) (npKron ρ σ)) (npKron ρ σ) := by
  have d1 := (state_cast hx).2
  have d2 := (state_cast hy).2
  have e : npKron ρ σ = (Matrix.kronecker ρ σ).submatrix finProdFinEquiv.symm finProdFinEquiv.symm := by
    ext u v; rfl
  refine mat_state ⟨?_, ?_⟩
  · rw [e]
    exact (d1.psd.kronecker d2.psd).submatrix _
  · rw [e, Matrix.trace, Finset.sum_congr rfl fun i _ => by
      rw [diag_apply, submatrix_apply], Equiv.sum_comp finProdFinEquiv.symm fun q => Matrix.kronecker ρ σ q q]
    refine (Matrix.trace_kronecker ρ σ).trans ?_
    rw [d1.trace_one, d2.trace_one, mul_one]

example : ∃ (x : Arr) (ρ : Op (2 ^ 1)), Spec.IsState x ρ ∧ Spec.Pure ρ ∧ ¬ Spec.PauliFlat ρ ∧
    Spec.IsState (.mat (2 ^ 1 * 2 ^ 1) (2 ^ 1 * 2 ^ 1) (npKron ρ ρ)) (npKron ρ ρ) := by
  have h : Spec.IsState (.vec (2 ^ 1) ![4 / 5, 3 / 5]) (Spec.proj (n := 2 ^ 1) ![4 / 5, 3 / 5]) :=
    .inl ⟨_, tilt_unit, rfl, rfl⟩
  exact ⟨_, _, h, ⟨_, tilt_unit, rfl⟩, tilt_not_flat, product_state h h⟩

example : Spec.IsState (.mat (2 ^ 1) (2 ^ 1) ((1 / 2 ^ 1 : ℂ) • (1 : Op (2 ^ 1)))) ((1 / 2 ^ 1 : ℂ) • (1 : Op (2 ^ 1))) := by
  refine mat_state ⟨Matrix.PosSemidef.one.smul ?_, ?_⟩
  · rw [pow_one, Complex.le_def]; norm_num
  · rw [trace_smul, trace_one]; simp

end FF.Props
