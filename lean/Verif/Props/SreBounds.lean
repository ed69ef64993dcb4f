import Verif.Props.SreProduct

/-!
# Property C118: the range of the stabilizer Rényi entropy

The docstring of `SRE` says that the value is 0 for stabilizer states, positive otherwise, and close to its maximum for
the maximally mixed state. For pure states the first two statements are C63; for mixed states none of the three is true.
-/

namespace FF.Props

open Matrix
open scoped ComplexOrder

variable {n : ℕ} {x : Arr} {ρ : Op (2 ^ n)}

theorem log_inv_purity (h : Spec.IsDensity ρ) :
    -Real.log (1 / (2 ^ n * ((ρ * ρ).trace).re)) = n * Real.log 2 + Real.log ((ρ * ρ).trace).re := by
  rw [one_div, Real.log_inv, neg_neg, Real.log_mul (by positivity) (purity_pos h).ne', Real.log_pow]

theorem pauliFlat_iff (h2 : Spec.IsDensity ρ) :
    Spec.PauliFlat ρ ↔ ∀ k, xiF ρ k = 0 ∨ xiF ρ k = 1 / (2 ^ n * ((ρ * ρ).trace).re) := by
  have hd : (2 : ℝ) ^ n * ((ρ * ρ).trace).re ≠ 0 := (mul_pos (by positivity) (purity_pos h2)).ne'
  have e : ∀ w, ((Spec.pauliString w * ρ).trace = 0 ∨ (Spec.pauliString w * ρ).trace = 1 ∨
      (Spec.pauliString w * ρ).trace = -1) ↔ (pexp ρ w ^ 2 / (2 ^ n * ((ρ * ρ).trace).re) = 0 ∨
        pexp ρ w ^ 2 / (2 ^ n * ((ρ * ρ).trace).re) = 1 / (2 ^ n * ((ρ * ρ).trace).re)) := by
    intro w
    rw [pexp_eq h2.psd.isHermitian, div_eq_zero_iff, or_iff_left hd, div_left_inj' hd]
    rw [show pexp ρ w ^ 2 = 1 ↔ pexp ρ w = 1 ∨ pexp ρ w = -1 from by rw [← sq_eq_sq_iff_eq_or_eq_neg, one_pow]]
    norm_cast
    simp
  constructor
  · intro h k
    exact (e _).1 (h _)
  · intro h w
    refine (e w).2 ?_
    have := h ((wordEquiv n).symm w)
    rwa [xiF, ← wordEquiv_apply, Equiv.apply_symm_apply] at this

/-- C118. For every state of normalised purity at least 1.00003 and every finite order, the value lies between the logarithm
of the purity and `n log 2`, and it is the logarithm of the purity exactly if all Pauli expectation values are 0, 1 or -1:
so it is negative for every mixed stabilizer state. -/
theorem C118_purity (hn : 1 ≤ n) (hx : Spec.IsState x ρ) (hp : 100003 / 100000 ≤ 2 ^ n * ((ρ * ρ).trace).re) (a : ℝ) (ha : 0 ≤ a) :
    ∃ v : ℝ, sre x (.num a) = .ok (v : EReal) ∧ Real.log ((ρ * ρ).trace).re ≤ v ∧ v ≤ n * Real.log 2 ∧
      (v = Real.log ((ρ * ρ).trace).re ↔ Spec.PauliFlat ρ) := by
  have h2 := (state_cast hx).2
  have hprob := xiF_prob h2
  have hbound : ∀ b, n * Real.log 2 + Real.log ((ρ * ρ).trace).re ≤ Spec.renyi (xiF ρ) b := fun b => by
    rw [← log_inv_purity h2]; exact minEntropy_le hprob (xiF_max h2) b
  have ht : 0 < 1 / (2 ^ n * ((ρ * ρ).trace).re) := max_pos hprob (xiF_max h2)
  refine ⟨_, sre_eq hn hx hp ha, by linarith [hbound a], ?_, ?_⟩
  · have := renyi_le hprob ha
    push_cast at this
    rw [show (4 : ℝ) ^ n = (2 ^ n) ^ 2 by rw [← pow_mul, mul_comm, pow_mul]; norm_num, Real.log_pow, Real.log_pow] at this
    push_cast at this
    linarith
  · rw [pauliFlat_iff h2, sub_eq_iff_eq_add, add_comm (Real.log _)]
    constructor
    · intro h
      rcases le_or_gt a 1 with h1 | h1
      · have h3 : Spec.renyi (xiF ρ) 2 = n * Real.log 2 + Real.log ((ρ * ρ).trace).re :=
          le_antisymm ((renyi_anti hprob (by linarith)).trans h.le) (hbound 2)
        exact flat_of_renyi hprob ht (xiF_le h2) (by norm_num) (h3.trans (log_inv_purity h2).symm)
      · exact flat_of_renyi hprob ht (xiF_le h2) h1 (h.trans (log_inv_purity h2).symm)
    · intro h
      refine le_antisymm ((renyi_anti hprob ha).trans ?_) (hbound a)
      rw [renyi_zero_flat hprob ht h, log_inv_purity h2]

/-- C118. At infinite order the value is the logarithm of the purity, for every such state. -/
theorem C118_inf (hn : 1 ≤ n) (hx : Spec.IsState x ρ) (hp : 100003 / 100000 ≤ 2 ^ n * ((ρ * ρ).trace).re) :
    sre x .inf = .ok ((Real.log ((ρ * ρ).trace).re : ℝ) : EReal) := by
  have h2 := (state_cast hx).2
  rw [sre_inf_eq hn hx hp (xiF_max h2), log_inv_purity h2, add_sub_cancel_left]

/-- C118. The value does not increase with the order. -/
theorem C118_monotone (hn : 1 ≤ n) (hx : Spec.IsState x ρ) (hp : 100003 / 100000 ≤ 2 ^ n * ((ρ * ρ).trace).re) (a b : ℝ) (ha : 0 ≤ a)
    (hab : a ≤ b) :
    ∃ u v w : ℝ, sre x (.num a) = .ok (u : EReal) ∧ sre x (.num b) = .ok (v : EReal) ∧ sre x .inf = .ok (w : EReal) ∧
      w ≤ v ∧ v ≤ u := by
  have h2 := (state_cast hx).2
  have hprob := xiF_prob h2
  refine ⟨_, _, _, sre_eq hn hx hp ha, sre_eq hn hx hp (ha.trans hab), sre_inf_eq hn hx hp (xiF_max h2), ?_, ?_⟩
  · linarith [minEntropy_le hprob (xiF_max h2) b]
  · linarith [renyi_anti hprob hab]

theorem renyi_two {d : ℕ} {p : Fin d → ℝ} : Spec.renyi p 2 = -Real.log (∑ k, p k ^ 2) := by
  rw [Spec.renyi, if_neg (by norm_num), Finset.sum_filter]
  rw [Finset.sum_congr rfl fun i _ => show (if p i ≠ 0 then p i ^ (2 : ℝ) else 0) = p i ^ 2 by
    by_cases h : p i = 0 <;> simp [h]]
  norm_num

/-- C118. For a pure state the value at order 2 is at most `log((2^n + 1)/2)`, with equality exactly if the squares of all
non-trivial Pauli expectation values are `1/(2^n + 1)`. The bound also holds at every larger order. -/
theorem C118_upper (hn : 1 ≤ n) (hx : Spec.IsState x ρ) (hpure : Spec.Pure ρ) :
    (∃ v : ℝ, sre x (.num 2) = .ok (v : EReal) ∧ v ≤ Real.log ((2 ^ n + 1) / 2) ∧
      (v = Real.log ((2 ^ n + 1) / 2) ↔
        ∀ w : Fin n → Fin 4, w ≠ 0 → ((Spec.pauliString w * ρ).trace).re ^ 2 = 1 / (2 ^ n + 1))) ∧
    ∀ a : ℝ, 2 ≤ a → ∃ v : ℝ, sre x (.num a) = .ok (v : EReal) ∧ v ≤ Real.log ((2 ^ n + 1) / 2) := by
  classical
  have h2 := (state_cast hx).2
  have hprob := xiF_prob h2
  have hP := pure_purity hpure
  set D : ℝ := 2 ^ n with hD
  have hD2 : 2 ≤ D := by
    rw [hD]; calc (2 : ℝ) = 2 ^ 1 := (pow_one 2).symm
      _ ≤ 2 ^ n := pow_le_pow_right₀ (by norm_num) hn
  have hcard : ((4 ^ n : ℕ) : ℝ) = D ^ 2 := by
    push_cast; rw [hD, ← pow_mul, mul_comm, pow_mul]; norm_num
  let z : Fin (4 ^ n) := ⟨0, by positivity⟩
  have hz : xiF ρ z = 1 / D := by
    rw [xiF]; simp only [z, digit_zero, pexp_zero h2, one_pow, hP, mul_one, hD]
  set c : ℝ := 1 / (D * (D + 1)) with hc
  have hrest : ∑ k ∈ Finset.univ.erase z, xiF ρ k = 1 - 1 / D := by
    have := xiF_sum h2
    rw [← Finset.add_sum_erase _ _ (Finset.mem_univ z), hz] at this
    linarith
  have hsq : ∑ k, xiF ρ k ^ 2 = 2 / (D * (D + 1)) + ∑ k ∈ Finset.univ.erase z, (xiF ρ k - c) ^ 2 := by
    have e1 : ∑ k ∈ Finset.univ.erase z, (xiF ρ k - c) ^ 2 =
        ∑ k ∈ Finset.univ.erase z, xiF ρ k ^ 2 - 2 * c * (1 - 1 / D) + (D ^ 2 - 1) * c ^ 2 := by
      rw [← hrest, Finset.mul_sum, ← Finset.sum_sub_distrib]
      have : (D ^ 2 - 1) * c ^ 2 = ∑ k ∈ Finset.univ.erase z, c ^ 2 := by
        rw [Finset.sum_const, Finset.card_erase_of_mem (Finset.mem_univ z), Finset.card_univ, Fintype.card_fin, nsmul_eq_mul,
          Nat.cast_sub (Nat.one_le_pow _ _ (by norm_num)), hcard, Nat.cast_one]
      rw [this, ← Finset.sum_add_distrib]
      exact Finset.sum_congr rfl fun k _ => by ring
    rw [← Finset.add_sum_erase _ _ (Finset.mem_univ z), hz, e1, hc]
    field_simp
    ring
  have hval : Spec.renyi (xiF ρ) 2 - n * Real.log 2 = -Real.log (D * ∑ k, xiF ρ k ^ 2) := by
    rw [renyi_two, Real.log_mul (by positivity) (by rw [hsq]; positivity), hD, Real.log_pow]
    ring
  have htop : Real.log ((D + 1) / 2) = -Real.log (2 / (D + 1)) := by
    rw [← Real.log_inv, inv_div]
  have hDs : D * ∑ k, xiF ρ k ^ 2 = 2 / (D + 1) + D * ∑ k ∈ Finset.univ.erase z, (xiF ρ k - c) ^ 2 := by
    rw [hsq, mul_add]; congr 1; field_simp
  have hs0 : 0 ≤ D * ∑ k ∈ Finset.univ.erase z, (xiF ρ k - c) ^ 2 :=
    mul_nonneg (by linarith) (Finset.sum_nonneg fun _ _ => sq_nonneg _)
  have hpos : 0 < 2 / (D + 1) := by positivity
  have hle : Spec.renyi (xiF ρ) 2 - n * Real.log 2 ≤ Real.log ((D + 1) / 2) := by
    rw [hval, htop, neg_le_neg_iff, hDs]
    exact Real.log_le_log hpos (by linarith)
  refine ⟨⟨_, sre_eq hn hx (pure_big hn hpure) (by norm_num), hle, ?_⟩, fun a ha =>
    ⟨_, sre_eq hn hx (pure_big hn hpure) (by linarith), by linarith [renyi_anti hprob ha]⟩⟩
  rw [hval, htop, neg_inj, hDs]
  have hiff : Real.log (2 / (D + 1) + D * ∑ k ∈ Finset.univ.erase z, (xiF ρ k - c) ^ 2) = Real.log (2 / (D + 1)) ↔
      ∀ k ≠ z, xiF ρ k = c := by
    constructor
    · intro h
      have := Real.log_injOn_pos (Set.mem_Ioi.2 (by linarith)) (Set.mem_Ioi.2 hpos) h
      have h0 : ∑ k ∈ Finset.univ.erase z, (xiF ρ k - c) ^ 2 = 0 := by
        have : D * ∑ k ∈ Finset.univ.erase z, (xiF ρ k - c) ^ 2 = 0 := by linarith
        exact (mul_eq_zero.1 this).resolve_left (by linarith)
      intro k hk
      have := (Finset.sum_eq_zero_iff_of_nonneg fun _ _ => sq_nonneg _).1 h0 k (Finset.mem_erase.2 ⟨hk, Finset.mem_univ k⟩)
      exact sub_eq_zero.1 (pow_eq_zero_iff (by norm_num) |>.1 this)
    · intro h
      rw [Finset.sum_eq_zero fun k hk => by rw [h k (Finset.ne_of_mem_erase hk), sub_self]; ring, mul_zero, add_zero]
  rw [hiff]
  have hw : ∀ w, pexp ρ w ^ 2 / D = c ↔ ((Spec.pauliString w * ρ).trace).re ^ 2 = 1 / (D + 1) := by
    intro w
    change ((Spec.pauliString w * ρ).trace).re ^ 2 / D = c ↔ _
    rw [hc, div_eq_iff (by linarith)]
    constructor <;> intro h <;> rw [h] <;> field_simp
  constructor
  · intro h w hw0
    have h1 := h ((wordEquiv n).symm w) (by
      intro he
      apply hw0
      rw [← Equiv.apply_symm_apply (wordEquiv n) w, he, wordEquiv_apply]
      exact digit_zero)
    rw [xiF, ← wordEquiv_apply, Equiv.apply_symm_apply, hP, mul_one] at h1
    exact (hw w).1 h1
  · intro h k hk
    rw [xiF, hP, mul_one]
    refine (hw _).2 (h _ fun h0 => hk ?_)
    rw [← digit_zero] at h0
    exact Fin.ext (digit_inj k.2 (by positivity) h0)

theorem mixed_state (n : ℕ) : Spec.IsState (.mat (2 ^ n) (2 ^ n) ((1 / 2 ^ n : ℂ) • (1 : Op (2 ^ n))))
    ((1 / 2 ^ n : ℂ) • (1 : Op (2 ^ n))) := by
  refine mat_state ⟨Matrix.PosSemidef.one.smul ?_, ?_⟩
  · have : (0 : ℂ) ≤ ((1 / 2 ^ n : ℝ) : ℂ) := by
      rw [Complex.zero_le_real]; positivity
    simpa using this
  · rw [trace_smul, trace_one]; simp

/-- C118. The docstring is wrong about mixed states. `1/2 ⊗ |0><0|` is a stabilizer state (all Pauli expectation values are
0, 1 or -1), but its value is `-log 2` at every order; and the maximally mixed state of any number of qubits gets the value
0, not a positive one. -/
theorem C118_violation :
    (∃ (z : Arr) (ρ : Op (2 ^ (1 + 1))), Spec.IsState z ρ ∧ Spec.PauliFlat ρ ∧
      ∀ a : ℝ, 0 ≤ a → sre z (.num a) = .ok ((-Real.log 2 : ℝ) : EReal)) ∧
    ∀ n, 1 ≤ n → ∃ y : Arr, Spec.IsState y ((1 / 2 ^ n : ℂ) • (1 : Op (2 ^ n))) ∧ ∀ o, sre y o = .ok 0 := by
  refine ⟨?_, fun n hn => ⟨_, mixed_state n, fun o => C63_maximally_mixed hn (mixed_state n) o⟩⟩
  have hx := mixed_state 1
  have hy : Spec.IsState (.vec (2 ^ 1) ![1, 0]) (Spec.proj (n := 2 ^ 1) ![1, 0]) := .inl ⟨_, ket0_unit, rfl, rfl⟩
  have hpure : Spec.Pure (Spec.proj (n := 2 ^ 1) ![1, 0]) := ⟨_, ket0_unit, rfl⟩
  have hz := product_state hx hy
  have hval : ∀ a : ℝ, 0 ≤ a → sre (.mat _ _ (npKron ((1 / 2 ^ 1 : ℂ) • (1 : Op (2 ^ 1))) (Spec.proj (n := 2 ^ 1) ![1, 0])))
      (.num a) = .ok ((-Real.log 2 : ℝ) : EReal) := by
    intro a ha
    obtain ⟨v, -, h1, h2⟩ := C104_mixed_not_additive le_rfl le_rfl hx hy hz hpure a ha
    rw [(C63_zero_iff le_rfl hy hpure a ha).2 ket0_flat, Except.ok.injEq] at h1
    have hv : v = 0 := by exact_mod_cast h1.symm
    rw [h2, hv]
    norm_num
  refine ⟨_, kr ((1 / 2 ^ 1 : ℂ) • (1 : Op (2 ^ 1))) (Spec.proj (n := 2 ^ 1) ![1, 0]), kr_state hz, ?_, hval⟩
  have d1 := (state_cast hx).2
  have d2 := (state_cast hy).2
  have hpur : ((kr ((1 / 2 ^ 1 : ℂ) • (1 : Op (2 ^ 1))) (Spec.proj (n := 2 ^ 1) ![1, 0]) *
      kr ((1 / 2 ^ 1 : ℂ) • (1 : Op (2 ^ 1))) (Spec.proj (n := 2 ^ 1) ![1, 0])).trace).re = 1 / 2 := by
    rw [purity_kr d1.psd.isHermitian d2.psd.isHermitian, pure_purity hpure, mul_one, smul_mul_smul_comm, mul_one, trace_smul,
      trace_one]
    norm_num
  obtain ⟨v, hv, -, -, hiff⟩ := C118_purity (by norm_num) (kr_state hz) (by rw [hpur]; norm_num) 2 (by norm_num)
  refine hiff.1 ?_
  rw [hval 2 (by norm_num), Except.ok.injEq] at hv
  have hv' : -Real.log 2 = v := by exact_mod_cast hv
  rw [← hv', hpur, one_div, Real.log_inv]

/-- C118. The upper bound is attained by one qubit, for the state whose Bloch vector is `(1, 1, 1)/√3`. -/
theorem C118_upper_attained : ∃ (x : Arr) (ρ : Op (2 ^ 1)), Spec.IsState x ρ ∧ Spec.Pure ρ ∧
    sre x (.num 2) = .ok ((Real.log (3 / 2) : ℝ) : EReal) := by
  obtain ⟨s, hs0, hs⟩ : ∃ s : ℝ, 0 < s ∧ s ^ 2 = 1 / 3 :=
    ⟨Real.sqrt (1 / 3), Real.sqrt_pos.2 (by norm_num), Real.sq_sqrt (by norm_num)⟩
  obtain ⟨r, hr0, hr⟩ : ∃ r : ℝ, 0 < r ∧ r ^ 2 = (1 + s) / 2 :=
    ⟨Real.sqrt ((1 + s) / 2), Real.sqrt_pos.2 (by positivity), Real.sq_sqrt (by positivity)⟩
  set t : ℝ := s / (2 * r) with ht
  have hrt : r * t = s / 2 := by rw [ht]; field_simp
  have htt : 2 * t ^ 2 = (1 - s) / 2 := by
    have h1 : r ^ 2 * (2 * t ^ 2) = r ^ 2 * ((1 - s) / 2) := by
      rw [show r ^ 2 * (2 * t ^ 2) = 2 * (r * t) ^ 2 by ring, hrt, hr]; nlinarith
    exact mul_left_cancel₀ (by positivity) h1
  let ψ : Fin (2 ^ 1) → ℂ := ![(r : ℂ), ⟨t, t⟩]
  have hunit : Spec.IsUnitVec (n := 2 ^ 1) ψ := by
    change ∑ i : Fin 2, ‖ψ i‖ ^ 2 = 1
    rw [Fin.sum_univ_two, ← Complex.normSq_eq_norm_sq, ← Complex.normSq_eq_norm_sq]
    change Complex.normSq (r : ℂ) + Complex.normSq ⟨t, t⟩ = 1
    rw [Complex.normSq_ofReal, Complex.normSq_mk]
    nlinarith
  have hx : Spec.IsState (.vec (2 ^ 1) ψ) (Spec.proj ψ) := .inl ⟨_, hunit, rfl, rfl⟩
  refine ⟨_, _, hx, ⟨_, hunit, rfl⟩, ?_⟩
  obtain ⟨v, hv, -, hiff⟩ := (C118_upper le_rfl hx ⟨_, hunit, rfl⟩).1
  have : v = Real.log ((2 ^ 1 + 1) / 2) := by
    refine hiff.2 fun w hw => ?_
    rw [pauliString_one]
    have hw0 : w 0 ≠ 0 := fun h => hw (funext fun i => by fin_cases i; exact h)
    generalize w 0 = a at hw0
    have key : ((Spec.pauli a : Op 2) * Spec.proj (n := 2) ψ).trace.re = s := by
      have e : ∀ A : Op 2, (A * Spec.proj (n := 2) ψ).trace = A 0 0 * (ψ 0 * star (ψ 0)) + A 0 1 * (ψ 1 * star (ψ 0)) +
          (A 1 0 * (ψ 0 * star (ψ 1)) + A 1 1 * (ψ 1 * star (ψ 1))) := by
        intro A; simp [trace, mul_apply, Fin.sum_univ_two, Spec.proj]
      rw [e]
      have h0 : ψ 0 = (r : ℂ) := rfl
      have h1 : ψ 1 = ⟨t, t⟩ := rfl
      rw [h0, h1]
      fin_cases a
      · exact absurd rfl hw0
      all_goals simp [Spec.pauli]
      all_goals nlinarith
    rw [show (((Spec.pauli a : Op (2 ^ 1)) * Spec.proj ψ).trace).re = s from key, hs]
    norm_num
  rw [hv, this]
  norm_num

end FF.Props
