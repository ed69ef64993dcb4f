import Verif.Proofs.Tableau

/-! # C148: which states have no stabilizer entropy, how many there are, and how `random_CHP_state` draws them -/

namespace FF.Props

open Matrix Finset MeasureTheory
open Spec (stabStates tableau tableaux)

variable {n : ℕ} {σ : Type}

/-- C148. A vector has stabilizer entropy 0, at any finite order, exactly if a Clifford unitary makes it from the first basis vector. -/
theorem C148_sre_vec (hn : 1 ≤ n) {ψ : Fin (2 ^ n) → ℂ} (hψ : Spec.IsUnitVec ψ) (a : ℝ) (ha : 0 ≤ a) :
    sre (.vec _ ψ) (.num a) = .ok 0 ↔ Spec.IsStabilizerVec ψ := by
  rw [C63_zero_iff hn (.inl ⟨_, hψ, rfl, rfl⟩) ⟨ψ, hψ, rfl⟩ a ha]
  exact ⟨flat_stab n ψ hψ, fun h => (stab_vec h).2⟩

/-- C148. The same for pure states given in any of the accepted forms. -/
theorem C148_sre (hn : 1 ≤ n) {x : Arr} {ρ : Op (2 ^ n)} (hx : Spec.IsState x ρ) (hp : Spec.Pure ρ) (a : ℝ) (ha : 0 ≤ a) :
    sre x (.num a) = .ok 0 ↔ ρ ∈ stabStates n := by
  rw [C63_zero_iff hn hx hp a ha, mem_stab]
  exact ⟨fun h => ⟨hp, h⟩, fun h => h.2⟩

/-- C148. There are `2^n (2+1)(4+1)...(2^n+1)` of them. -/
theorem C148_count (n : ℕ) : (stabStates n).Finite ∧ (stabStates n).ncard = 2 ^ n * ∏ k ∈ Icc 1 n, (2 ^ k + 1) := by
  refine ⟨stab_finite n, ?_⟩
  rw [stab_count, range_eq_Ico, prod_Ico_add' (fun k => 2 ^ k + 1) 0 n 1]
  rfl

/-- C148. Every Pauli string other than the identity has the value 1 in one of `2 (2^n + 1)` of the stabilizer states, the value -1 in as
many, and 0 in the others. -/
theorem C148_values (hn : 1 ≤ n) {w : Fin n → Fin 4} (hw : w ≠ 0) :
    2 * (2 ^ n + 1) * {ρ | ρ ∈ stabStates n ∧ (Spec.pauliString w * ρ).trace = 1}.ncard = (stabStates n).ncard ∧
    2 * (2 ^ n + 1) * {ρ | ρ ∈ stabStates n ∧ (Spec.pauliString w * ρ).trace = -1}.ncard = (stabStates n).ncard ∧
    ∀ ρ ∈ stabStates n, (Spec.pauliString w * ρ).trace = 0 ∨ (Spec.pauliString w * ρ).trace = 1 ∨ (Spec.pauliString w * ρ).trace = -1 := by
  obtain ⟨m, rfl⟩ : ∃ m, n = m + 1 := ⟨n - 1, by omega⟩
  have h1 : 2 * (2 ^ (m + 1) + 1) * (stabWith w 1).ncard = (stabStates (m + 1)).ncard := by
    rw [stabWith_eq hw (lastZ_ne m), stabWith_last, stab_step]
  refine ⟨h1, ?_, fun ρ h => (mem_stab.1 h).2 w⟩
  rw [← h1, ← stabWith_neg hw]
  rfl

/-- C148. If stim draws all tableaux with the same probability, `random_CHP_state(n)` returns all stabilizer states with the same
probability. -/
theorem C148_uniform [MeasurableSpace σ] {μ : Measure σ} {stim : Stim σ} (hn : 1 ≤ n) (h : Spec.StimUniform stim μ n) :
    ∃ (ψ : σ → Fin (2 ^ n) → ℂ) (next : σ → σ), (∀ s, (randomCHPState (some stim) (.int n)).exec s = (.ok ⟨n, ψ s⟩, next s)) ∧
      (∀ s, Spec.IsStabilizerVec (ψ s)) ∧
      ∀ ρ ∈ stabStates n, MeasurableSet {s | Spec.proj (ψ s) = ρ} ∧
        μ {s | Spec.proj (ψ s) = ρ} = ((2 ^ n * ∏ k ∈ Icc 1 n, (2 ^ k + 1) : ℕ) : ENNReal)⁻¹ := by
  obtain ⟨V, hV, hμ⟩ := h
  have hcp : checkPositive (.int (n : ℤ)) = .ok n := by
    rw [checkPositive, if_neg (by omega), Int.toNat_natCast]
  refine ⟨fun s => (stim.stateVector n s).1, fun s => (stim.stateVector n s).2, fun s => ?_, fun s => ⟨V s, (hV s).1, (hV s).2⟩, fun ρ hρ => ?_⟩
  · unfold randomCHPState
    simp only
    rw [hcp]
    rfl
  · have e : ∀ s, (stim.stateVector n s).1 = fun i => V s i ⟨0, by positivity⟩ := fun s => funext (hV s).2
    simp only [e]
    rw [← (C148_count n).2]
    exact law_of_tableaux (fun s => (hV s).1) hμ hρ

/-- C148. So the measured value of every Pauli string other than the identity is 1 with probability `1 / (2 (2^n + 1))`, and -1 with the
same probability: the first two moments are those of a Haar random state. -/
theorem C148_moments [MeasurableSpace σ] {μ : Measure σ} {stim : Stim σ} (hn : 1 ≤ n) (h : Spec.StimUniform stim μ n)
    {ψ : σ → Fin (2 ^ n) → ℂ} {next : σ → σ} (hrun : ∀ s, (randomCHPState (some stim) (.int n)).exec s = (.ok ⟨n, ψ s⟩, next s))
    {w : Fin n → Fin 4} (hw : w ≠ 0) {c : ℂ} (hc : c = 1 ∨ c = -1) :
    μ {s | (Spec.pauliString w * Spec.proj (ψ s)).trace = c} = ((2 * (2 ^ n + 1) : ℕ) : ENNReal)⁻¹ := by
  classical
  obtain ⟨ψ', next', hrun', hst, hμ⟩ := C148_uniform hn h
  have hψ : ψ = ψ' := funext fun s => by
    have := (hrun s).symm.trans (hrun' s)
    simpa using congrArg Prod.fst this
  subst hψ
  have hF := stabWith_finite w c
  have e : {s | (Spec.pauliString w * Spec.proj (ψ s)).trace = c} = ⋃ ρ ∈ hF.toFinset, {s | Spec.proj (ψ s) = ρ} := by
    ext s
    simp only [Set.mem_setOf_eq, Set.mem_iUnion, Set.Finite.mem_toFinset, exists_prop, exists_eq_right']
    exact ⟨fun h => ⟨⟨ψ s, hst s, rfl⟩, h⟩, fun h => h.2⟩
  have hmem : ∀ ρ ∈ hF.toFinset, ρ ∈ stabStates n := fun ρ h => (hF.mem_toFinset.1 h).1
  have hval : 2 * (2 ^ n + 1) * (stabWith w c).ncard = (stabStates n).ncard := by
    rcases hc with rfl | rfl
    · exact (C148_values hn hw).1
    · exact (C148_values hn hw).2.1
  rw [e, measure_biUnion_finset (fun t _ u _ htu => Set.disjoint_left.2 fun s hs hs' => htu (hs.symm.trans hs')) fun ρ h => (hμ ρ (hmem ρ h)).1,
    sum_congr rfl fun ρ h => (hμ ρ (hmem ρ h)).2, sum_const, nsmul_eq_mul, ← Set.ncard_eq_toFinset_card _ hF, ← (C148_count n).2, ← hval]
  have h0 : (stabWith w c).ncard ≠ 0 := fun h0 => by
    rw [h0, mul_zero] at hval
    exact (Set.ncard_ne_zero_of_mem (stab_nonempty n).some_mem (stab_finite n)) hval.symm
  have h0' : ((stabWith w c).ncard : ENNReal) ≠ 0 := by exact_mod_cast h0
  rw [Nat.cast_mul _ (stabWith w c).ncard, ENNReal.mul_inv (.inr (ENNReal.natCast_ne_top _)) (.inr h0'), mul_left_comm, ENNReal.mul_inv_cancel h0' (ENNReal.natCast_ne_top _), mul_one]

/-! ## the hypotheses are met -/

/-- A stim that draws from the finite set of tableaux. -/
noncomputable example (n : ℕ) : ∃ (σ : Type) (_ : MeasurableSpace σ) (μ : Measure σ) (stim : Stim σ), Spec.StimUniform stim μ n := by
  classical
  have hch : ∀ t : tableaux n, ∃ V : Op (2 ^ n), Spec.IsClifford V ∧ t.1 = tableau V := fun t => t.2
  choose V hV using hch
  letI : MeasurableSpace (tableaux n) := ⊤
  refine ⟨tableaux n, ⊤, ((tableaux n).ncard : ENNReal)⁻¹ • Measure.count,
    ⟨fun m s => (fun i => if h : m = n then V s (h ▸ i) ⟨0, by positivity⟩ else 0, s)⟩, V, fun s => ⟨(hV s).1, fun i => by simp⟩, fun t ht => ⟨trivial, ?_⟩⟩
  have e : {s : tableaux n | tableau (V s) = t} = {⟨t, ht⟩} := by
    ext s
    rw [Set.mem_setOf_eq, Set.mem_singleton_iff, ← (hV s).2, Subtype.ext_iff]
  rw [e, Measure.smul_apply, Measure.count_singleton, smul_eq_mul, mul_one]

example : (stabStates 1).ncard = 6 ∧ (stabStates 2).ncard = 60 ∧ (stabStates 3).ncard = 1080 := by
  refine ⟨?_, ?_, ?_⟩ <;> rw [(C148_count _).2] <;> decide

/-- A state of one qubit that no Clifford unitary makes from the first basis vector. -/
example : sre (.vec (2 ^ 1) ![4 / 5, 3 / 5]) (.num 2) ≠ .ok 0 ∧ ¬ Spec.IsStabilizerVec (n := 1) ![4 / 5, 3 / 5] := by
  have hs : ¬ Spec.IsStabilizerVec (n := 1) ![4 / 5, 3 / 5] := fun h => tilt_not_flat (stab_vec h).2
  exact ⟨fun h => hs ((C148_sre_vec le_rfl tilt_unit 2 (by norm_num)).1 h), hs⟩

end FF.Props
