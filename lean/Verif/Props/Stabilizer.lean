import Verif.Proofs.Stabilizer

/-! # Properties of the stabilizer distribution and the stabilizer Rényi entropy (C62, C63) -/

namespace FF.Props

open Matrix
open scoped ComplexOrder

variable {n : ℕ} {x : Arr} {ρ : Op (2 ^ n)}

/-! ## C62 -/

/-- C62. For every state of `n >= 1` qubits the call succeeds; the result has `4^n` entries, entry `k` is
`<P_k>^2 / (2^n purity)` for the `k`-th Pauli string, the entries are non-negative with sum exactly 1, and the identity
entry is `1 / (2^n purity)`. -/
theorem C62_distribution (hn : 1 ≤ n) (hx : Spec.IsState x ρ) :
    ∃ xi, stabilizerDistribution x = .ok xi ∧ xi.length = 4 ^ n ∧
      (∀ k (hk : k < xi.length), ((Spec.pauliString (Spec.digit 4 n k) * ρ).trace).im = 0 ∧
        xi[k] = ((Spec.pauliString (Spec.digit 4 n k) * ρ).trace).re ^ 2 / (2 ^ n * ((ρ * ρ).trace).re)) ∧
      (∀ r ∈ xi, 0 ≤ r) ∧ xi.sum = 1 ∧ xi.head? = some (1 / (2 ^ n * ((ρ * ρ).trace).re)) := by
  have h2 := (state_cast hx).2
  refine ⟨_, stabilizer_ok hn hx, List.length_ofFn, fun k hk => ⟨?_, ?_⟩, ?_, ?_, ?_⟩
  · exact trace_herm_real (pauliString_herm _) h2.psd.isHermitian
  · rw [List.getElem_ofFn]; rfl
  · intro r hr
    obtain ⟨i, rfl⟩ := (List.mem_ofFn' _ _).1 hr
    exact (xiF_prob h2).nonneg i
  · rw [List.sum_ofFn, xiF_sum h2]
  · have h4 : 0 < 4 ^ n := by positivity
    rw [List.head?_eq_getElem?, List.getElem?_eq_getElem (by simp), List.getElem_ofFn, xiF]
    simp only [digit_zero, pexp_zero h2, one_pow]

/-- C62. A state whose dimension is not a power of two, or is 1, is rejected with ValueError. -/
theorem C62_dimension {d : ℕ} {ρ : Op d} (hx : Spec.IsState x ρ) (hd : ∀ n, 1 ≤ n → d ≠ 2 ^ n) :
    stabilizerDistribution x = .error .valueError := stabilizer_dimension hx hd

example : Spec.IsState (.vec 2 ![1, 0]) (Spec.proj ![1, 0]) := by
  refine .inl ⟨_, ?_, rfl, rfl⟩
  simp [Spec.IsUnitVec, Fin.sum_univ_two]

/-! ## C63 -/

theorem pure_purity (h : Spec.Pure ρ) : ((ρ * ρ).trace).re = 1 := by
  obtain ⟨ψ, h1, rfl⟩ := h
  have e : (Spec.proj ψ * Spec.proj ψ).trace = (∑ i, ψ i * star (ψ i)) * ∑ i, ψ i * star (ψ i) := by
    simp only [trace, diag_apply, mul_apply, Spec.proj, of_apply, Finset.sum_mul_sum]
    exact Finset.sum_congr rfl fun i _ => Finset.sum_congr rfl fun j _ => by ring
  have e2 : ∑ i, ψ i * star (ψ i) = 1 := by
    simp only [Complex.star_def, Complex.mul_conj, Complex.normSq_eq_norm_sq]
    exact_mod_cast h1
  rw [e, e2]; simp

theorem pure_big (hn : 1 ≤ n) (h : Spec.Pure ρ) : 100003 / 100000 ≤ 2 ^ n * ((ρ * ρ).trace).re := by
  rw [pure_purity h, mul_one]
  have : (2 : ℝ) ^ 1 ≤ 2 ^ n := pow_le_pow_right₀ (by norm_num) hn
  linarith

/-- C63. The value: for a state that is not nearly maximally mixed (`2^n purity >= 1.00003`; every pure state) it is the
Rényi entropy of the distribution `<P>^2 / (2^n purity)` minus `log 2^n`. -/
theorem C63_value (hn : 1 ≤ n) (hx : Spec.IsState x ρ) (hp : 100003 / 100000 ≤ 2 ^ n * ((ρ * ρ).trace).re) (xi : Fin (4 ^ n) → ℝ)
    (hxi : ∀ k, xi k = ((Spec.pauliString (Spec.digit 4 n k) * ρ).trace).re ^ 2 / (2 ^ n * ((ρ * ρ).trace).re))
    (a : ℝ) (ha : 0 ≤ a) :
    sre x (.num a) = .ok ((Spec.renyi xi a - n * Real.log 2 : ℝ) : EReal) := by
  have : xi = xiF ρ := funext hxi
  rw [this, sre_eq hn hx hp ha]

theorem log_inv_pure (h : Spec.Pure ρ) : -Real.log (1 / (2 ^ n * ((ρ * ρ).trace).re)) = n * Real.log 2 := by
  rw [pure_purity h, mul_one, one_div, Real.log_inv, neg_neg, Real.log_pow]

/-- C63. For every pure state and every order it is a non-negative real number. -/
theorem C63_nonneg (hn : 1 ≤ n) (hx : Spec.IsState x ρ) (hpure : Spec.Pure ρ) (a : ℝ) (ha : 0 ≤ a) :
    ∃ v : ℝ, sre x (.num a) = .ok (v : EReal) ∧ 0 ≤ v := by
  have h2 := (state_cast hx).2
  refine ⟨_, sre_eq hn hx (pure_big hn hpure) ha, ?_⟩
  have := minEntropy_le (xiF_prob h2) (xiF_max h2) a
  rw [log_inv_pure hpure] at this
  linarith

/-- C63. For every pure state and every finite order it is 0 exactly if all Pauli expectation values are 0, 1 or -1. -/
theorem C63_zero_iff (hn : 1 ≤ n) (hx : Spec.IsState x ρ) (hpure : Spec.Pure ρ) (a : ℝ) (ha : 0 ≤ a) :
    sre x (.num a) = .ok 0 ↔ Spec.PauliFlat ρ := by
  have h2 := (state_cast hx).2
  have hprob := xiF_prob h2
  have hbound : ∀ b, n * Real.log 2 ≤ Spec.renyi (xiF ρ) b := fun b => by
    rw [← log_inv_pure hpure]; exact minEntropy_le hprob (xiF_max h2) b
  have hflat : Spec.PauliFlat ρ ↔ ∀ k, xiF ρ k = 0 ∨ xiF ρ k = 1 / (2 ^ n * ((ρ * ρ).trace).re) := by
    have hd : (2 : ℝ) ^ n * ((ρ * ρ).trace).re ≠ 0 := (mul_pos (by positivity) (purity_pos h2)).ne'
    have e : ∀ w, ((Spec.pauliString w * ρ).trace = 0 ∨ (Spec.pauliString w * ρ).trace = 1 ∨
        (Spec.pauliString w * ρ).trace = -1) ↔ (pexp ρ w ^ 2 / (2 ^ n * ((ρ * ρ).trace).re) = 0 ∨
          pexp ρ w ^ 2 / (2 ^ n * ((ρ * ρ).trace).re) = 1 / (2 ^ n * ((ρ * ρ).trace).re)) := by
      intro w
      rw [pexp_eq h2.psd.isHermitian, div_eq_zero_iff, or_iff_left hd, div_left_inj' hd]
      rw [show pexp ρ w ^ 2 = 1 ↔ pexp ρ w = 1 ∨ pexp ρ w = -1 from by rw [← sq_eq_sq_iff_eq_or_eq_neg, one_pow]]
      norm_cast
      simp
    constructor
    · intro h k
      exact (e _).1 (h _)
    · intro h w
      refine (e w).2 ?_
      have := h ((wordEquiv n).symm w)
      rwa [xiF, ← wordEquiv_apply, Equiv.apply_symm_apply] at this
  rw [sre_eq hn hx (pure_big hn hpure) ha, hflat]
  have e0 : (Except.ok ((Spec.renyi (xiF ρ) a - n * Real.log 2 : ℝ) : EReal) : Except PyErr EReal) = .ok 0 ↔
      Spec.renyi (xiF ρ) a = n * Real.log 2 := by
    rw [Except.ok.injEq, EReal.coe_eq_zero, sub_eq_zero]
  rw [e0]
  have ht : 0 < 1 / (2 ^ n * ((ρ * ρ).trace).re) := max_pos hprob (xiF_max h2)
  constructor
  · intro h
    rcases le_or_gt a 1 with h1 | h1
    · have h3 : Spec.renyi (xiF ρ) 2 = n * Real.log 2 :=
        le_antisymm ((renyi_anti hprob (by linarith)).trans h.le) (hbound 2)
      exact flat_of_renyi hprob ht (xiF_le h2) (by norm_num) (h3.trans (log_inv_pure hpure).symm)
    · exact flat_of_renyi hprob ht (xiF_le h2) h1 (h.trans (log_inv_pure hpure).symm)
  · intro h
    refine le_antisymm ((renyi_anti hprob ha).trans ?_) (hbound a)
    rw [renyi_zero_flat hprob ht h, log_inv_pure hpure]

/-- C63. At infinite order it is 0 for every pure state. -/
theorem C63_inf (hn : 1 ≤ n) (hx : Spec.IsState x ρ) (hpure : Spec.Pure ρ) : sre x .inf = .ok 0 := by
  have h2 := (state_cast hx).2
  rw [sre_inf_eq hn hx (pure_big hn hpure) (xiF_max h2), log_inv_pure hpure, sub_self]
  rfl

/-- C63. Invariance under every unitary that permutes the Pauli strings up to sign (Clifford unitaries), for every
order. -/
theorem C63_clifford (hn : 1 ≤ n) (hx : Spec.IsState x ρ) (hp : 100003 / 100000 ≤ 2 ^ n * ((ρ * ρ).trace).re) (V : Op (2 ^ n))
    (hV : V * Vᴴ = 1) (hc : ∀ w : Fin n → Fin 4, ∃ w', Vᴴ * Spec.pauliString w * V = Spec.pauliString w' ∨
      Vᴴ * Spec.pauliString w * V = -Spec.pauliString w') {y : Arr} (hy : Spec.IsState y (V * ρ * Vᴴ)) (o : Order)
    (ho : OrderOk o) : sre y o = sre x o := by
  have h2 := (state_cast hx).2
  have hV' : Vᴴ * V = 1 := mul_eq_one_comm.1 hV
  have hpur : ((V * ρ * Vᴴ) * (V * ρ * Vᴴ)).trace = (ρ * ρ).trace := by
    have : (V * ρ * Vᴴ) * (V * ρ * Vᴴ) = V * (ρ * ρ) * Vᴴ := by
      calc _ = V * ρ * (Vᴴ * V) * ρ * Vᴴ := by noncomm_ring
        _ = _ := by rw [hV']; noncomm_ring
    rw [this, trace_mul_comm, ← mul_assoc, hV', one_mul]
  have hp' : 100003 / 100000 ≤ 2 ^ n * (((V * ρ * Vᴴ) * (V * ρ * Vᴴ)).trace).re := by rwa [hpur]
  cases o with
  | num a =>
    rw [sre_eq hn hx hp ho, sre_eq hn hy hp' ho]
    obtain ⟨s, hs⟩ := xiF_conj (ρ := ρ) hV hc
    rw [funext hs, renyi_perm]
  | inf =>
    rw [sre_inf_eq hn hx hp (xiF_max h2), sre_inf_eq hn hy hp' (xiF_max (state_cast hy).2), hpur]

/-- C63. For the maximally mixed state the result is 0, at every order. (The docstring promises a positive number.) -/
theorem C63_maximally_mixed (hn : 1 ≤ n) (hx : Spec.IsState x ((1 / 2 ^ n : ℂ) • (1 : Op (2 ^ n)))) (o : Order) :
    sre x o = .ok 0 := by
  classical
  have h2 := (state_cast hx).2
  rw [sre_unfold hn hx, if_pos]
  rw [countNonzero, Finset.card_eq_one]
  refine ⟨⟨0, by positivity⟩, ?_⟩
  ext k
  rw [Finset.mem_filter, Finset.mem_singleton]
  have hk : pexp ((1 / 2 ^ n : ℂ) • (1 : Op (2 ^ n))) (Spec.digit 4 n k) = if Spec.digit 4 n k = 0 then 1 else 0 := by
    have := pauliString_trace_mul (Spec.digit 4 n k) 0
    rw [pauliString_zero] at this
    rw [pexp, Matrix.mul_smul, trace_smul, this]
    split_ifs <;> simp
  have hne : xiF ((1 / 2 ^ n : ℂ) • (1 : Op (2 ^ n))) k ≠ 0 ↔ Spec.digit 4 n k = 0 := by
    rw [xiF, hk]
    have := (mul_pos (by positivity : (0 : ℝ) < 2 ^ n) (purity_pos h2)).ne'
    split_ifs with h
    · rw [one_pow]
      exact ⟨fun _ => h, fun _ => one_div_ne_zero this⟩
    · simp [h]
  rw [hne]
  constructor
  · rintro ⟨-, h⟩
    rw [← digit_zero] at h
    exact Fin.ext (digit_inj k.2 (by positivity) h)
  · rintro rfl
    exact ⟨Finset.mem_univ _, digit_zero⟩

/-! ### one qubit: witnesses -/

theorem pauliString_one (w : Fin 1 → Fin 4) : Spec.pauliString w = Spec.pauli (w 0) := by
  have h : ∀ x : Fin 2, Spec.digit 2 1 x 0 = x := fun x => Fin.ext (by simp [Spec.digit, Fin.ofNat]; omega)
  ext x y
  rw [Spec.pauliString, of_apply, Fin.prod_univ_one, h, h]

theorem ket0_unit : Spec.IsUnitVec (n := 2 ^ 1) ![1, 0] := by simp [Spec.IsUnitVec, Fin.sum_univ_two]

theorem tilt_unit : Spec.IsUnitVec (n := 2 ^ 1) ![4 / 5, 3 / 5] := by
  simp [Spec.IsUnitVec, Fin.sum_univ_two]; norm_num

theorem ket0_flat : Spec.PauliFlat (n := 1) (Spec.proj ![1, 0]) := by
  intro w
  rw [pauliString_one]
  generalize w 0 = a
  have : ∀ A : Op 2, (A * Spec.proj ![1, 0]).trace = A 0 0 := by
    intro A; simp [trace, mul_apply, Fin.sum_univ_two, Spec.proj]
  rw [show ((Spec.pauli a : Op (2 ^ 1)) * Spec.proj ![1, 0]).trace = _ from this _]
  fin_cases a <;> simp [Spec.pauli]

theorem tilt_not_flat : ¬ Spec.PauliFlat (n := 1) (Spec.proj ![4 / 5, 3 / 5]) := by
  intro h
  have := h fun _ => 3
  rw [pauliString_one] at this
  have e : ((Spec.pauli 3 : Op 2) * Spec.proj ![4 / 5, 3 / 5]).trace = 7 / 25 := by
    have h3 : (Spec.pauli 3 : Op 2) = diagonal ![1, -1] := by
      ext i j; fin_cases i <;> fin_cases j <;> simp [Spec.pauli]
    rw [h3, trace, Fin.sum_univ_two, diag_apply, diag_apply, diagonal_mul, diagonal_mul, Spec.proj, of_apply, of_apply]
    simp; norm_num
  rw [show ((Spec.pauli 3 : Op (2 ^ 1)) * Spec.proj ![4 / 5, 3 / 5]).trace = _ from e] at this
  norm_num at this

/-- C63. The docstring calls the measure unitarily invariant; it is not: a rotation of a stabilizer state changes it. -/
theorem C63_not_unitarily_invariant : ∃ (V ρ : Op (2 ^ 1)) (x y : Arr), V * Vᴴ = 1 ∧ Spec.IsState x ρ ∧
    Spec.IsState y (V * ρ * Vᴴ) ∧ sre x (.num 2) ≠ sre y (.num 2) := by
  have hx : Spec.IsState (.vec (2 ^ 1) ![1, 0]) (Spec.proj (n := 2 ^ 1) ![1, 0]) := .inl ⟨_, ket0_unit, rfl, rfl⟩
  have hy : Spec.IsState (.vec (2 ^ 1) ![4 / 5, 3 / 5]) (Spec.proj (n := 2 ^ 1) ![4 / 5, 3 / 5]) :=
    .inl ⟨_, tilt_unit, rfl, rfl⟩
  refine ⟨(!![4 / 5, -3 / 5; 3 / 5, 4 / 5] : Op 2), _, _, .vec (2 ^ 1) ![4 / 5, 3 / 5], ?_, hx, ?_, ?_⟩
  · ext i j
    change ((!![4 / 5, -3 / 5; 3 / 5, 4 / 5] : Op 2) * (!![4 / 5, -3 / 5; 3 / 5, 4 / 5] : Op 2)ᴴ) i j = (1 : Op 2) i j
    fin_cases i <;> fin_cases j <;> simp [mul_apply, Fin.sum_univ_two, map_ofNat] <;> norm_num
  · convert hy using 1
    ext i j
    change ((!![4 / 5, -3 / 5; 3 / 5, 4 / 5] : Op 2) * Spec.proj ![1, 0] * (!![4 / 5, -3 / 5; 3 / 5, 4 / 5] : Op 2)ᴴ) i j =
      Spec.proj (n := 2) ![4 / 5, 3 / 5] i j
    have e1 : Spec.proj ![1, 0] = (!![1, 0; 0, 0] : Op 2) := by
      ext i j; rw [Spec.proj, of_apply]; fin_cases i <;> fin_cases j <;> simp
    have e2 : Spec.proj ![4 / 5, 3 / 5] = (!![16 / 25, 12 / 25; 12 / 25, 9 / 25] : Op 2) := by
      ext i j; rw [Spec.proj, of_apply]; fin_cases i <;> fin_cases j <;> simp [map_ofNat] <;> norm_num
    rw [e1, e2]
    fin_cases i <;> fin_cases j <;> simp [mul_apply, Fin.sum_univ_two, map_ofNat] <;> norm_num
  · rw [(C63_zero_iff le_rfl hx ⟨_, ket0_unit, rfl⟩ 2 (by norm_num)).2 ket0_flat]
    intro h
    exact tilt_not_flat ((C63_zero_iff le_rfl hy ⟨_, tilt_unit, rfl⟩ 2 (by norm_num)).1 h.symm)

/-- The Hadamard gate meets the hypotheses of `C63_clifford`, with a non-flat pure state. -/
example : ∃ V : Op (2 ^ 1), V * Vᴴ = 1 ∧ V ≠ 1 ∧ ∀ w : Fin 1 → Fin 4, ∃ w', Vᴴ * Spec.pauliString w * V = Spec.pauliString w' ∨
    Vᴴ * Spec.pauliString w * V = -Spec.pauliString w' := by
  have hs : ((Real.sqrt 2 : ℝ) : ℂ) * ((Real.sqrt 2 : ℝ) : ℂ) = 2 := by
    rw [← Complex.ofReal_mul, Real.mul_self_sqrt (by norm_num)]; norm_num
  have hs0 : ((Real.sqrt 2 : ℝ) : ℂ) ≠ 0 := by
    intro h; rw [h] at hs; norm_num at hs
  set r : ℂ := ((Real.sqrt 2 : ℝ) : ℂ)⁻¹ with hr
  have hrr : r * r = 1 / 2 := by rw [hr, ← mul_inv, hs]; norm_num
  have hrc : star r = r := by rw [hr]; simp
  set M : Op 2 := !![1, 1; 1, -1] with hM
  have hMM : Mᴴ = M := by ext i j; fin_cases i <;> fin_cases j <;> simp [hM]
  have key : ∀ A : Op 2, (r • M)ᴴ * A * (r • M) = (1 / 2 : ℂ) • (M * A * M) := by
    intro A
    rw [conjTranspose_smul, hMM, hrc, Matrix.smul_mul, Matrix.smul_mul, Matrix.mul_smul, smul_smul, hrr]
  have h1 : (r • M) * (r • M)ᴴ = 1 := by
    rw [conjTranspose_smul, hMM, hrc, Matrix.smul_mul, Matrix.mul_smul, smul_smul, hrr]
    ext i j; fin_cases i <;> fin_cases j <;> simp [hM, mul_apply, Fin.sum_univ_two] <;> norm_num
  refine ⟨(r • M : Op 2), h1, fun h => ?_, fun w => ?_⟩
  · have := congrFun (congrFun h 0) 1
    have h2 : r * 1 = (0 : ℂ) := this
    rw [mul_one] at h2
    rw [h2] at hrr
    norm_num at hrr
  · refine ⟨fun _ => (![0, 3, 2, 1] : Fin 4 → Fin 4) (w 0), ?_⟩
    rw [pauliString_one, pauliString_one]
    generalize w 0 = a
    change (r • M)ᴴ * Spec.pauli a * (r • M) = _ ∨ (r • M)ᴴ * Spec.pauli a * (r • M) = _
    rw [key]
    fin_cases a
    · left; ext i j; fin_cases i <;> fin_cases j <;> simp [hM, mul_apply, Fin.sum_univ_two, Spec.pauli] <;> norm_num
    · left; ext i j; fin_cases i <;> fin_cases j <;> simp [hM, mul_apply, Fin.sum_univ_two, Spec.pauli] <;> norm_num
    · right; ext i j; fin_cases i <;> fin_cases j <;> simp [hM, mul_apply, Fin.sum_univ_two, Spec.pauli] <;> ring
    · left; ext i j; fin_cases i <;> fin_cases j <;> simp [hM, mul_apply, Fin.sum_univ_two, Spec.pauli] <;> norm_num

/-- The maximally mixed state of one qubit. -/
example : Spec.IsState (.mat (2 ^ 1) (2 ^ 1) ((1 / 2 ^ 1 : ℂ) • (1 : Op (2 ^ 1)))) ((1 / 2 ^ 1 : ℂ) • (1 : Op (2 ^ 1))) := by
  refine mat_state ⟨?_, ?_⟩
  · exact PosSemidef.one.smul (by norm_num [Complex.le_def])
  · rw [trace_smul, trace_one]; norm_num

end FF.Props
