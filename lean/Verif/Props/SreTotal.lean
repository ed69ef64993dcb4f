import Verif.Props.SreBounds
import Verif.Props.Accepted

/-!
# Property C157: the stabilizer Rényi entropy of every state

`SRE` hands the stabilizer distribution `xi` to `renyi_entropy`, which reads a vector of 2-norm one (within the
tolerance) as a wavefunction. Nearly maximally mixed states have such a distribution. C63 and C118 leave them out; here
every state is covered.
-/

namespace FF.Props

open Matrix
open scoped ComplexOrder

variable {n : ℕ} {x : Arr} {ρ : Op (2 ^ n)}

/-- The maximally mixed state is the only one whose purity is `1 / 2^n`. -/
theorem mixed_of_purity (h : Spec.IsDensity ρ) (hp : 2 ^ n * ((ρ * ρ).trace).re = 1) :
    ρ = (1 / 2 ^ n : ℂ) • (1 : Op (2 ^ n)) := by
  have hρ : ρᴴ = ρ := h.psd.isHermitian
  obtain ⟨D, hD⟩ : ∃ D : Op (2 ^ n), D = ρ - (1 / 2 ^ n : ℂ) • 1 := ⟨_, rfl⟩
  have hDh : Dᴴ = D := by
    rw [hD, conjTranspose_sub, hρ, conjTranspose_smul, conjTranspose_one]
    congr 2
    simp
  have hre : (ρ * ρ).trace = (((ρ * ρ).trace).re : ℂ) := by
    rw [Complex.ext_iff]
    refine ⟨by simp, ?_⟩
    rw [Complex.ofReal_im]
    have := congrArg Complex.im (purity_eq hρ)
    rw [this, Complex.im_sum]
    refine Finset.sum_eq_zero fun i _ => ?_
    rw [Complex.im_sum]
    exact Finset.sum_eq_zero fun j _ => by rw [Complex.mul_conj]; simp
  have hpc : (2 ^ n : ℂ) * (ρ * ρ).trace = 1 := by
    rw [hre]
    exact_mod_cast hp
  have h2 : (2 ^ n : ℂ) ≠ 0 := by positivity
  have ht : (Dᴴ * D).trace = 0 := by
    rw [hDh, hD]
    simp only [sub_mul, mul_sub, smul_mul_assoc, mul_smul_comm, one_mul, mul_one, trace_sub, trace_smul, h.trace_one,
      trace_one, Fintype.card_fin, smul_eq_mul]
    push_cast
    field_simp
    linear_combination hpc
  have := trace_conjTranspose_mul_self_eq_zero_iff.1 ht
  rw [hD, sub_eq_zero] at this
  exact this

theorem count_ne_one (h : Spec.IsDensity ρ) (hm : ρ ≠ (1 / 2 ^ n : ℂ) • (1 : Op (2 ^ n))) :
    countNonzero (xiF ρ) ≠ 1 := by
  classical
  intro hc
  rw [countNonzero, Finset.card_eq_one] at hc
  obtain ⟨k, hk⟩ := hc
  have h1 : ∑ j, xiF ρ j = xiF ρ k := by
    refine Finset.sum_eq_single k (fun j _ hj => ?_) (by simp)
    by_contra h0
    have : j ∈ ({k} : Finset _) := by
      rw [← hk, Finset.mem_filter]
      exact ⟨Finset.mem_univ _, h0⟩
    exact hj (Finset.mem_singleton.1 this)
  rw [xiF_sum h] at h1
  have hle := xiF_le h k
  have hpos : 0 < 2 ^ n * ((ρ * ρ).trace).re := mul_pos (by positivity) (purity_pos h)
  have hge : 1 ≤ 2 ^ n * ((ρ * ρ).trace).re := by
    have := xiF_prob h
    have h0 : xiF ρ ⟨0, by positivity⟩ ≤ ∑ j, xiF ρ j :=
      Finset.single_le_sum (fun j _ => this.nonneg j) (Finset.mem_univ _)
    obtain ⟨⟨i, hi⟩, -⟩ := xiF_max h
    have h3 : xiF ρ i ≤ ∑ j, xiF ρ j := Finset.single_le_sum (fun j _ => this.nonneg j) (Finset.mem_univ _)
    rw [hi, xiF_sum h, div_le_one hpos] at h3
    exact h3
  refine hm (mixed_of_purity h (le_antisymm ?_ hge))
  rw [← h1, le_div_iff₀ hpos, one_mul] at hle
  exact hle

theorem sre_of_cast (hn : 1 ≤ n) (hx : Spec.IsState x ρ) (hm : ρ ≠ (1 / 2 ^ n : ℂ) • (1 : Op (2 ^ n))) (o : Order) :
    sre x o = (renyiEntropy (realVec (xiF ρ)) o).bind fun s => .ok (s - ((n * Real.log 2 : ℝ) : EReal)) := by
  rw [sre_unfold hn hx, if_neg (count_ne_one (state_cast hx).2 hm)]
  rw [Nat.cast_pow, Nat.cast_ofNat, Real.log_pow]

theorem sq_range {d : ℕ} {p : Fin d → ℝ} (hp : Spec.IsProb p) :
    |Real.sqrt (∑ i, p i ^ 2) - 1| = 1 - Real.sqrt (∑ i, p i ^ 2) ∧ |1 - ∑ i, p i ^ 2| = 1 - ∑ i, p i ^ 2 := by
  have h1 : ∑ i, p i ^ 2 ≤ 1 := by
    rw [← hp.sum_one]
    refine Finset.sum_le_sum fun i _ => ?_
    have h0 := hp.nonneg i
    have : p i ≤ 1 := by
      rw [← hp.sum_one]
      exact Finset.single_le_sum (fun j _ => hp.nonneg j) (Finset.mem_univ i)
    nlinarith
  constructor
  · rw [abs_sub_comm, abs_of_nonneg]
    have := Real.sqrt_le_sqrt h1
    rw [Real.sqrt_one] at this
    linarith
  · rw [abs_of_nonneg]
    linarith

/-- C157. The outcome of `SRE` at a finite order, for every state other than the maximally mixed one (C63). Let `xi` be the
stabilizer distribution and `S` the sum of its squares.
1. If `sqrt S` is not within the tolerance of one, the value is as documented.
2. If it is, and `S` is within the tolerance of one, too, the squares of `xi` take the place of `xi`: the value is the
entropy of the normalised squares, shifted by `a / (1 - a) log S` at orders other than one.
3. If it is, and `S` is not within the tolerance of one, AssertionError is raised. -/
theorem C157_outcome (hn : 1 ≤ n) (hx : Spec.IsState x ρ) (hm : ρ ≠ (1 / 2 ^ n : ℂ) • (1 : Op (2 ^ n)))
    (xi : Fin (4 ^ n) → ℝ)
    (hxi : ∀ k, xi k = ((Spec.pauliString (Spec.digit 4 n k) * ρ).trace).re ^ 2 / (2 ^ n * ((ρ * ρ).trace).re))
    (S : ℝ) (hS : S = ∑ k, xi k ^ 2) (a : ℝ) (ha : 0 ≤ a) :
    (1e-8 + 1e-5 < 1 - Real.sqrt S →
      sre x (.num a) = .ok ((Spec.renyi xi a - n * Real.log 2 : ℝ) : EReal)) ∧
    (1 - Real.sqrt S ≤ 1e-8 + 1e-5 → 1 - S ≤ 1e-8 + 1e-5 * S →
      sre x (.num a) = .ok (((if a = 1 then Spec.renyi (fun k => xi k ^ 2 / S) 1
        else Spec.renyi (fun k => xi k ^ 2 / S) a + a / (1 - a) * Real.log S) - n * Real.log 2 : ℝ) : EReal)) ∧
    (1 - Real.sqrt S ≤ 1e-8 + 1e-5 → 1e-8 + 1e-5 * S < 1 - S → sre x (.num a) = .error .assertionError) := by
  have h2 := (state_cast hx).2
  obtain rfl : xi = xiF ρ := funext hxi
  have hp := xiF_prob h2
  obtain ⟨e1, e2⟩ := sq_range hp
  obtain ⟨c1, c2, c3⟩ := C17_outcome _ (xiF ρ) hp
  rw [e1, ← hS] at c1
  rw [e1, e2, ← hS] at c2 c3
  rw [sre_of_cast hn hx hm]
  refine ⟨fun h => ?_, fun h h' => ?_, fun h h' => ?_⟩
  · have hr : Spec.Represents (realVec (xiF ρ)) (xiF ρ) := .inr (.inr ⟨hp, rfl, by rw [e1, ← hS]; exact h⟩)
    rw [C64_formula hr a ha]
    simp only [Except.bind]
    push_cast
    rfl
  · have hc : castToPdf (realVec (xiF ρ)) = .ok ⟨_, fun k => xiF ρ k ^ 2⟩ := c2 h h'
    split_ifs with h1
    · subst h1
      rw [((C129_shannon_partial hc).1 fun _ => sq_nonneg _).1]
      have en : normalised (fun k => xiF ρ k ^ 2) = fun k => xiF ρ k ^ 2 / S := by
        funext k
        rw [normalised, hS]
      rw [en]
      simp only [Except.bind]
      rw [← EReal.coe_sub]
    · rw [(C129_renyi hc a ha h1).2]
      have es : ∑ k, |xiF ρ k ^ 2| = S := by
        rw [hS]
        exact Finset.sum_congr rfl fun k _ => abs_of_nonneg (sq_nonneg (xiF ρ k))
      have en : absNormalised (fun k => xiF ρ k ^ 2) = fun k => xiF ρ k ^ 2 / S := by
        funext k
        rw [absNormalised, es, abs_of_nonneg (sq_nonneg (xiF ρ k))]
      rw [en, es]
      simp only [Except.bind]
      rw [← EReal.coe_sub]
  · have hc : castToPdf (realVec (xiF ρ)) = .error .assertionError := c3 h h'
    rw [renyiEntropy, hc]
    rfl

/-- C157. The same at infinite order. -/
theorem C157_outcome_inf (hn : 1 ≤ n) (hx : Spec.IsState x ρ) (hm : ρ ≠ (1 / 2 ^ n : ℂ) • (1 : Op (2 ^ n)))
    (xi : Fin (4 ^ n) → ℝ)
    (hxi : ∀ k, xi k = ((Spec.pauliString (Spec.digit 4 n k) * ρ).trace).re ^ 2 / (2 ^ n * ((ρ * ρ).trace).re))
    (S : ℝ) (hS : S = ∑ k, xi k ^ 2) :
    (1e-8 + 1e-5 < 1 - Real.sqrt S → sre x .inf = .ok ((Real.log ((ρ * ρ).trace).re : ℝ) : EReal)) ∧
    (1 - Real.sqrt S ≤ 1e-8 + 1e-5 → 1 - S ≤ 1e-8 + 1e-5 * S →
      sre x .inf = .ok ((n * Real.log 2 + 2 * Real.log ((ρ * ρ).trace).re : ℝ) : EReal)) ∧
    (1 - Real.sqrt S ≤ 1e-8 + 1e-5 → 1e-8 + 1e-5 * S < 1 - S → sre x .inf = .error .assertionError) := by
  have h2 := (state_cast hx).2
  obtain rfl : xi = xiF ρ := funext hxi
  have hp := xiF_prob h2
  obtain ⟨e1, e2⟩ := sq_range hp
  obtain ⟨c1, c2, c3⟩ := C17_outcome _ (xiF ρ) hp
  rw [e1, ← hS] at c1
  rw [e1, e2, ← hS] at c2 c3
  rw [sre_of_cast hn hx hm]
  refine ⟨fun h => ?_, fun h h' => ?_, fun h h' => ?_⟩
  · have hr : Spec.Represents (realVec (xiF ρ)) (xiF ρ) := .inr (.inr ⟨hp, rfl, by rw [e1, ← hS]; exact h⟩)
    rw [C64_inf hr _ (xiF_max h2)]
    simp only [Except.bind]
    rw [← EReal.coe_sub, log_inv_purity h2, add_sub_cancel_left]
  · have hc : castToPdf (realVec (xiF ρ)) = .ok ⟨_, fun k => xiF ρ k ^ 2⟩ := c2 h h'
    obtain ⟨m, hmax, hm0, hv⟩ := C129_renyi_inf hc
    rw [hv]
    simp only [Except.bind]
    rw [← EReal.coe_sub]
    obtain ⟨⟨i, hi⟩, hle⟩ := xiF_max h2
    have hmv : m = (1 / (2 ^ n * ((ρ * ρ).trace).re)) ^ 2 := by
      obtain ⟨⟨j, hj⟩, hle'⟩ := hmax
      refine le_antisymm ?_ ?_
      · rw [← hj]
        exact pow_le_pow_left₀ (hp.nonneg j) (hle j) 2
      · have : xiF ρ i ^ 2 ≤ m := hle' i
        rwa [hi] at this
    have hl := log_inv_purity h2
    rw [hmv, Real.log_pow]
    congr 2
    push_cast
    linarith
  · have hc : castToPdf (realVec (xiF ρ)) = .error .assertionError := c3 h h'
    rw [renyiEntropy, hc]
    rfl

/-- C157. So the documented value is returned for every state of normalised purity at least 1.00003, and AssertionError is
raised for no state of normalised purity below 1.000005. -/
theorem C157_purity_partial (hn : 1 ≤ n) (hx : Spec.IsState x ρ) (xi : Fin (4 ^ n) → ℝ)
    (hxi : ∀ k, xi k = ((Spec.pauliString (Spec.digit 4 n k) * ρ).trace).re ^ 2 / (2 ^ n * ((ρ * ρ).trace).re))
    (a : ℝ) (ha : 0 ≤ a) :
    (1.00003 ≤ 2 ^ n * ((ρ * ρ).trace).re →
      sre x (.num a) = .ok ((Spec.renyi xi a - n * Real.log 2 : ℝ) : EReal)) ∧
    (2 ^ n * ((ρ * ρ).trace).re ≤ 1.000005 → ∃ v : ℝ, sre x (.num a) = .ok (v : EReal)) := by
  have h2 := (state_cast hx).2
  refine ⟨fun h => C63_value hn hx (by norm_num at h ⊢; exact h) xi hxi a ha, fun h => ?_⟩
  by_cases hm : ρ = (1 / 2 ^ n : ℂ) • (1 : Op (2 ^ n))
  · subst hm
    exact ⟨0, C63_maximally_mixed hn hx _⟩
  obtain ⟨c1, c2, -⟩ := C157_outcome hn hx hm xi hxi _ rfl a ha
  obtain rfl : xi = xiF ρ := funext hxi
  by_cases h3 : 1e-8 + 1e-5 < 1 - Real.sqrt (∑ k, xiF ρ k ^ 2)
  · exact ⟨_, c1 h3⟩
  · refine ⟨_, c2 (not_lt.1 h3) ?_⟩
    have hpos : 0 < 2 ^ n * ((ρ * ρ).trace).re := mul_pos (by positivity) (purity_pos h2)
    obtain ⟨⟨i, hi⟩, -⟩ := xiF_max h2
    have h4 : xiF ρ i ^ 2 ≤ ∑ k, xiF ρ k ^ 2 :=
      Finset.single_le_sum (f := fun k => xiF ρ k ^ 2) (fun k _ => sq_nonneg _) (Finset.mem_univ i)
    have h5 : 1 / 1.000005 ≤ xiF ρ i := by
      rw [hi]
      exact one_div_le_one_div_of_le hpos h
    have h6 : (1 / 1.000005 : ℝ) ^ 2 ≤ xiF ρ i ^ 2 := pow_le_pow_left₀ (by norm_num) h5 2
    norm_num at h6 ⊢
    linarith

/-! ### a qubit with the expectation value `<Z> = 0.0027` -/

/-- The state `diag((1 + z) / 2, (1 - z) / 2)` of a qubit. -/
noncomputable def biased (z : ℝ) : Op (2 ^ 1) := diagonal ![((1 + z) / 2 : ℂ), (1 - z) / 2]

theorem biased_density {z : ℝ} (h : |z| ≤ 1) : Spec.IsDensity (biased z) := by
  obtain ⟨h1, h2⟩ := abs_le.1 h
  constructor
  · refine PosSemidef.diagonal fun i => ?_
    have e : ∀ r : ℝ, 0 ≤ r → (0 : ℂ) ≤ (r : ℂ) := fun r hr => by exact_mod_cast hr
    fin_cases i
    · have := e ((1 + z) / 2) (by linarith)
      push_cast at this
      exact this
    · have := e ((1 - z) / 2) (by linarith)
      push_cast at this
      exact this
  · change (diagonal ![((1 + z) / 2 : ℂ), (1 - z) / 2]).trace = 1
    rw [trace_diagonal]
    change ∑ i : Fin 2, _ = _
    rw [Fin.sum_univ_two]
    simp only [Matrix.cons_val_zero, Matrix.cons_val_one]
    ring

theorem biased_purity (z : ℝ) : ((biased z * biased z).trace).re = (1 + z ^ 2) / 2 := by
  have : (biased z * biased z).trace = (((1 + z ^ 2) / 2 : ℝ) : ℂ) := by
    rw [biased, diagonal_mul_diagonal, trace_diagonal]
    change ∑ i : Fin 2, _ = _
    rw [Fin.sum_univ_two]
    simp only [Matrix.cons_val_zero, Matrix.cons_val_one]
    push_cast
    ring
  rw [this, Complex.ofReal_re]

theorem biased_exp (z : ℝ) (w : Fin 1 → Fin 4) :
    ((Spec.pauliString w * biased z).trace).re = if w 0 = 0 then 1 else if w 0 = 3 then z else 0 := by
  rw [pauliString_one]
  generalize w 0 = a
  have : ∀ A : Op 2, (A * (biased z : Op 2)).trace = A 0 0 * ((1 + z) / 2) + A 1 1 * ((1 - z) / 2) := by
    intro A
    rw [trace, Fin.sum_univ_two, diag_apply, diag_apply]
    change (A * diagonal ![((1 + z) / 2 : ℂ), (1 - z) / 2]) 0 0 + (A * diagonal ![((1 + z) / 2 : ℂ), (1 - z) / 2]) 1 1 = _
    rw [mul_diagonal, mul_diagonal]
    rfl
  rw [show ((Spec.pauli a : Op (2 ^ 1)) * biased z).trace = _ from this _]
  fin_cases a <;> simp [Spec.pauli]
  all_goals ring_nf

theorem biased_not_mixed {z : ℝ} (h : z ≠ 0) : biased z ≠ (1 / 2 ^ 1 : ℂ) • (1 : Op (2 ^ 1)) := by
  intro e
  have := biased_exp z fun _ => 3
  rw [e, pauliString_one] at this
  rw [Matrix.mul_smul, mul_one, trace_smul] at this
  simp [Spec.pauli, trace, Fin.sum_univ_two] at this
  exact h this.symm

theorem digit_one (k : Fin (4 ^ 1)) : Spec.digit 4 1 k 0 = k := Fin.ext (by simp [Spec.digit, Fin.ofNat])

/-- C157 is violated: `SRE` raises AssertionError, at every order, for the qubit state `diag(0.50135, 0.49865)`. -/
theorem C157_violation : ∃ (x : Arr) (ρ : Op (2 ^ 1)), Spec.IsState x ρ ∧
    (∀ a : ℝ, 0 ≤ a → sre x (.num a) = .error .assertionError) ∧ sre x .inf = .error .assertionError := by
  have hs : Spec.IsState (.mat _ _ (biased 0.0027)) (biased 0.0027) := mat_state (biased_density (by norm_num [abs_le]))
  have hm := biased_not_mixed (z := 0.0027) (by norm_num)
  obtain ⟨xi, hxi⟩ : ∃ xi : Fin (4 ^ 1) → ℝ, ∀ k, xi k = ((Spec.pauliString (Spec.digit 4 1 k) * biased 0.0027).trace).re ^ 2 /
      (2 ^ 1 * ((biased 0.0027 * biased 0.0027).trace).re) := ⟨_, fun _ => rfl⟩
  have hS : ∑ k, xi k ^ 2 = (1 + 0.0027 ^ 4) / (1 + 0.0027 ^ 2) ^ 2 := by
    simp only [hxi, biased_exp, biased_purity, digit_one]
    change ∑ k : Fin 4, _ = _
    rw [Fin.sum_univ_four, if_pos rfl, if_neg (by decide), if_neg (by decide), if_neg (by decide), if_neg (by decide),
      if_neg (by decide), if_pos rfl]
    norm_num
  have h1 : 1 - Real.sqrt (∑ k, xi k ^ 2) ≤ 1e-8 + 1e-5 := by
    have : (1 - 1.001e-5 : ℝ) ≤ Real.sqrt (∑ k, xi k ^ 2) := by
      refine Real.le_sqrt_of_sq_le ?_
      rw [hS]
      norm_num
    norm_num at this ⊢
    linarith
  have h2 : 1e-8 + 1e-5 * (∑ k, xi k ^ 2) < 1 - ∑ k, xi k ^ 2 := by
    rw [hS]
    norm_num
  exact ⟨_, _, hs, fun a ha => (C157_outcome le_rfl hs hm xi hxi _ rfl a ha).2.2 h1 h2,
    (C157_outcome_inf le_rfl hs hm xi hxi _ rfl).2.2 h1 h2⟩

/-- The other two cases of `C157_outcome` occur, too: for `<Z> = 0.001` the sum of the squares is within the tolerance of one,
for `<Z> = 0.5` its square root is not. -/
example : biased 0.001 ≠ (1 / 2 ^ 1 : ℂ) • (1 : Op (2 ^ 1)) ∧ 2 ^ 1 * ((biased 0.001 * biased 0.001).trace).re ≤ 1.000005 ∧
    1.00003 ≤ 2 ^ 1 * ((biased 0.5 * biased 0.5).trace).re := by
  rw [biased_purity, biased_purity]
  exact ⟨biased_not_mixed (by norm_num), by norm_num, by norm_num⟩

end FF.Props
