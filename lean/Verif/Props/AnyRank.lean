import Verif.Model.AnyRank
import Verif.Props.Info

/-! # Property C130: what happens outside the documented domain

Arrays with no axes or more than two, subsystem dimensions that are not positive, and negative orders. -/

namespace FF.Props

open Finset

/-- A 1-D array. -/
def ofVec {n : ℕ} (v : Fin n → ℂ) : NdArr := ⟨[n], fun l => if h : l.headD 0 < n then v ⟨l.headD 0, h⟩ else 0⟩

/-- A 2-D array. -/
def ofMatrix {m n : ℕ} (A : Matrix (Fin m) (Fin n) ℂ) : NdArr := ⟨[m, n], fun l =>
  if h : l.headD 0 < m ∧ l.tail.headD 0 < n then A ⟨l.headD 0, h.1⟩ ⟨l.tail.headD 0, h.2⟩ else 0⟩

/-- A stack of one matrix: an array of shape `(1, d, d)`. -/
def stackOfOne {d : ℕ} (A : Matrix (Fin d) (Fin d) ℂ) : NdArr := ⟨[1, d, d], fun l =>
  if h : l.tail.headD 0 < d ∧ l.tail.tail.headD 0 < d then A ⟨l.tail.headD 0, h.1⟩ ⟨l.tail.tail.headD 0, h.2⟩ else 0⟩

theorem castVector_congr {n m : ℕ} (e : n = m) (v : Fin n → ℂ) (w : Fin m → ℂ) (h : ∀ i, v i = w (Fin.cast e i)) :
    castVector v = castVector w := by
  subst e
  exact congrArg castVector (funext h)

/-- C130. For 1-D and 2-D arrays the model agrees with that of the other properties. -/
theorem C130_agrees : (∀ (n : ℕ) (v : Fin n → ℂ), castToDensityMatrixN (ofVec v) = castToDensityMatrix (.vec n v)) ∧
    ∀ (m n : ℕ) (A : Matrix (Fin m) (Fin n) ℂ), castToDensityMatrixN (ofMatrix A) = castToDensityMatrix (.mat m n A) := by
  constructor
  · intro n v
    rw [castToDensityMatrixN, if_pos (by simp [ofVec]), castToDensityMatrix]
    refine castVector_congr (by simp [ofVec]) _ _ fun i => ?_
    have hi : i.val < n := by have := i.2; simpa [ofVec] using this
    simp [NdArr.flatten, ofVec, unravel, hi]
    rfl
  · intro m n A
    have e : minIsOne (ofMatrix A).shape = true ↔ min m n = 1 := by
      simp only [ofMatrix, minIsOne, List.contains_cons, List.contains_nil, Bool.or_false, Bool.and_eq_true, Bool.or_eq_true,
        beq_iff_eq, Bool.not_eq_true', Bool.or_eq_false_iff, beq_eq_false_iff_ne]
      omega
    rw [castToDensityMatrixN, if_neg (by simp [ofMatrix]), if_neg (by simp [ofMatrix]), castToDensityMatrix]
    by_cases h : min m n = 1
    · rw [if_pos h, if_pos (e.2 h)]
      refine castVector_congr (by simp [ofMatrix, Arr.flatten]) _ _ fun i => ?_
      have hi : i.val < m * n := by have := i.2; simpa [ofMatrix] using this
      have hn : 0 < n := by omega
      have h1 : i.val / n < m := by rw [Nat.div_lt_iff_lt_mul hn]; exact hi
      have h2 : i.val % n < n := Nat.mod_lt _ hn
      simp only [NdArr.flatten, ofMatrix, unravel, List.prod_cons, List.prod_nil, mul_one, Nat.div_one, List.headD_cons,
        List.tail_cons, Arr.flatten]
      refine (dif_pos ⟨h1, h2⟩).trans ?_
      rfl
    · rw [if_neg h, if_neg (fun h' => h (e.1 h'))]
      change validateDM _ = _
      congr 1
      ext i j
      simp [ofMatrix]

/-- C130 (proved part). An array with no axes, and an array with three or more axes none of which has length one, is
rejected with ValueError. What is missing: arrays with three or more axes one of which has length one (see
`C130_flattens`). -/
theorem C130_rejects_partial (A : NdArr) (h : A.shape = [] ∨ 3 ≤ A.shape.length ∧ 1 ∉ A.shape) :
    castToDensityMatrixN A = .error .valueError ∧ castToPdfN A = .error .valueError := by
  have key : castToDensityMatrixN A = .error .valueError := by
    obtain ⟨shape, val⟩ := A
    simp only at h
    rcases h with h | ⟨h1, h2⟩
    · subst h
      simp [castToDensityMatrixN]
    · match shape, h1, h2 with
      | a :: b :: c :: s, _, h2 =>
        rw [castToDensityMatrixN, if_neg (by simp), if_neg (by simp), if_neg]
        have : (a :: b :: c :: s).contains 1 = false := by
          rw [Bool.eq_false_iff]
          intro h
          exact h2 (List.contains_iff_mem.1 h)
        simp only [minIsOne]
        rw [this]
        simp
  refine ⟨key, ?_⟩
  rw [castToPdfN, key]
  rfl

/-- C130 is violated: an array with three or more axes, one of length one and none of length zero, is read as the vector
of all its entries. -/
theorem C130_flattens (A : NdArr) (h3 : 3 ≤ A.shape.length) (h1 : 1 ∈ A.shape) (h0 : 0 ∉ A.shape) :
    castToDensityMatrixN A = castToDensityMatrix (.vec A.shape.prod A.flatten) := by
  have hm : minIsOne A.shape = true := by
    simp only [minIsOne, Bool.and_eq_true, Bool.not_eq_true']
    exact ⟨List.contains_iff_mem.2 h1, Bool.eq_false_iff.2 fun h => h0 (List.contains_iff_mem.1 h)⟩
  rw [castToDensityMatrixN, if_neg (by omega), if_neg (by rintro h; rw [h] at h3; simp at h3), if_pos hm]
  rfl

/-- The wavefunction `ψ ⊗ conj ψ`, with numpy's index convention. -/
noncomputable def doubled {d : ℕ} (ψ : Fin d → ℂ) : Fin (d * d) → ℂ := fun k => ψ k.divNat * star (ψ k.modNat)

theorem doubled_unit {d : ℕ} {ψ : Fin d → ℂ} (h : Spec.IsUnitVec ψ) : Spec.IsUnitVec (doubled ψ) := by
  rw [Spec.IsUnitVec] at h ⊢
  have : ∀ k : Fin (d * d), ‖doubled ψ k‖ ^ 2 = ‖ψ k.divNat‖ ^ 2 * ‖ψ k.modNat‖ ^ 2 := fun k => by
    rw [doubled, norm_mul, norm_star, mul_pow]
  simp_rw [this]
  rw [sum_product fun i j => ‖ψ i‖ ^ 2 * ‖ψ j‖ ^ 2]
  simp_rw [← mul_sum, ← sum_mul, h, one_mul]

/-- C130 is violated: a stack of one pure density matrix `|ψ⟩⟨ψ|` (shape `(1, d, d)`) is accepted and becomes the
projector on `ψ ⊗ conj ψ`, a state of dimension `d²`. -/
theorem C130_stack {d : ℕ} (hd : 0 < d) (ψ : Fin d → ℂ) (h : Spec.IsUnitVec ψ) :
    castToDensityMatrixN (stackOfOne (Spec.proj ψ)) = .ok ⟨d * d, Spec.proj (doubled ψ)⟩ := by
  rw [C130_flattens _ (by simp [stackOfOne]) (by simp [stackOfOne]) (by simp [stackOfOne]; omega),
    ← C16_unit_vector _ _ (doubled_unit h)]
  simp only [castToDensityMatrix]
  refine castVector_congr (by simp [stackOfOne]) _ _ fun i => ?_
  have hi : i.val < d * d := by have := i.2; simpa [stackOfOne] using this
  have h1 : i.val / d < d := by rw [Nat.div_lt_iff_lt_mul hd]; exact hi
  have h2 : i.val % d < d := Nat.mod_lt _ hd
  simp only [NdArr.flatten, stackOfOne, unravel, List.prod_cons, List.prod_nil, mul_one, Nat.div_one, List.headD_cons,
    List.tail_cons, one_mul, Nat.mod_eq_of_lt hi]
  refine (dif_pos ⟨h1, h2⟩).trans ?_
  rfl

/-- C130. So `renyi_entropy` of such a stack is twice the entropy of the state, at every order. -/
theorem C130_stack_entropy {d : ℕ} (hd : 0 < d) (ψ : Fin d → ℂ) (h : Spec.IsUnitVec ψ) (o : Order) (ho : OrderOk o) :
    ∃ v : ℝ, renyiEntropy (.vec d ψ) o = .ok (v : EReal) ∧
      renyiEntropyN (stackOfOne (Spec.proj ψ)) o = .ok ((2 * v : ℝ) : EReal) := by
  have e : castToPdfN (stackOfOne (Spec.proj ψ)) = castToPdf (.vec (d * d) (doubled ψ)) := by
    rw [castToPdfN, castToPdf, C130_stack hd ψ h, C16_unit_vector _ _ (doubled_unit h)]
  have hp : Spec.Represents (.vec d ψ) fun i => ‖ψ i‖ ^ 2 := .inl ⟨ψ, h, rfl, fun _ => rfl⟩
  have hq : Spec.Represents (.vec (d * d) (doubled ψ)) (Spec.product (fun i => ‖ψ i‖ ^ 2) fun i => ‖ψ i‖ ^ 2) :=
    .inl ⟨doubled ψ, doubled_unit h, rfl, fun k => by rw [doubled, norm_mul, norm_star, mul_pow]; rfl⟩
  obtain ⟨u, v, h1, h2, h3⟩ := C64_product hp hp hq o ho
  have huv : u = v := by
    rw [h1] at h2
    exact EReal.coe_eq_coe_iff.1 (Except.ok.inj h2)
  subst huv
  refine ⟨u, h1, ?_⟩
  rw [renyiEntropyN, e, two_mul]
  exact h3

/-- C130. Subsystem dimensions: 0 raises ZeroDivisionError, an integer that does not divide the dimension AssertionError, a
negative divisor ValueError; for the other ones the call succeeds. -/
theorem C130_subsystem {D : ℕ} (AB : Matrix (Fin D) (Fin D) ℂ) (d : ℤ) :
    (d = 0 → partialTraceOver1Z AB d = .error .zeroDivisionError ∧ partialTraceOver2Z AB d = .error .zeroDivisionError) ∧
    (d ≠ 0 → ¬ d ∣ D → partialTraceOver1Z AB d = .error .assertionError ∧ partialTraceOver2Z AB d = .error .assertionError) ∧
    (d < 0 → d ∣ D → partialTraceOver1Z AB d = .error .valueError ∧ partialTraceOver2Z AB d = .error .valueError) ∧
    (0 < d → d ∣ D → ∃ (k : ℕ) (A B : Matrix (Fin k) (Fin k) ℂ), (k : ℤ) = d ∧ partialTraceOver1 AB k = .ok A ∧
      partialTraceOver2 AB k = .ok B ∧ partialTraceOver1Z AB d = .ok ⟨k, A⟩ ∧ partialTraceOver2Z AB d = .ok ⟨k, B⟩) := by
  refine ⟨fun h => ?_, fun h h' => ?_, fun h h' => ?_, fun h h' => ?_⟩
  · rw [partialTraceOver1Z, partialTraceOver2Z, if_pos h, if_pos h]; exact ⟨rfl, rfl⟩
  · rw [partialTraceOver1Z, partialTraceOver2Z, if_neg h, if_neg h, if_pos h', if_pos h']; exact ⟨rfl, rfl⟩
  · rw [partialTraceOver1Z, partialTraceOver2Z, if_neg h.ne, if_neg h.ne, if_neg (not_not.2 h'), if_neg (not_not.2 h'),
      if_pos h, if_pos h]
    exact ⟨rfl, rfl⟩
  · obtain ⟨k, rfl⟩ := Int.eq_ofNat_of_zero_le h.le
    have hk : k ≠ 0 := by rintro rfl; simp at h
    have hkD : k ∣ D := by exact_mod_cast h'
    have hb : blockCount D k = .ok (D / k) := by rw [blockCount, if_neg hk, if_neg (not_not.2 hkD)]
    obtain ⟨A, hA⟩ : ∃ A, partialTraceOver1 AB k = .ok A := by
      rw [partialTraceOver1, hb]; exact ⟨_, rfl⟩
    obtain ⟨B, hB⟩ : ∃ B, partialTraceOver2 AB k = .ok B := by
      rw [partialTraceOver2, hb]
      simp only [bind, Except.bind]
      split <;> exact ⟨_, rfl⟩
    refine ⟨k, A, B, rfl, hA, hB, ?_, ?_⟩
    · rw [partialTraceOver1Z, if_neg h.ne', if_neg (not_not.2 h'), if_neg (not_lt.2 h.le), Int.toNat_natCast, hA]; rfl
    · rw [partialTraceOver2Z, if_neg h.ne', if_neg (not_not.2 h'), if_neg (not_lt.2 h.le), Int.toNat_natCast, hB]; rfl

/-- C130 is violated: negative orders are accepted. The result is infinite exactly if some outcome has probability 0; otherwise
it is the number `log (∑ p^a) / (1 - a)`, at least `log d`. -/
theorem C130_negative_order {d : ℕ} {p : Fin d → ℝ} {x : Arr} (hx : Spec.Represents x p) (a : ℝ) (ha : a < 0) :
    ((∃ i, p i = 0) → renyiEntropy x (.num a) = .ok ⊤) ∧
    ((∀ i, p i ≠ 0) → ∃ v : ℝ, renyiEntropy x (.num a) = .ok (v : EReal) ∧ v = Real.log (∑ i, p i ^ a) / (1 - a) ∧
      Real.log d ≤ v) := by
  have hp := (represents_cast hx).2
  rw [renyiEntropy_eq hx, renyiCore_neg hp ha]
  refine ⟨fun h => by rw [if_pos h], fun h => ?_⟩
  have hs : supp p = univ := by ext i; simp [mem_supp, h i]
  refine ⟨Spec.renyi p a, by rw [if_neg (by push Not; exact h)], ?_, ?_⟩
  · rw [renyi_of_ne p (by linarith), powSum, hs]
    ring
  · refine le_trans (le_of_eq ?_) (renyi_anti hp ha.le)
    rw [renyi_zero, hs, card_univ, Fintype.card_fin]

example : (∃ ψ : Fin 2 → ℂ, Spec.IsUnitVec ψ) ∧ Spec.Represents (realVec quarter) quarter ∧ (∀ i, quarter i ≠ 0) ∧
    Spec.Represents (realVec halves) halves ∧ halves 3 = 0 ∧ 1 ∉ [2, 3, 2] := by
  refine ⟨⟨![1, 0], by simp [Spec.IsUnitVec]⟩, quarter_rep.2, fun i => by simp [quarter], halves_rep, ?_, by decide⟩
  simp [halves]

end FF.Props
