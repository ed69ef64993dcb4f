import Verif.Proofs.MachineSum

/-! # C133: rounding errors of the distances, `linear_entropy` and the partial traces -/

namespace FF.Props

open Spec

/-- The loop `s = 0; for i in range(n): s += v[i]`. -/
def loopOrder {ι : Type} (l : List ι) : SumTree ι := l.foldl (fun t i => .node t (.leaf i)) .zero

theorem loopOrder_spec {ι : Type} (l : List ι) : (loopOrder l).leaves = l ∧ (loopOrder l).depth = l.length := by
  have key : ∀ t : SumTree ι, (l.foldl (fun t i => .node t (.leaf i)) t).leaves = t.leaves ++ l ∧
      (l.foldl (fun t i => .node t (.leaf i)) t).depth = t.depth + l.length := by
    induction l with
    | nil => intro t; simp
    | cons a l ih =>
      intro t
      rw [List.foldl_cons]
      obtain ⟨h1, h2⟩ := ih (.node t (.leaf a))
      exact ⟨by rw [h1]; simp [SumTree.leaves], by rw [h2]; simp [SumTree.depth]; omega⟩
  simpa [loopOrder, SumTree.leaves, SumTree.depth] using key .zero

/-- The loop from the left is a summation order, for every length. -/
theorem loopOrder_ok (n : ℕ) : IsSumOrder (loopOrder (List.finRange n)) := by
  obtain ⟨h1, h2⟩ := loopOrder_spec (List.finRange n)
  exact ⟨by rw [h1], by rw [h2]; simp⟩

/-- So is pairwise summation of four numbers. -/
example : IsSumOrder (n := 4) (.node (.node (.leaf 0) (.leaf 1)) (.node (.leaf 2) (.leaf 3))) := ⟨by decide, by decide⟩

/-- C133: the computed total variation distance is the exact one up to a relative error of `(1 + 2⁻⁵³)^(n+2) - 1`, in whatever order
numpy adds up. In particular the distance of two equal lists is computed as zero. -/
theorem C133_tvd {n : ℕ} {t : SumTree (Fin n)} (ht : IsSumOrder t) (p q : Fin n → ℝ) :
    |tvdFloat t p q - 1 / 2 * (∑ i, |p i - q i|)| ≤ ((1 + 2⁻¹ ^ 53) ^ (n + 2) - 1) * (1 / 2 * ∑ i, |p i - q i|) := by
  have := (tvdFloat_near ht p q).err
  rwa [show (0.5 : ℝ) = 1 / 2 by norm_num] at this

/-- C133: for at most three million entries the error of the distance is at most `10⁻⁹` times the distance. -/
theorem C133_tvd_small {n : ℕ} (hn : n ≤ 3000000) {t : SumTree (Fin n)} (ht : IsSumOrder t) (p q : Fin n → ℝ) :
    |tvdFloat t p q - 1 / 2 * (∑ i, |p i - q i|)| ≤ 10⁻¹ ^ 9 * (1 / 2 * ∑ i, |p i - q i|) :=
  (C133_tvd ht p q).trans (mul_le_mul_of_nonneg_right (pow_ulp_le (by omega))
    (mul_nonneg (by norm_num) (Finset.sum_nonneg fun _ _ => abs_nonneg _)))

example : IsSumOrder (loopOrder (List.finRange 16)) ∧ 16 ≤ 3000000 := ⟨loopOrder_ok 16, by norm_num⟩

example : tvdFloat (loopOrder (List.finRange 3)) ![1 / 2, 1 / 3, 1 / 6] ![1 / 2, 1 / 3, 1 / 6] = 0 := by
  have := C133_tvd (loopOrder_ok 3) ![1 / 2, 1 / 3, 1 / 6] ![1 / 2, 1 / 3, 1 / 6]
  simpa using this

/-- C133: the computed Bhattacharyya coefficient of two lists without negative entries is the exact one up to the same relative error. -/
theorem C133_bhattacharyya {n : ℕ} {t : SumTree (Fin n)} (ht : IsSumOrder t) (p q : Fin n → ℝ) (hp : ∀ i, 0 ≤ p i) (hq : ∀ i, 0 ≤ q i) :
    |bhattacharyyaFloat t p q - ∑ i, Real.sqrt (p i * q i)| ≤ ((1 + 2⁻¹ ^ 53) ^ (n + 2) - 1) * ∑ i, Real.sqrt (p i * q i) :=
  (bhattacharyyaFloat_near ht p q hp hq).err

example : ∀ i, (0 : ℝ) ≤ (![1 / 2, 1 / 3, 1 / 6] : Fin 3 → ℝ) i := fun i => by fin_cases i <;> norm_num

/-- C133: the two values that `linear_entropy` computes. The error is relative to `1 + ∑ p²`, not to the linear entropy: for a nearly pure
distribution the leading digits cancel. -/
theorem C133_linear_entropy {n : ℕ} {t : SumTree (Fin n)} (ht : IsSumOrder t) (fused : Fin n → Bool) (p : Fin n → ℝ) :
    |linearEntropyFloat t fused p - (1 - ∑ i, p i ^ 2)| ≤ ((1 + 2⁻¹ ^ 53) ^ (2 * n + 6) - 1) * (1 + ∑ i, p i ^ 2) ∧
    |linearEntropyAltFloat t p - (1 - ∑ i, p i ^ 2)| ≤ ((1 + 2⁻¹ ^ 53) ^ (n + 2) - 1) * (1 + ∑ i, p i ^ 2) :=
  ⟨(linearEntropyFloat_near ht fused p).err, (linearEntropyAltFloat_near ht p).err⟩

/-- C133: rounding never makes `linear_entropy` fail: for an accepted input with at most a million entries it raises exactly when the
function with exact arithmetic raises, and otherwise the two results differ by at most `5·10⁻⁹`. -/
theorem C133_linear_entropy_assertion {x : Arr} {d : ℕ} {p : Fin d → ℝ} (hx : castToPdf x = .ok ⟨d, p⟩) (hd : d ≤ 1000000)
    {t t' : (n : ℕ) → SumTree (Fin n)} (fused : (n : ℕ) → Fin n → Bool) (ht : ∀ n, IsSumOrder (t n)) (ht' : ∀ n, IsSumOrder (t' n)) :
    (∃ v w, linearEntropy x = .ok w ∧ linearEntropyF t t' fused x = .ok v ∧ |v - w| ≤ 5e-9) ∨
    (linearEntropy x = .error .assertionError ∧ linearEntropyF t t' fused x = .error .assertionError) := by
  classical
  have h := linearEntropyF_eq hx hd fused (ht d) (ht' d)
  by_cases hc : isclose ((Real.sqrt d - (⌊Real.sqrt d⌋₊ : ℝ) : ℝ) : ℂ) 0
  · exact Or.inl (h.1 hc)
  · exact Or.inr (h.2 hc)

/-- The hypotheses hold, for the uniform distribution on four outcomes. -/
example : (∃ x, castToPdf x = .ok ⟨4, fun _ => 1 / 4⟩) ∧ 4 ≤ 1000000 ∧ ∀ n, IsSumOrder (loopOrder (List.finRange n)) :=
  ⟨accepted_cast (p := fun _ : Fin 4 => 1 / 4) (by norm_num) (fun _ => by norm_num), by norm_num, loopOrder_ok⟩

/-- C133: every entry of `partial_trace_over_1` is the sum over the first factor up to a relative error of `(1 + 2⁻⁵³)^a - 1` (`a` summands),
relative to the sum of the absolute values, separately for real and imaginary parts. -/
theorem C133_partial_trace_1 {a b : ℕ} (hb : b ≠ 0) (AB : Matrix (Fin (a * b)) (Fin (a * b)) ℂ) :
    ∃ R, partialTraceOver1Float AB b = .ok R ∧ ∀ x y,
      |(R x y).re - (∑ j : Fin a, AB (finProdFinEquiv (j, x)) (finProdFinEquiv (j, y))).re| ≤
        ((1 + 2⁻¹ ^ 53) ^ a - 1) * ∑ j : Fin a, |(AB (finProdFinEquiv (j, x)) (finProdFinEquiv (j, y))).re| ∧
      |(R x y).im - (∑ j : Fin a, AB (finProdFinEquiv (j, x)) (finProdFinEquiv (j, y))).im| ≤
        ((1 + 2⁻¹ ^ 53) ^ a - 1) * ∑ j : Fin a, |(AB (finProdFinEquiv (j, x)) (finProdFinEquiv (j, y))).im| :=
  over1Float hb AB

/-- C133: the same for `partial_trace_over_2`; its cast to real may add `10⁻⁸` to the error of the imaginary part. -/
theorem C133_partial_trace_2 {a b : ℕ} (ha : a ≠ 0) (AB : Matrix (Fin (a * b)) (Fin (a * b)) ℂ) (t : (k : ℕ) → SumTree (Fin k))
    (ht : ∀ k, IsSumOrder (t k)) :
    ∃ R, partialTraceOver2Float t AB a = .ok R ∧ ∀ x y,
      |(R x y).re - (∑ k : Fin b, AB (finProdFinEquiv (x, k)) (finProdFinEquiv (y, k))).re| ≤
        ((1 + 2⁻¹ ^ 53) ^ b - 1) * ∑ k : Fin b, |(AB (finProdFinEquiv (x, k)) (finProdFinEquiv (y, k))).re| ∧
      |(R x y).im - (∑ k : Fin b, AB (finProdFinEquiv (x, k)) (finProdFinEquiv (y, k))).im| ≤
        1e-8 + ((1 + 2⁻¹ ^ 53) ^ b - 1) * ∑ k : Fin b, |(AB (finProdFinEquiv (x, k)) (finProdFinEquiv (y, k))).im| :=
  over2Float ha AB t (ht b)

/-- A 4×4 array as a pair of qubits meets the hypotheses. -/
example : ∃ R, partialTraceOver1Float (D := 2 * 2) (fun i j => (i : ℂ) + j) 2 = .ok R :=
  let ⟨R, h, _⟩ := C133_partial_trace_1 (a := 2) (b := 2) (by norm_num) (fun i j => (i : ℂ) + j)
  ⟨R, h⟩

/-- C133: when a dimension does not divide the array, rounding changes nothing: the functions raise what the exact functions raise. -/
theorem C133_partial_trace_errors {D : ℕ} (AB : Matrix (Fin D) (Fin D) ℂ) (d : ℕ) (t : (k : ℕ) → SumTree (Fin k)) (e : PyErr) :
    (partialTraceOver1Float AB d = .error e ↔ partialTraceOver1 AB d = .error e) ∧
    (partialTraceOver2Float t AB d = .error e ↔ partialTraceOver2 AB d = .error e) := by
  rw [partialTraceOver1Float, partialTraceOver1, partialTraceOver2Float, partialTraceOver2]
  cases blockCount D d with
  | error e' => exact ⟨Iff.rfl, Iff.rfl⟩
  | ok q =>
    simp only [bind, Except.bind]
    refine ⟨by simp, ?_⟩
    split_ifs <;> simp

end FF.Props
