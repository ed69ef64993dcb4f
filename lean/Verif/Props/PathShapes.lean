import Verif.Model.PathShapes
import Verif.Props.Paths

/-! # Property C162: paths between vectors of different lengths -/

namespace FF.Props

open Matrix

theorem columnAt_some {k : ℕ} (M : Op k) (i : ℕ) (h : i < k) : columnAt (some M) i = .ok (List.ofFn fun x => M x ⟨i, h⟩) := by
  rw [columnAt]
  simp only [dif_pos h]

theorem reshapeCol_ofFn {N : ℕ} (f : Fin N → ℂ) : reshapeCol (List.ofFn f) N = .ok f := by
  rw [reshapeCol, dif_pos (List.length_ofFn)]
  congr 1
  funext i
  simp

theorem pathUAny_same {n : ℕ} (W V : Op n) (l : List ℕ) (hl : ∀ i ∈ l, i < n) (U : Op n) :
    ∃ U' : Op n, l.foldlM (fun U i => do
      let a ← columnAt (some W) i
      let vIn ← reshapeCol a n
      let b ← columnAt (some V) i
      let vOut ← reshapeCol b n
      pure (U + Matrix.of fun x y => vOut x * star (vIn y))) U = (.ok U' : Except PyErr (Op n)) := by
  induction l generalizing U with
  | nil => exact ⟨U, rfl⟩
  | cons i l ih =>
    have hi := hl i (by simp)
    rw [List.foldlM_cons, columnAt_some W i hi, columnAt_some V i hi]
    simp only [bind, Except.bind, reshapeCol_ofFn]
    exact ih (fun j hj => hl j (by simp [hj])) _

theorem getOrthogonal_some {n : ℕ} (hn : 2 ≤ n) (qr : Op n → Op n × Op n) (x : Fin n → ℂ) :
    ∃ M, getOrthogonalVectors qr x = some M := by
  classical
  rw [getOrthogonalVectors, if_neg (by omega)]
  split
  · exact ⟨_, rfl⟩
  · exact ⟨_, rfl⟩

theorem getOrthogonal_none {n : ℕ} (hn : n < 2) (qr : Op n → Op n × Op n) (x : Fin n → ℂ) :
    getOrthogonalVectors qr x = none := by
  classical
  rw [getOrthogonalVectors, if_pos hn]

section

variable (qr : (d : ℕ) → Op d → Op d × Op d) (svd : (d : ℕ) → Op d → Op d × (Fin d → ℝ) × Op d) (logm : (d : ℕ) → Op d → Op d)

/-- C162. `build_unitary_path` raises ValueError for different lengths from two. -/
theorem C162_unitary_partial (n m : ℕ) (w : Fin n → ℂ) (v : Fin m → ℂ) (hn : 2 ≤ n) (hm : 2 ≤ m) (h : n ≠ m) :
    buildUnitaryPathAny qr svd logm w v = .error .valueError := by
  rw [buildUnitaryPathAny]
  obtain ⟨W, hW⟩ := getOrthogonal_some hn (qr n) (((vnorm w : ℝ) : ℂ)⁻¹ • w)
  obtain ⟨V, hV⟩ := getOrthogonal_some hm (qr m) (((vnorm v : ℝ) : ℂ)⁻¹ • v)
  simp only [hW, hV]
  rw [show max n 1 = n by omega, pathUAny]
  obtain ⟨k, rfl⟩ : ∃ k, n = k + 1 := ⟨n - 1, by omega⟩
  rw [List.range_succ_eq_map, List.foldlM_cons, columnAt_some W 0 (by omega), columnAt_some V 0 (by omega)]
  simp only [bind, Except.bind, reshapeCol_ofFn]
  rw [reshapeCol, dif_neg (by rw [List.length_ofFn]; omega)]

/-- C162. If one of the vectors has length less than two the exception is an IndexError. -/
theorem C162_unitary_short (n m : ℕ) (w : Fin n → ℂ) (v : Fin m → ℂ) (h : n < 2 ∨ m < 2) :
    buildUnitaryPathAny qr svd logm w v = .error .indexError := by
  rw [buildUnitaryPathAny]
  obtain ⟨k, hk⟩ : ∃ k, max n 1 = k + 1 := ⟨max n 1 - 1, by omega⟩
  simp only [pathUAny]
  rw [show List.range (max n 1) = 0 :: (List.range k).map Nat.succ by rw [hk, List.range_succ_eq_map], List.foldlM_cons]
  by_cases hn : n < 2
  · rw [getOrthogonal_none hn]
    rfl
  · have hm : m < 2 := h.resolve_left hn
    obtain ⟨W, hW⟩ := getOrthogonal_some (n := n) (by omega) (qr n) (((vnorm w : ℝ) : ℂ)⁻¹ • w)
    rw [hW, getOrthogonal_none hm, columnAt_some W 0 (by omega)]
    have hl : (List.ofFn fun x : Fin n => W x ⟨0, by omega⟩).length = max n 1 := by rw [List.length_ofFn]; omega
    simp only [bind, Except.bind, reshapeCol, dif_pos hl]
    rfl

/-- C162. For equal lengths the model is that of C60. -/
theorem C162_unitary_same (n : ℕ) (hn : 2 ≤ n) (w v : Fin n → ℂ) :
    buildUnitaryPathAny qr svd logm w v = buildUnitaryPath (qr n) (svd n) (logm n) w v := by
  rw [buildUnitaryPathAny]
  obtain ⟨W, hW⟩ := getOrthogonal_some hn (qr n) (((vnorm w : ℝ) : ℂ)⁻¹ • w)
  obtain ⟨V, hV⟩ := getOrthogonal_some hn (qr n) (((vnorm v : ℝ) : ℂ)⁻¹ • v)
  simp only [hW, hV]
  obtain ⟨U, hU⟩ := pathUAny_same W V (List.range n) (fun i hi => List.mem_range.1 hi) 0
  rw [show max n 1 = n by omega]
  have : pathUAny n (some W) (some V) = .ok U := hU
  rw [this]
  simp only [bind, Except.bind, dif_pos]
  rfl

end

/-- C162. Evaluating the linear path raises exactly if the lengths differ and neither is one; the exception is ValueError. -/
theorem C162_linear_error (n m : ℕ) (w : Fin n → ℂ) (v : Fin m → ℂ) (s : ℝ) :
    ((∃ e, buildLinearPathAny w v s = .error e) ↔ n ≠ m ∧ n ≠ 1 ∧ m ≠ 1) ∧
      (n ≠ m → n ≠ 1 → m ≠ 1 → buildLinearPathAny w v s = .error .valueError) := by
  have h3 : n ≠ m → n ≠ 1 → m ≠ 1 → buildLinearPathAny w v s = .error .valueError := by
    intro h1 h2 h3
    rw [buildLinearPathAny]
    simp only [addCols, dif_neg h1, dif_neg h2, dif_neg h3]
    rfl
  refine ⟨⟨?_, fun h => ⟨_, h3 h.1 h.2.1 h.2.2⟩⟩, h3⟩
  rintro ⟨e, he⟩
  by_contra hc
  rw [buildLinearPathAny] at he
  simp only [addCols] at he
  by_cases h1 : n = m
  · simp only [dif_pos h1] at he
    cases he
  · by_cases h2 : m = 1
    · simp only [dif_neg h1, dif_pos h2] at he
      cases he
    · by_cases h4 : n = 1
      · simp only [dif_neg h1, dif_neg h2, dif_pos h4] at he
        cases he
      · exact hc ⟨h1, h4, h2⟩

/-- C162. For equal lengths the model is that of C61. -/
theorem C162_linear_same (n : ℕ) (w v : Fin n → ℂ) (s : ℝ) :
    buildLinearPathAny w v s = .ok ⟨n, buildLinearPath w v s⟩ := by
  rw [buildLinearPathAny]
  simp only [addCols, dif_pos]
  rfl

/-- C162 is false for a vector of length one: the path from it to a vector of length `n ≥ 2` starts at the vector all of whose
entries are `c/√n`, where `c` is the phase of the number given. -/
theorem C162_violation (n : ℕ) (hn : 2 ≤ n) (c : ℂ) (hc : ‖c‖ = 1) (v : Fin n → ℂ) :
    buildLinearPathAny ![c] v 0 = .ok ⟨n, fun _ => c / (Real.sqrt n : ℝ)⟩ := by
  have hw : vnorm (![c] : Fin 1 → ℂ) = 1 := by simp [vnorm, hc]
  rw [buildLinearPathAny]
  simp only [addCols, dif_neg (show ¬ 1 = n by omega), dif_neg (show ¬ n = 1 by omega), dif_pos, hw]
  have h0 : (fun i : Fin n => (((0 : ℝ) : ℂ) • (((vnorm v : ℝ) : ℂ)⁻¹ • v)) i +
      ((1 - ((0 : ℝ) : ℂ)) • (((1 : ℝ) : ℂ)⁻¹ • (![c] : Fin 1 → ℂ))) ⟨0, by omega⟩) = fun _ => c := by
    funext i
    simp
  have h1 : vnorm (fun _ : Fin n => c) = Real.sqrt n := by simp [vnorm, hc]
  simp only [bind, Except.bind, pure, Except.pure]
  rw [h0, h1]
  congr 2
  funext i
  simp [div_eq_inv_mul]

example : (2 : ℕ) ≤ 3 ∧ (3 : ℕ) ≠ 2 ∧ ‖(Complex.I : ℂ)‖ = 1 ∧ ((1 : ℕ) < 2 ∨ (3 : ℕ) < 2) := by
  refine ⟨by norm_num, by norm_num, by simp, by norm_num⟩

end FF.Props
