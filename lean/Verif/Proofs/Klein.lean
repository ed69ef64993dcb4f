import Verif.Proofs.Lipschitz
import Verif.Proofs.GaussSpectrum2
import Verif.Proofs.Info
import Verif.Spec.Plot

/-! # Proofs: Klein's inequality and the states of largest entropy -/

namespace FF

open Matrix Finset
open scoped ComplexOrder

variable {N : ℕ}

/-- Gibbs' inequality for one pair of numbers. -/
theorem gibbs_point {a s : ℝ} (ha : 0 ≤ a) (hs : 0 ≤ s) (h : s = 0 → a = 0) :
    a - s ≤ a * Real.log a - a * Real.log s ∧ (a - s = a * Real.log a - a * Real.log s → a = s) := by
  rcases ha.eq_or_lt with rfl | ha
  · refine ⟨by simpa using hs, fun e => ?_⟩
    simp at e
    exact e.symm
  · have hs : 0 < s := lt_of_le_of_ne hs fun e => ha.ne' (h e.symm)
    have e : Real.log (s / a) = Real.log s - Real.log a := Real.log_div hs.ne' ha.ne'
    have k : a * (s / a - 1) = s - a := by field_simp
    refine ⟨?_, fun e' => ?_⟩
    · have := mul_le_mul_of_nonneg_left (Real.log_le_sub_one_of_pos (div_pos hs ha)) ha.le
      rw [e, k] at this
      linarith
    · by_contra hne
      have h1 : s / a ≠ 1 := fun h' => hne (by rw [div_eq_one_iff_eq ha.ne'] at h'; exact h'.symm)
      have := mul_lt_mul_of_pos_left (Real.log_lt_sub_one_of_pos (div_pos hs ha) h1) ha
      rw [e, k] at this
      linarith

theorem unitary_rows {W : Op N} (hW : W * Wᴴ = 1) (x : Fin N) : ∑ i, ‖W x i‖ ^ 2 = 1 := by
  have h := congrFun (congrFun hW x) x
  rw [mul_apply, one_apply_eq] at h
  have : ((∑ i, ‖W x i‖ ^ 2 : ℝ) : ℂ) = 1 := by
    rw [← h]
    push_cast
    refine sum_congr rfl fun i _ => ?_
    rw [conjTranspose_apply, Complex.star_def, Complex.mul_conj, Complex.normSq_eq_norm_sq]
    push_cast; rfl
  exact_mod_cast this

theorem unitary_cols {W : Op N} (hW : W * Wᴴ = 1) (i : Fin N) : ∑ x, ‖W x i‖ ^ 2 = 1 := by
  have := unitary_rows (W := Wᴴ) (by rw [conjTranspose_conjTranspose]; exact mul_eq_one_comm.1 hW) i
  simpa [conjTranspose_apply] using this

theorem conj_diag_entry (W : Op N) (l : Fin N → ℝ) (x : Fin N) :
    (W * diagonal (fun i => ((l i : ℝ) : ℂ)) * Wᴴ) x x = ((∑ i, ‖W x i‖ ^ 2 * l i : ℝ) : ℂ) := by
  rw [mul_apply]
  push_cast
  refine sum_congr rfl fun i _ => ?_
  have : W x i * star (W x i) = ((‖W x i‖ ^ 2 : ℝ) : ℂ) := by
    rw [Complex.star_def, Complex.mul_conj, Complex.normSq_eq_norm_sq]
  rw [mul_diagonal, conjTranspose_apply, mul_right_comm, this]
  push_cast; rfl

/-- Klein's inequality in the eigenbasis of the second state. -/
theorem klein_basis {W : Op N} (hW : W * Wᴴ = 1) {l s q : Fin N → ℝ} (hl : Spec.IsProb l) (hs : Spec.IsProb s)
    (hq : ∀ x, q x = ∑ i, ‖W x i‖ ^ 2 * l i) (h0 : ∀ x, s x = 0 → q x = 0) :
    -∑ i, l i * Real.log (l i) ≤ -∑ x, q x * Real.log (s x) ∧
      (-∑ i, l i * Real.log (l i) = -∑ x, q x * Real.log (s x) ↔
        W * diagonal (fun i => ((l i : ℝ) : ℂ)) * Wᴴ = diagonal fun x => ((s x : ℝ) : ℂ)) := by
  have hz : ∀ x, s x = 0 → ∀ i, ‖W x i‖ ^ 2 * l i = 0 := fun x hx i =>
    (sum_eq_zero_iff_of_nonneg fun i _ => mul_nonneg (by positivity) (hl.nonneg i)).1 ((hq x).symm.trans (h0 x hx)) i (mem_univ i)
  have hpt : ∀ x i, ‖W x i‖ ^ 2 * (l i - s x) ≤ ‖W x i‖ ^ 2 * (l i * Real.log (l i) - l i * Real.log (s x)) ∧
      (‖W x i‖ ^ 2 * (l i - s x) = ‖W x i‖ ^ 2 * (l i * Real.log (l i) - l i * Real.log (s x)) → W x i = 0 ∨ l i = s x) := fun x i => by
    by_cases hw : W x i = 0
    · rw [hw]; simp
    · have hw2 : 0 < ‖W x i‖ ^ 2 := by positivity
      have h := gibbs_point (hl.nonneg i) (hs.nonneg x) fun e => (mul_eq_zero.1 (hz x e i)).resolve_left hw2.ne'
      exact ⟨mul_le_mul_of_nonneg_left h.1 hw2.le, fun e => .inr (h.2 (mul_left_cancel₀ hw2.ne' e))⟩
  have s1 : ∑ x, ∑ i, ‖W x i‖ ^ 2 * (l i - s x) = 0 := by
    simp only [mul_sub, sum_sub_distrib]
    rw [sum_comm]
    simp only [← sum_mul, unitary_rows hW, unitary_cols hW, one_mul, hl.sum_one, hs.sum_one, sub_self]
  have s2 : ∑ x, ∑ i, ‖W x i‖ ^ 2 * (l i * Real.log (l i) - l i * Real.log (s x)) =
      ∑ i, l i * Real.log (l i) - ∑ x, q x * Real.log (s x) := by
    simp only [mul_sub, sum_sub_distrib]
    rw [sum_comm]
    simp only [← sum_mul, unitary_cols hW, one_mul, hq, ← mul_assoc]
  have hle : ∑ x, ∑ i, ‖W x i‖ ^ 2 * (l i - s x) ≤ ∑ x, ∑ i, ‖W x i‖ ^ 2 * (l i * Real.log (l i) - l i * Real.log (s x)) :=
    sum_le_sum fun x _ => sum_le_sum fun i _ => (hpt x i).1
  refine ⟨by rw [s1, s2] at hle; linarith, fun e => ?_, fun e => ?_⟩
  · have heq : ∑ x, ∑ i, ‖W x i‖ ^ 2 * (l i - s x) = ∑ x, ∑ i, ‖W x i‖ ^ 2 * (l i * Real.log (l i) - l i * Real.log (s x)) := by
      rw [s1, s2]; linarith
    have h1 := (sum_eq_sum_iff_of_le fun x _ => sum_le_sum fun i _ => (hpt x i).1).1 heq
    have h2 : ∀ x i, W x i * ((l i : ℝ) : ℂ) = ((s x : ℝ) : ℂ) * W x i := fun x i => by
      have := (sum_eq_sum_iff_of_le fun i _ => (hpt x i).1).1 (h1 x (mem_univ x)) i (mem_univ i)
      rcases (hpt x i).2 this with h | h
      · rw [h]; ring
      · rw [h]; ring
    have h3 : W * diagonal (fun i => ((l i : ℝ) : ℂ)) = diagonal (fun x => ((s x : ℝ) : ℂ)) * W := by
      ext x i
      rw [mul_diagonal, diagonal_mul, h2]
    rw [h3, Matrix.mul_assoc, hW, mul_one]
  · have h3 : W * diagonal (fun i => ((l i : ℝ) : ℂ)) = diagonal (fun x => ((s x : ℝ) : ℂ)) * W := by
      rw [← e, Matrix.mul_assoc, mul_eq_one_comm.1 hW, mul_one]
    have h2 : ∀ x i, W x i = 0 ∨ l i = s x := fun x i => by
      have := congrFun (congrFun h3 x) i
      rw [mul_diagonal, diagonal_mul, mul_comm] at this
      by_cases hw : W x i = 0
      · exact .inl hw
      · exact .inr (by exact_mod_cast mul_right_cancel₀ hw this)
    have : ∑ x, ∑ i, ‖W x i‖ ^ 2 * (l i - s x) = ∑ x, ∑ i, ‖W x i‖ ^ 2 * (l i * Real.log (l i) - l i * Real.log (s x)) :=
      sum_congr rfl fun x _ => sum_congr rfl fun i _ => by
        rcases h2 x i with h | h
        · rw [h]; simp
        · rw [h]; simp
    rw [s1, s2] at this
    linarith

/-- A Hermitian matrix in terms of any list of its eigenvalues. -/
theorem spectrum_basis {ρ : Op N} (hρ : ρ.IsHermitian) {l : Fin N → ℝ} (hl : Spec.IsSpectrum ρ l) :
    ∃ Y : Op N, Y * Yᴴ = 1 ∧ ρ = Y * diagonal (fun i => ((l i : ℝ) : ℂ)) * Yᴴ := by
  obtain ⟨U, d, hU, hd⟩ := diag_of_herm hρ
  have hc : ρ.charpoly = ∏ i, (Polynomial.X - Polynomial.C ((d i : ℝ) : ℂ)) := by
    rw [hd, charpoly_unitary hU, charpoly_diagonal]
  obtain ⟨π, hπ⟩ := same_roots (hl.2.symm.trans hc)
  refine ⟨U.submatrix id π, ?_, ?_⟩
  · rw [conjTranspose_submatrix, submatrix_mul_equiv, hU, submatrix_id_id]
  · have : diagonal (fun i => ((l i : ℝ) : ℂ)) = (diagonal fun i => ((d i : ℝ) : ℂ)).submatrix π π := by
      rw [submatrix_diagonal_equiv]
      congr 1
      funext i
      simp [hπ i]
    rw [this, conjTranspose_submatrix, submatrix_mul_equiv, submatrix_mul_equiv, submatrix_id_id, ← hd]

/-- Klein's inequality: the entropy of `ρ` is at most minus the mean of the logarithms of the eigenvalues `s` of another state. -/
theorem klein {ρ V : Op N} (hρ : Spec.IsDensity ρ) (hV : V * Vᴴ = 1) {l s q : Fin N → ℝ} (hl : Spec.IsSpectrum ρ l)
    (hs : Spec.IsProb s) (hq : ∀ x, ((q x : ℝ) : ℂ) = (Vᴴ * ρ * V) x x) (h0 : ∀ x, s x = 0 → q x = 0) :
    Spec.IsProb l ∧ Spec.renyi l 1 ≤ -∑ x, q x * Real.log (s x) ∧
      (Spec.renyi l 1 = -∑ x, q x * Real.log (s x) ↔ ρ = V * diagonal (fun x => ((s x : ℝ) : ℂ)) * Vᴴ) := by
  obtain ⟨Y, hY, hρY⟩ := spectrum_basis hρ.psd.isHermitian hl
  have hV' : Vᴴ * V = 1 := mul_eq_one_comm.1 hV
  have hY' : Yᴴ * Y = 1 := mul_eq_one_comm.1 hY
  have hlp : Spec.IsProb l := by
    refine ⟨fun i => ?_, ?_⟩
    · have h := (hρ.psd.conjTranspose_mul_mul_same Y).diag_nonneg (i := i)
      rw [hρY, show Yᴴ * (Y * diagonal (fun i => ((l i : ℝ) : ℂ)) * Yᴴ) * Y = (Yᴴ * Y) * diagonal (fun i => ((l i : ℝ) : ℂ)) * (Yᴴ * Y) by
        simp only [Matrix.mul_assoc], hY', one_mul, mul_one, diagonal_apply_eq] at h
      exact Complex.zero_le_real.1 h
    · have h := hρ.trace_one
      rw [hρY, trace_mul_comm, ← Matrix.mul_assoc, hY', one_mul, trace_diagonal] at h
      exact_mod_cast h
  have hW : (Vᴴ * Y) * (Vᴴ * Y)ᴴ = 1 := by
    rw [conjTranspose_mul, conjTranspose_conjTranspose, show Vᴴ * Y * (Yᴴ * V) = Vᴴ * (Y * Yᴴ) * V by simp only [Matrix.mul_assoc], hY, mul_one, hV']
  have hWρ : Vᴴ * ρ * V = (Vᴴ * Y) * diagonal (fun i => ((l i : ℝ) : ℂ)) * (Vᴴ * Y)ᴴ := by
    rw [hρY, conjTranspose_mul, conjTranspose_conjTranspose]
    simp only [Matrix.mul_assoc]
  have hk := klein_basis hW hlp hs (q := q) (fun x => by
    have := hq x
    rw [hWρ, conj_diag_entry] at this
    exact_mod_cast this) h0
  rw [Spec.renyi, if_pos rfl]
  refine ⟨hlp, hk.1, hk.2.trans ?_⟩
  rw [← hWρ]
  constructor
  · intro h
    rw [← h, show V * (Vᴴ * ρ * V) * Vᴴ = (V * Vᴴ) * ρ * (V * Vᴴ) by simp only [Matrix.mul_assoc], hV, one_mul, mul_one]
  · intro h
    rw [h, show Vᴴ * (V * diagonal (fun i => ((s i : ℝ) : ℂ)) * Vᴴ) * V = (Vᴴ * V) * diagonal (fun i => ((s i : ℝ) : ℂ)) * (Vᴴ * V) by
        simp only [Matrix.mul_assoc], hV', one_mul, mul_one]

end FF
