import Verif.Proofs.RoundingComplex
import Verif.Props.Machine

/-! # Property C141: rounding errors for complex arrays -/

namespace FF.Props

open Equiv Matrix

/-- C141: with complex floats `dt` and `pt` of every array return a number whose distance to the determinant and to the permanent is bounded
by the sum of the absolute values of the products, times `(1 + 2⁻⁵³)^k - 1`, where `k` is the number of summands plus three times the
number of rows (plus three for the determinant): a complex product counts as three roundings. -/
theorem C141_dt_pt {n : ℕ} (A : Matrix (Fin n) (Fin n) ℂ) :
    (∃ v, dtOn complex128 A = .ok v ∧
      ‖v - A.det‖ ≤ ((1 + 2⁻¹ ^ 53) ^ (n.factorial + 3 * n + 3) - 1) * ∑ σ : Perm (Fin n), ∏ i, ‖A i (σ i)‖) ∧
    (∃ v, ptOn complex128 A = .ok v ∧
      ‖v - ∑ σ : Perm (Fin n), ∏ i, A i (σ i)‖ ≤
        ((1 + 2⁻¹ ^ 53) ^ (n.factorial + 3 * n) - 1) * ∑ σ : Perm (Fin n), ∏ i, ‖A i (σ i)‖) := by
  have e : ∀ {R : Type} [CommRing R] (B : Matrix (Fin n) (Fin n) R), B.permanent = ∑ σ : Perm (Fin n), ∏ i, B i (σ i) := fun B => by
    rw [← permanent_transpose]; rfl
  constructor
  · obtain ⟨v, hv, h⟩ := dtOn_complex128 A
    refine ⟨v, hv, ?_⟩
    have := h.err
    rw [e] at this
    exact this
  · obtain ⟨v, hv, h⟩ := ptOn_complex128 A
    refine ⟨v, hv, ?_⟩
    have := h.err
    rw [e, e] at this
    exact this

/-- C141: the same for `pf` and `hf`; the sum of the absolute values of the products is the hafnian of the array of absolute values. -/
theorem C141_pf_hf {m : ℕ} (A : Matrix (Fin (2 * m)) (Fin (2 * m)) ℂ) :
    (∃ v p h, pfOn complex128 divComplex A = .ok v ∧ pf A = .ok p ∧ hf (A.map norm) = .ok h ∧
      ‖v - p‖ ≤ ((1 + 2⁻¹ ^ 53) ^ 3 / (1 - 2⁻¹ ^ 53) ^ 2 * (1 + 2⁻¹ ^ 53) ^ ((2 * m).factorial + 3 * m + 3) - 1) * h) ∧
    (∃ v p h, hfOn complex128 divComplex A = .ok v ∧ hf A = .ok p ∧ hf (A.map norm) = .ok h ∧
      ‖v - p‖ ≤ ((1 + 2⁻¹ ^ 53) ^ 3 / (1 - 2⁻¹ ^ 53) ^ 2 * (1 + 2⁻¹ ^ 53) ^ ((2 * m).factorial + 3 * m) - 1) * h) := by
  constructor
  · obtain ⟨v, hv, h⟩ := pfOn_complex128 A
    exact ⟨v, _, _, hv, pf_ok A, hf_ok _, h.err⟩
  · obtain ⟨v, hv, h⟩ := hfOn_complex128 A
    exact ⟨v, _, _, hv, hf_ok A, hf_ok _, h.err⟩

/-- C141: for arrays with up to ten rows the error of `dt` and `pt` is at most `10⁻⁹` times the sum of the absolute values of the products. -/
theorem C141_ten {n : ℕ} (hn : n ≤ 10) (A : Matrix (Fin n) (Fin n) ℂ) :
    (∃ v, dtOn complex128 A = .ok v ∧ ‖v - A.det‖ ≤ 10⁻¹ ^ 9 * ∑ σ : Perm (Fin n), ∏ i, ‖A i (σ i)‖) ∧
    (∃ v, ptOn complex128 A = .ok v ∧
      ‖v - ∑ σ : Perm (Fin n), ∏ i, A i (σ i)‖ ≤ 10⁻¹ ^ 9 * ∑ σ : Perm (Fin n), ∏ i, ‖A i (σ i)‖) := by
  have hf : n.factorial ≤ 3628800 := (Nat.factorial_le hn).trans (by decide)
  have hs : 0 ≤ ∑ σ : Perm (Fin n), ∏ i, ‖A i (σ i)‖ :=
    Finset.sum_nonneg fun σ _ => Finset.prod_nonneg fun i _ => norm_nonneg _
  obtain ⟨⟨v, hv, h⟩, w, hw, h'⟩ := C141_dt_pt A
  exact ⟨⟨v, hv, h.trans (mul_le_mul_of_nonneg_right (pow_ulp_le (by omega)) hs)⟩,
    ⟨w, hw, h'.trans (mul_le_mul_of_nonneg_right (pow_ulp_le (by omega)) hs)⟩⟩

/-- The hypothesis of `C141_ten` is met by every array with up to ten rows, and the bound is not trivial: the determinant of this array
is `-2`, the sum of the absolute values of the products is 2, and so the computed number is within `2 · 10⁻⁹` of `-2`. -/
example : ∃ v, dtOn complex128 !![Complex.I, 1; 1, Complex.I] = .ok v ∧ ‖v - (-2)‖ ≤ 10⁻¹ ^ 9 * 2 := by
  obtain ⟨⟨v, hv, h⟩, -⟩ := C141_ten (by norm_num : 2 ≤ 10) !![Complex.I, 1; 1, Complex.I]
  refine ⟨v, hv, ?_⟩
  have h1 : (!![Complex.I, 1; 1, Complex.I] : Matrix (Fin 2) (Fin 2) ℂ).det = -2 := by
    rw [det_fin_two_of, Complex.I_mul_I]; norm_num
  have h2 : ∑ σ : Perm (Fin 2), ∏ i, ‖(!![Complex.I, 1; 1, Complex.I] : Matrix (Fin 2) (Fin 2) ℂ) i (σ i)‖ = 2 := by
    have : ∀ i j, ‖(!![Complex.I, 1; 1, Complex.I] : Matrix (Fin 2) (Fin 2) ℂ) i j‖ = 1 := by
      intro i j; fin_cases i <;> fin_cases j <;> simp
    simp only [this, Finset.prod_const_one, Finset.sum_const, Finset.card_univ, Fintype.card_perm]
    norm_num
  rwa [h1, h2] at h

end FF.Props
