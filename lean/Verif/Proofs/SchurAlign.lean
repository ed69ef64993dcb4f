import Verif.Proofs.Eigen3
import Verif.Proofs.SchurExists

/-! # Helper lemmas: when real Schur forms of skew-symmetric arrays are made of aligned 2 x 2 blocks -/

namespace FF

open Matrix

/-- A tridiagonal skew-symmetric array without zero rows and without adjacent subdiagonal entries has a non-zero entry at
the start of every pair of rows. -/
theorem pair_ne_zero {m : ℕ} {M T Z : RMat m} (h : Spec.IsRealSchur M T Z) (hs : Tᵀ = -T)
    (hrow : ∀ i, ∃ k, T i k ≠ 0) (i : ℕ) : ∀ hi : 2 * i < m,
    ∃ h1 : 2 * i + 1 < m, T ⟨2 * i, hi⟩ ⟨2 * i + 1, h1⟩ ≠ 0 := by
  induction i with
  | zero =>
    intro hi
    obtain ⟨k, hk⟩ := hrow ⟨2 * 0, hi⟩
    have hk1 : (k : ℕ) = 1 := by
      by_contra hne
      rcases Nat.eq_zero_or_pos (k : ℕ) with h0 | h0
      · have hkk : k = ⟨2 * 0, hi⟩ := Fin.ext h0
        have := skew_apply hs k k
        rw [hkk] at this hk
        exact hk (by linarith)
      · have := h.quasi k ⟨2 * 0, hi⟩ (by simp only; omega)
        exact hk (by rw [skew_apply hs, this, neg_zero])
    refine ⟨by have := k.2; omega, ?_⟩
    have : k = ⟨2 * 0 + 1, by have := k.2; omega⟩ := Fin.ext hk1
    rw [← this]
    exact hk
  | succ i ih =>
    intro hi
    obtain ⟨h1, h2⟩ := ih (by omega)
    obtain ⟨k, hk⟩ := hrow ⟨2 * (i + 1), hi⟩
    have h3 : T ⟨2 * (i + 1), hi⟩ ⟨2 * i + 1, h1⟩ = 0 := by
      rcases h.blocks ⟨2 * i, by omega⟩ ⟨2 * i + 1, h1⟩ ⟨2 * (i + 1), hi⟩ rfl (by simp only; omega) with h4 | h4
      · exact absurd (by rw [skew_apply hs, h4, neg_zero]) h2
      · exact h4
    have hk1 : (k : ℕ) = 2 * (i + 1) + 1 := by
      by_contra hne
      rcases lt_trichotomy (k : ℕ) (2 * (i + 1)) with h0 | h0 | h0
      · by_cases h5 : (k : ℕ) = 2 * i + 1
        · have : k = ⟨2 * i + 1, h1⟩ := Fin.ext h5
          rw [this] at hk
          exact hk h3
        · exact hk (h.quasi _ k (by simp only; omega))
      · have hkk : k = ⟨2 * (i + 1), hi⟩ := Fin.ext h0
        have := skew_apply hs k k
        rw [hkk] at this hk
        exact hk (by linarith)
      · have := h.quasi k ⟨2 * (i + 1), hi⟩ (by simp only; omega)
        exact hk (by rw [skew_apply hs, this, neg_zero])
    have hlt : 2 * (i + 1) + 1 < m := by have := k.2; omega
    refine ⟨hlt, ?_⟩
    have : k = ⟨2 * (i + 1) + 1, hlt⟩ := Fin.ext hk1
    rw [← this]
    exact hk

/-- Without zero rows the Schur form is aligned. -/
theorem aligned_of_rows {m : ℕ} {M T Z : RMat m} (h : Spec.IsRealSchur M T Z) (hs : Tᵀ = -T)
    (hrow : ∀ i, ∃ k, T i k ≠ 0) (x y : Fin m) (hxy : (x : ℕ) / 2 ≠ (y : ℕ) / 2) : T x y = 0 := by
  wlog hlt : (y : ℕ) < x generalizing x y
  · rw [skew_apply hs, this y x (Ne.symm hxy) (by omega), neg_zero]
  by_cases h1 : (y : ℕ) + 1 < x
  · exact h.quasi x y h1
  · have hx : (x : ℕ) = y + 1 := by omega
    have hy : (y : ℕ) = 2 * ((y : ℕ) / 2) + 1 := by omega
    obtain ⟨h2, h3⟩ := pair_ne_zero h hs hrow ((y : ℕ) / 2) (by omega)
    have e : (⟨2 * ((y : ℕ) / 2) + 1, h2⟩ : Fin m) = y := Fin.ext hy.symm
    rw [e] at h3
    rcases h.blocks ⟨2 * ((y : ℕ) / 2), by omega⟩ y x (by simp only; omega) hx with h4 | h4
    · exact absurd (by rw [skew_apply hs, h4, neg_zero]) h3
    · exact h4

/-- Such an array is invertible. -/
theorem det_ne_zero_of_rows {m : ℕ} {M T Z : RMat m} (h : Spec.IsRealSchur M T Z) (hs : Tᵀ = -T)
    (hrow : ∀ i, ∃ k, T i k ≠ 0) : T.det ≠ 0 := by
  intro hdet
  obtain ⟨v, hv, hTv⟩ := Matrix.exists_mulVec_eq_zero_iff.2 hdet
  apply hv
  have key : ∀ x y : Fin m, x ≠ y → (x : ℕ) / 2 = (y : ℕ) / 2 → T x y ≠ 0 → v y = 0 := by
    intro x y hxy hd hne
    have := congrFun hTv x
    rw [mulVec, dotProduct, Finset.sum_eq_single y, Pi.zero_apply] at this
    · exact (mul_eq_zero.1 this).resolve_left hne
    · intro k _ hk
      by_cases h1 : (x : ℕ) / 2 = (k : ℕ) / 2
      · have hkx : k = x := by
          apply Fin.ext
          have h2 : (k : ℕ) ≠ y := fun e => hk (Fin.ext e)
          have h3 : (x : ℕ) ≠ y := fun e => hxy (Fin.ext e)
          omega
        have := skew_apply hs x x
        rw [hkx, show T x x = 0 by linarith, zero_mul]
      · rw [aligned_of_rows h hs hrow x k h1, zero_mul]
    · simp
  funext y
  rw [Pi.zero_apply]
  obtain ⟨h1, h2⟩ := pair_ne_zero h hs hrow ((y : ℕ) / 2) (by omega)
  by_cases he : (y : ℕ) % 2 = 0
  · have e : (⟨2 * ((y : ℕ) / 2), by omega⟩ : Fin m) = y := Fin.ext (by simp only; omega)
    rw [e] at h2
    refine key ⟨2 * ((y : ℕ) / 2) + 1, h1⟩ y (fun e => ?_) (by simp only; omega) (fun h0 => h2 ?_)
    · have := congrArg Fin.val e; simp only at this; omega
    · rw [skew_apply hs, h0, neg_zero]
  · have e : (⟨2 * ((y : ℕ) / 2) + 1, h1⟩ : Fin m) = y := Fin.ext (by simp only; omega)
    rw [e] at h2
    refine key ⟨2 * ((y : ℕ) / 2), by omega⟩ y (fun e => ?_) (by simp only; omega) h2
    have := congrArg Fin.val e; simp only at this; omega

theorem schur_det {m : ℕ} {M T Z : RMat m} (h : Spec.IsRealSchur M T Z) : T.det = M.det := by
  have h1 : Z.det * Zᵀ.det = 1 := by rw [← det_mul, h.orth, det_one]
  rw [← h.decomp, det_mul, det_mul, mul_right_comm, h1, one_mul]

/-- Schur forms of invertible skew-symmetric arrays are aligned. -/
theorem aligned_of_det {m : ℕ} {M T Z : RMat m} (h : Spec.IsRealSchur M T Z) (hM : Mᵀ = -M) (hdet : M.det ≠ 0)
    (x y : Fin m) (hxy : (x : ℕ) / 2 ≠ (y : ℕ) / 2) : T x y = 0 := by
  refine aligned_of_rows h (schur_skew h hM) (fun i => ?_) x y hxy
  by_contra hcon
  push Not at hcon
  apply hdet
  rw [← schur_det h]
  exact det_eq_zero_of_row_eq_zero i hcon

/-- A singular skew-symmetric array of even size that is not zero has a Schur form that is not aligned. -/
theorem misaligned_exists {m : ℕ} {M : RMat (m + 1)} (hM : Mᵀ = -M) (hdet : M.det = 0) (hne : M ≠ 0) :
    ∃ T Z : RMat (m + 1), Spec.IsRealSchur M T Z ∧ ∃ x y : Fin (m + 1), (x : ℕ) / 2 ≠ (y : ℕ) / 2 ∧ T x y ≠ 0 := by
  obtain ⟨T, Z, h1, h2, hs, h3, h4, h5⟩ := schur_exists _ M hM
  have hS : Spec.IsRealSchur M T Z := ⟨h1, h2, h3, h4⟩
  have hlast : ∀ k, T (Fin.last m) k = 0 := by
    by_contra hcon
    push Not at hcon
    obtain ⟨k, hk⟩ := hcon
    refine det_ne_zero_of_rows hS hs (fun i => ?_) ((schur_det hS).trans hdet)
    by_contra hz
    push Not at hz
    exact hk (abs_nonpos_iff.1 (h5 0 i (Fin.last m) (Fin.le_last i) (fun k => by rw [hz k, abs_zero]) k))
  have hlast' : ∀ k, T k (Fin.last m) = 0 := fun k => by rw [skew_apply hs, hlast, neg_zero]
  obtain ⟨k, hk⟩ : ∃ k, T 0 k ≠ 0 := by
    by_contra hcon
    push Not at hcon
    apply hne
    have : T = 0 := by
      ext i j
      exact abs_nonpos_iff.1 (h5 0 0 i (Fin.zero_le i) (fun k => by rw [hcon k, abs_zero]) j)
    rw [← h2, this, Matrix.mul_zero, Matrix.zero_mul]
  have hk1 : (k : ℕ) = 1 := by
    by_contra hk1
    rcases Nat.eq_zero_or_pos (k : ℕ) with h0 | h0
    · have hkk : k = 0 := Fin.ext h0
      have := skew_apply hs 0 0
      rw [hkk] at hk
      exact hk (by linarith)
    · have := h3 k 0 (by simp only [Fin.val_zero]; omega)
      exact hk (by rw [skew_apply hs, this, neg_zero])
  have hkm : (k : ℕ) ≠ m := by
    intro e
    have : k = Fin.last m := Fin.ext e
    rw [this, hlast'] at hk
    exact hk rfl
  -- move the last row and column to the front
  let e : Fin (m + 1) ≃ Fin (m + 1) := (finRotate (m + 1)).symm
  have he0 : e 0 = Fin.last m := by
    rw [Equiv.symm_apply_eq, finRotate_last]
  have hes : ∀ (x : ℕ) (hx : x + 1 < m + 1), e ⟨x + 1, hx⟩ = ⟨x, by omega⟩ := by
    intro x hx
    rw [Equiv.symm_apply_eq]
    apply Fin.ext
    rw [coe_finRotate_of_ne_last (fun h => by have := congrArg Fin.val h; simp at this; omega)]
  refine ⟨T.submatrix e e, Z.submatrix id e, ?_, ⟨1, by have := k.2; omega⟩, ⟨2, by have := k.2; omega⟩, by simp, ?_⟩
  · refine { orth := ?_, decomp := ?_, quasi := ?_, blocks := ?_ }
    · rw [transpose_submatrix, submatrix_mul_equiv, h1, submatrix_id_id]
    · rw [transpose_submatrix, submatrix_mul_equiv, submatrix_mul_equiv, h2, submatrix_id_id]
    · intro i j hij
      obtain ⟨i, hi⟩ := i
      obtain ⟨j, hj⟩ := j
      simp only at hij
      obtain ⟨i', rfl⟩ : ∃ i', i = i' + 1 := ⟨i - 1, by omega⟩
      rcases j with - | j
      · rw [submatrix_apply, show (⟨0, hj⟩ : Fin (m + 1)) = 0 from rfl, he0, hlast']
      · rw [submatrix_apply, hes, hes]
        exact h3 _ _ (by simp only; omega)
    · intro i j l hij hjl
      obtain ⟨i, hi⟩ := i
      obtain ⟨j, hj⟩ := j
      obtain ⟨l, hl⟩ := l
      simp only at hij hjl
      subst hij hjl
      rcases i with - | i
      · left
        rw [submatrix_apply, show (⟨0, hi⟩ : Fin (m + 1)) = 0 from rfl, he0, hlast']
      · rw [submatrix_apply, submatrix_apply, hes, hes, hes]
        exact h4 _ _ _ rfl rfl
  · rw [submatrix_apply]
    rw [show (⟨1, by have := k.2; omega⟩ : Fin (m + 1)) = ⟨0 + 1, by have := k.2; omega⟩ from rfl, hes,
      show (⟨2, by have := k.2; omega⟩ : Fin (m + 1)) = ⟨1 + 1, by have := k.2; omega⟩ from rfl, hes]
    have : k = ⟨1, by have := k.2; omega⟩ := Fin.ext hk1
    rw [← this]
    exact hk

end FF
