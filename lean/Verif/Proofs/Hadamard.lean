import Verif.Proofs.Lipschitz
import Verif.Proofs.Rounding

/-! # Proofs: bounds for determinants, permanents, Pfaffians and hafnians -/

namespace FF

open Matrix Finset Equiv
open scoped ComplexOrder

variable {N : ℕ}

/-- Numbers with mean 1 have a product of at most 1, which is smaller unless all are 1. -/
theorem prod_le_one_of_mean {d : Fin N → ℝ} (h0 : ∀ i, 0 ≤ d i) (hs : ∑ i, d i = N) :
    ∏ i, d i ≤ 1 ∧ (∏ i, d i = 1 → ∀ i, d i = 1) := by
  have he : ∏ i, Real.exp (d i - 1) = 1 := by
    rw [← Real.exp_sum, sum_sub_distrib, hs]; simp
  have hle : ∀ i, d i ≤ Real.exp (d i - 1) := fun i => by
    have := Real.add_one_le_exp (d i - 1); linarith
  refine ⟨?_, fun hp i => ?_⟩
  · rw [← he]
    exact prod_le_prod (fun i _ => h0 i) fun i _ => hle i
  · by_contra hne
    have hpos : ∀ j, 0 < d j := fun j => lt_of_le_of_ne (h0 j) fun h => by
      rw [prod_eq_zero (mem_univ j) h.symm] at hp
      exact zero_ne_one hp
    have : ∏ j, d j < ∏ j, Real.exp (d j - 1) := prod_lt_prod (fun j _ => hpos j) (fun j _ => hle j) ⟨i, mem_univ i, by
      have := Real.add_one_lt_exp (sub_ne_zero.2 hne); linarith⟩
    rw [hp, he] at this
    exact lt_irrefl _ this

theorem row_gram (A : Op N) (i k : Fin N) : (A * Aᴴ) i k = ∑ j, A i j * star (A k j) := by
  rw [mul_apply]; rfl

theorem row_gram_diag (A : Op N) (i : Fin N) : (A * Aᴴ) i i = ((∑ j, ‖A i j‖ ^ 2 : ℝ) : ℂ) := by
  rw [row_gram, Complex.ofReal_sum]
  refine sum_congr rfl fun j _ => ?_
  rw [Complex.star_def, Complex.mul_conj, Complex.normSq_eq_norm_sq]

/-- Rows of norm 1 have a determinant of at most 1, which is smaller unless they are orthogonal. -/
theorem det_unit_rows {A : Op N} (h : ∀ i, ∑ j, ‖A i j‖ ^ 2 = 1) : ‖A.det‖ ≤ 1 ∧ (‖A.det‖ = 1 ↔ A * Aᴴ = 1) := by
  have hps : (A * Aᴴ).PosSemidef := posSemidef_self_mul_conjTranspose A
  obtain ⟨U, d, hU, hd⟩ := diag_of_herm hps.isHermitian
  have hU' : Uᴴ * U = 1 := mul_eq_one_comm.1 hU
  have hc : Uᴴ * (A * Aᴴ) * U = diagonal fun i => ((d i : ℝ) : ℂ) := by
    rw [hd, show Uᴴ * (U * diagonal (fun i => ((d i : ℝ) : ℂ)) * Uᴴ) * U = (Uᴴ * U) * diagonal (fun i => ((d i : ℝ) : ℂ)) * (Uᴴ * U) by
      simp only [Matrix.mul_assoc], hU', one_mul, mul_one]
  have h0 : ∀ i, 0 ≤ d i := fun i => by
    have := (hps.conjTranspose_mul_mul_same U).diag_nonneg (i := i)
    rw [hc, diagonal_apply_eq] at this
    exact Complex.zero_le_real.1 this
  have hs : ∑ i, d i = N := by
    have h1 : (A * Aᴴ).trace = ((∑ i, d i : ℝ) : ℂ) := by
      rw [hd, trace_mul_comm, ← Matrix.mul_assoc, hU', one_mul, trace_diagonal, Complex.ofReal_sum]
    have h2 : (A * Aᴴ).trace = ((N : ℝ) : ℂ) := by
      rw [Matrix.trace, sum_congr rfl fun i _ => by rw [diag_apply, row_gram_diag, h i, Complex.ofReal_one]]
      simp
    exact_mod_cast h1.symm.trans h2
  have hdet : ‖A.det‖ ^ 2 = ∏ i, d i := by
    have h1 : (A * Aᴴ).det = ((∏ i, d i : ℝ) : ℂ) := by
      rw [hd, det_mul_comm, ← Matrix.mul_assoc, hU', one_mul, det_diagonal, Complex.ofReal_prod]
    rw [det_mul, det_conjTranspose, Complex.star_def, Complex.mul_conj, Complex.normSq_eq_norm_sq] at h1
    exact_mod_cast h1
  obtain ⟨p1, p2⟩ := prod_le_one_of_mean h0 hs
  rw [← hdet] at p1 p2
  refine ⟨by nlinarith [norm_nonneg A.det], fun e => ?_, fun e => ?_⟩
  · have h1 := p2 (by rw [e, one_pow])
    rw [hd, show (diagonal fun i => ((d i : ℝ) : ℂ)) = (1 : Op N) by simp only [h1, Complex.ofReal_one]; exact diagonal_one, mul_one, hU]
  · have h1 : (A * Aᴴ).det = 1 := by rw [e, det_one]
    rw [det_mul, det_conjTranspose, Complex.star_def, Complex.mul_conj, Complex.normSq_eq_norm_sq] at h1
    have h2 : ‖A.det‖ ^ 2 = 1 := by exact_mod_cast h1
    nlinarith [norm_nonneg A.det]

/-- Hadamard's inequality. -/
theorem det_hadamard (A : Op N) : ‖A.det‖ ≤ ∏ i, √(∑ j, ‖A i j‖ ^ 2) ∧
    (‖A.det‖ = ∏ i, √(∑ j, ‖A i j‖ ^ 2) ↔ (∃ i, ∀ j, A i j = 0) ∨ ∀ i k, i ≠ k → ∑ j, A i j * star (A k j) = 0) := by
  by_cases hz : ∃ i, ∀ j, A i j = 0
  · obtain ⟨i, hi⟩ := hz
    have h1 : A.det = 0 := det_eq_zero_of_row_eq_zero i hi
    have h2 : ∏ i, √(∑ j, ‖A i j‖ ^ 2) = 0 := prod_eq_zero (mem_univ i) (by simp [hi])
    rw [h1, h2, norm_zero]
    exact ⟨le_rfl, fun _ => .inl ⟨i, hi⟩, fun _ => rfl⟩
  have hpos : ∀ i, 0 < √(∑ j, ‖A i j‖ ^ 2) := fun i => by
    refine Real.sqrt_pos.2 (lt_of_le_of_ne (sum_nonneg fun j _ => sq_nonneg _) fun h => hz ⟨i, fun j => ?_⟩)
    have := (sum_eq_zero_iff_of_nonneg fun j _ => sq_nonneg ‖A i j‖).1 h.symm j (mem_univ j)
    exact norm_eq_zero.1 (pow_eq_zero_iff two_ne_zero |>.1 this)
  obtain ⟨r, hr⟩ : ∃ r : Fin N → ℝ, r = fun i => √(∑ j, ‖A i j‖ ^ 2) := ⟨_, rfl⟩
  have hri : ∀ i, √(∑ j, ‖A i j‖ ^ 2) = r i := fun i => by rw [hr]
  simp only [hri] at hpos ⊢
  have hr2 : ∀ i, r i ^ 2 = ∑ j, ‖A i j‖ ^ 2 := fun i => by rw [← hri, Real.sq_sqrt (sum_nonneg fun j _ => sq_nonneg _)]
  have hrc : ∀ i, ((r i : ℝ) : ℂ) ≠ 0 := fun i => Complex.ofReal_ne_zero.2 (hpos i).ne'
  obtain ⟨B, hB⟩ : ∃ B : Op N, B = Matrix.of fun i j => ((r i : ℝ) : ℂ)⁻¹ * A i j := ⟨_, rfl⟩
  have hBe : ∀ i j, B i j = ((r i : ℝ) : ℂ)⁻¹ * A i j := fun i j => by rw [hB, of_apply]
  have hAB : A = diagonal (fun i => ((r i : ℝ) : ℂ)) * B := by
    ext i j
    rw [diagonal_mul, hBe, mul_inv_cancel_left₀ (hrc i)]
  have hdet : ‖A.det‖ = (∏ i, r i) * ‖B.det‖ := by
    conv_lhs => rw [hAB]
    rw [det_mul, det_diagonal, norm_mul, norm_prod]
    congr 1
    exact prod_congr rfl fun i _ => by rw [Complex.norm_real, Real.norm_eq_abs, abs_of_pos (hpos i)]
  have hP : 0 < ∏ i, r i := prod_pos fun i _ => hpos i
  obtain ⟨h1, h2⟩ := det_unit_rows (A := B) fun i => by
    simp only [hBe, norm_mul, mul_pow, ← mul_sum, ← hr2]
    rw [norm_inv, Complex.norm_real, Real.norm_eq_abs, inv_pow, sq_abs, inv_mul_cancel₀ (pow_pos (hpos i) 2).ne']
  rw [hdet]
  refine ⟨by nlinarith, ?_⟩
  have hg : ∀ i k, (B * Bᴴ) i k = ((r i : ℝ) : ℂ)⁻¹ * ((r k : ℝ) : ℂ)⁻¹ * ∑ j, A i j * star (A k j) := fun i k => by
    rw [row_gram, mul_sum]
    refine sum_congr rfl fun j _ => ?_
    rw [hBe, hBe, star_mul', Complex.star_def, map_inv₀, Complex.conj_ofReal]
    ring
  have h3 : (∏ i, r i) * ‖B.det‖ = ∏ i, r i ↔ ‖B.det‖ = 1 := by
    constructor
    · intro h; exact mul_left_cancel₀ hP.ne' (by rw [h, mul_one])
    · intro h; rw [h, mul_one]
  rw [h3, h2]
  constructor
  · intro h
    refine .inr fun i k hik => ?_
    have := congrFun (congrFun h i) k
    rw [hg, one_apply_ne hik] at this
    exact (mul_eq_zero.1 this).resolve_left (mul_ne_zero (inv_ne_zero (hrc i)) (inv_ne_zero (hrc k)))
  · rintro (h | h)
    · exact absurd h hz
    · ext i k
      by_cases hik : i = k
      · subst hik
        have hs : ∑ j, A i j * star (A i j) = ((r i : ℝ) : ℂ) ^ 2 := by
          rw [← row_gram, row_gram_diag, ← hr2, Complex.ofReal_pow]
        rw [hg, hs, one_apply_eq]
        field_simp [hrc i]
      · rw [hg, h i k hik, mul_zero, one_apply_ne hik]

/-- The permanent is at most the product of the row sums. -/
theorem perm_row_sums {R : Type} [CommRing R] [LinearOrder R] [IsStrictOrderedRing R] {B : Fin N → Fin N → R} (h : ∀ i j, 0 ≤ B i j) :
    ∑ σ : Perm (Fin N), ∏ i, B i (σ i) ≤ ∏ i, ∑ j, B i j := by
  rw [prod_univ_sum]
  simp only [Fintype.piFinset_univ]
  have : ∑ σ : Perm (Fin N), ∏ i, B i (σ i) = ∑ f ∈ univ.image (fun σ : Perm (Fin N) => (σ : Fin N → Fin N)), ∏ i, B i (f i) := by
    rw [sum_image fun σ _ τ _ h => DFunLike.coe_injective h]
  rw [this]
  exact sum_le_sum_of_subset_of_nonneg (subset_univ _) fun f _ _ => prod_nonneg fun i _ => h _ _

theorem den_norm {K : Type} [RCLike K] (m : ℕ) : ‖(2 ^ m * (m.factorial : K))‖ = 2 ^ m * m.factorial := by
  rw [norm_mul, norm_pow, RCLike.norm_natCast, RCLike.norm_ofNat]

theorem matchSum_bound {K : Type} [RCLike K] {m : ℕ} {A : Matrix (Fin (2 * m)) (Fin (2 * m)) K} {M : ℝ} (h : ∀ i j, ‖A i j‖ ≤ M)
    (s : Perm (Fin (2 * m)) → K) (hs : ∀ σ, ‖s σ‖ = 1) :
    ‖∑ σ : Perm (Fin (2 * m)), s σ * ∏ i : Fin m, A (σ (ev i)) (σ (od i))‖ ≤ (2 * m).factorial * M ^ m := by
  refine (norm_sum_le _ _).trans ((sum_le_card_nsmul univ _ (M ^ m) fun σ _ => ?_).trans (le_of_eq ?_))
  · rw [norm_mul, hs, one_mul, norm_prod]
    calc ∏ i, ‖A (σ (ev i)) (σ (od i))‖ ≤ ∏ _i : Fin m, M := prod_le_prod (fun _ _ => norm_nonneg _) fun _ _ => h _ _
      _ = M ^ m := by simp
  · rw [card_univ, Fintype.card_perm, Fintype.card_fin, nsmul_eq_mul]

theorem hfVal_bound {K : Type} [RCLike K] {m : ℕ} {A : Matrix (Fin (2 * m)) (Fin (2 * m)) K} {M : ℝ} (h : ∀ i j, ‖A i j‖ ≤ M) :
    ‖hfVal A‖ * (2 ^ m * m.factorial) ≤ (2 * m).factorial * M ^ m := by
  have hd : (0 : ℝ) < 2 ^ m * m.factorial := by positivity
  rw [hfVal, norm_div, den_norm, div_mul_cancel₀ _ hd.ne']
  simpa using matchSum_bound h (fun _ => 1) (by simp)

theorem pfVal_bound {K : Type} [RCLike K] {m : ℕ} {A : Matrix (Fin (2 * m)) (Fin (2 * m)) K} {M : ℝ} (h : ∀ i j, ‖A i j‖ ≤ M) :
    ‖pfVal A‖ * (2 ^ m * m.factorial) ≤ (2 * m).factorial * M ^ m := by
  have hd : (0 : ℝ) < 2 ^ m * m.factorial := by positivity
  rw [pfVal, norm_div, den_norm, div_mul_cancel₀ _ hd.ne']
  exact matchSum_bound h (fun σ => ((Perm.sign σ : ℤ) : K)) fun σ => by
    rcases Int.units_eq_one_or (Perm.sign σ) with h | h <;> simp [h]

end FF
