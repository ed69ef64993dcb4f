import Verif.Proofs.Random
import Mathlib.Analysis.SpecialFunctions.Exponential
import Mathlib.Analysis.Calculus.MeanValue
import Mathlib.Analysis.Calculus.Deriv.Mul

/-!
# Rotations from logarithms: eigenvalue -1, and the effect of dropping small coefficients
-/

namespace FF
open Matrix
open scoped ComplexConjugate

/-! ## The exponential is a contraction on skew-Hermitian matrices -/

section
attribute [local instance] Matrix.linftyOpNormedRing Matrix.linftyOpNormedAlgebra

theorem expm_entry_deriv {d : ℕ} (A : Op d) (t : ℝ) (k l : Fin d) :
    HasDerivAt (fun t : ℝ => expm ((t : ℂ) • A) k l) ((expm ((t : ℂ) • A) * A) k l) t ∧
    HasDerivAt (fun t : ℝ => expm ((t : ℂ) • A) k l) ((A * expm ((t : ℂ) • A)) k l) t := by
  let φ : Matrix (Fin d) (Fin d) ℂ →ₗ[ℝ] ℂ := Matrix.entryLinearMap ℝ ℂ k l
  have hφ : ∀ M, φ M = M k l := fun M => rfl
  have hs : ∀ (x : ℝ), (x : ℂ) • A = x • A := fun x => by ext i j; simp
  have h1 := (LinearMap.toContinuousLinearMap φ).hasFDerivAt.comp_hasDerivAt t
    (hasDerivAt_exp_smul_const (𝕂 := ℝ) (𝔸 := Matrix (Fin d) (Fin d) ℂ) A t)
  have h2 := (LinearMap.toContinuousLinearMap φ).hasFDerivAt.comp_hasDerivAt t
    (hasDerivAt_exp_smul_const' (𝕂 := ℝ) (𝔸 := Matrix (Fin d) (Fin d) ℂ) A t)
  simp only [hs, expm]
  exact ⟨h1, h2⟩

end

theorem expm_deriv {d : ℕ} (A B : Op d) (t : ℝ) (k l : Fin d) :
    HasDerivAt (fun t : ℝ => (expm ((t : ℂ) • A) * expm (((1 - t : ℝ) : ℂ) • B)) k l)
      ((expm ((t : ℂ) • A) * (A - B) * expm (((1 - t : ℝ) : ℂ) • B)) k l) t := by
  have h1 : ∀ i, HasDerivAt (fun t : ℝ => expm (((1 - t : ℝ) : ℂ) • B) i l) (-(B * expm (((1 - t : ℝ) : ℂ) • B)) i l) t := by
    intro i
    have h := ((expm_entry_deriv B (1 - t) i l).2).scomp t ((hasDerivAt_id t).const_sub 1)
    rw [neg_one_smul] at h
    exact h
  have h2 := HasDerivAt.fun_sum (u := Finset.univ) fun i _ => ((expm_entry_deriv A t k i).1).mul (h1 i)
  simp only [Matrix.mul_apply] at h2 ⊢
  refine h2.congr_deriv ?_
  have e : (expm ((t : ℂ) • A) * (A - B) * expm (((1 - t : ℝ) : ℂ) • B)) k l =
      (expm ((t : ℂ) • A) * A * expm (((1 - t : ℝ) : ℂ) • B)) k l +
        -(expm ((t : ℂ) • A) * (B * expm (((1 - t : ℝ) : ℂ) • B))) k l := by
    rw [mul_sub, sub_mul, mul_assoc _ B]
    simp [sub_eq_add_neg]
  simp only [Matrix.mul_apply] at e
  rw [e, Finset.sum_add_distrib, ← Finset.sum_neg_distrib]
  congr 1
  refine Finset.sum_congr rfl fun i _ => ?_
  ring

/-- the entries of a row of a unitary matrix -/
theorem unitary_row_sum {d : ℕ} {U : Op d} (hU : U * Uᴴ = 1) (k : Fin d) : ∑ i, ‖U k i‖ ≤ Real.sqrt d := by
  have h1 : ∑ i, ‖U k i‖ ^ 2 = 1 := by
    have h := congrFun (congrFun hU k) k
    rw [Matrix.mul_apply, Matrix.one_apply_eq] at h
    have h' : ((∑ i, ‖U k i‖ ^ 2 : ℝ) : ℂ) = 1 := by
      rw [← h]
      push_cast
      refine Finset.sum_congr rfl fun i _ => ?_
      rw [Matrix.conjTranspose_apply]
      exact (Complex.mul_conj' (U k i)).symm
    exact_mod_cast h'
  apply Real.le_sqrt_of_sq_le
  have h2 := Finset.sum_mul_sq_le_sq_mul_sq Finset.univ (fun i => ‖U k i‖) (fun _ => (1 : ℝ))
  simp only [mul_one, one_pow, Finset.sum_const, Finset.card_univ, Fintype.card_fin, nsmul_eq_mul, h1, one_mul] at h2
  exact h2

theorem unitary_col_sum {d : ℕ} {U : Op d} (hU : U * Uᴴ = 1) (l : Fin d) : ∑ i, ‖U i l‖ ≤ Real.sqrt d := by
  have h : Uᴴ * (Uᴴ)ᴴ = 1 := by rw [conjTranspose_conjTranspose]; exact mul_eq_one_comm.1 hU
  have := unitary_row_sum h l
  simpa using this

/-- entrywise: `|exp(A) - exp(B)| ≤ d max |A - B|` for skew-Hermitian matrices -/
theorem expm_lipschitz {d : ℕ} {A B : Op d} (hA : Aᴴ = -A) (hB : Bᴴ = -B) {ε : ℝ} (hε : 0 ≤ ε) (h : ∀ i j, ‖(A - B) i j‖ ≤ ε)
    (k l : Fin d) : ‖(expm A - expm B) k l‖ ≤ d * ε := by
  have hsk : ∀ (t : ℝ) {M : Op d}, Mᴴ = -M → ((t : ℂ) • M)ᴴ = -((t : ℂ) • M) := by
    intro t M hM
    rw [conjTranspose_smul, hM]
    simp
  have hb : ∀ t ∈ Set.Ico (0 : ℝ) 1, ‖(expm ((t : ℂ) • A) * (A - B) * expm (((1 - t : ℝ) : ℂ) • B)) k l‖ ≤ d * ε := by
    intro t _
    set U := expm ((t : ℂ) • A)
    set V := expm (((1 - t : ℝ) : ℂ) • B)
    have hU := unitary_row_sum (expm_unitary (hsk t hA)) k
    have hV := unitary_col_sum (expm_unitary (hsk (1 - t) hB)) l
    have h1 : ‖(U * (A - B) * V) k l‖ ≤ ∑ j, ∑ i, ‖U k i‖ * ε * ‖V j l‖ := by
      rw [Matrix.mul_apply]
      refine (norm_sum_le _ _).trans (Finset.sum_le_sum fun j _ => ?_)
      rw [norm_mul, Matrix.mul_apply, ← Finset.sum_mul]
      refine mul_le_mul_of_nonneg_right ((norm_sum_le _ _).trans (Finset.sum_le_sum fun i _ => ?_)) (norm_nonneg _)
      rw [norm_mul]
      exact mul_le_mul_of_nonneg_left (h i j) (norm_nonneg _)
    refine h1.trans ?_
    have h2 : ∑ j, ∑ i, ‖U k i‖ * ε * ‖V j l‖ = ε * ((∑ i, ‖U k i‖) * ∑ j, ‖V j l‖) := by
      rw [Finset.sum_mul_sum, Finset.sum_comm, Finset.mul_sum]
      refine Finset.sum_congr rfl fun i _ => ?_
      rw [Finset.mul_sum]
      exact Finset.sum_congr rfl fun j _ => by ring
    rw [h2]
    have h3 : (∑ i, ‖U k i‖) * ∑ j, ‖V j l‖ ≤ Real.sqrt d * Real.sqrt d :=
      mul_le_mul hU hV (Finset.sum_nonneg fun _ _ => norm_nonneg _) (Real.sqrt_nonneg _)
    rw [Real.mul_self_sqrt (Nat.cast_nonneg d)] at h3
    nlinarith
  have := norm_image_sub_le_of_norm_deriv_le_segment_01'
    (f := fun t : ℝ => (expm ((t : ℂ) • A) * expm (((1 - t : ℝ) : ℂ) • B)) k l)
    (fun t _ => (expm_deriv A B t k l).hasDerivWithinAt) hb
  have e0 : expm (0 : Op d) = 1 := NormedSpace.exp_zero
  simpa [e0] using this

/-! ## Eigenvalue -1 -/

/-- on the eigenvectors of `C` for -1 the principal logarithm is `iπ` -/
theorem log_minus_one {d : ℕ} {C L : Op d} (hC : C * Cᴴ = 1) (hL : Spec.IsPrincipalLog C L) {v : Fin d → ℂ} (hv : C *ᵥ v = -v) :
    L *ᵥ v = (Real.pi * Complex.I : ℂ) • v := by
  have heL : expm L = C := hL.exp_eq
  have hC' : Cᴴ * C = 1 := mul_eq_one_comm.1 hC
  have hU : (expm L)ᴴ * expm L = 1 := by rw [heL]; exact hC'
  have hs := log_skew hC hL
  have key : ∀ y, Spec.inner (L *ᵥ v) y = Spec.inner ((Real.pi * Complex.I : ℂ) • v) y := by
    intro y
    refine eig_induction hU (p := fun y => Spec.inner (L *ᵥ v) y = Spec.inner ((Real.pi * Complex.I : ℂ) • v) y) ?_ ?_ ?_ y
    · rw [inner_zero_right, inner_zero_right]
    · intro a b ha hb
      rw [inner_add_right, inner_add_right, ha, hb]
    · intro ν y hy
      by_cases hy0 : y = 0
      · rw [hy0, inner_zero_right, inner_zero_right]
      have hcy : C *ᵥ y = _ := heL ▸ expm_eigenvector L y ν hy
      have hcv : C *ᵥ v = (-1 : ℂ) • v := by rw [hv, neg_one_smul]
      rw [inner_mul_left, hs, neg_mulVec, hy, ← neg_smul, inner_smul_right, inner_smul_left]
      by_cases h : ν = Real.pi * Complex.I
      · rw [h]; simp
      · have : Spec.inner v y = 0 := unitary_orth hC' hcv hcy fun he => h
          (exp_strip_inj (hL.strip ν y hy0 hy) (by simp [Real.pi_pos]) (by rw [← he, Complex.exp_pi_mul_I]))
        rw [this, mul_zero, mul_zero]
  rw [← sub_eq_zero]
  apply inner_self_zero
  have h1 := key (L *ᵥ v - (Real.pi * Complex.I : ℂ) • v)
  have h2 := inner_add_left (L *ᵥ v - (Real.pi * Complex.I : ℂ) • v) ((Real.pi * Complex.I : ℂ) • v)
    (L *ᵥ v - (Real.pi * Complex.I : ℂ) • v)
  rw [sub_add_cancel, h1] at h2
  exact left_eq_add.1 (by rw [add_comm]; exact h2)

/-- the part of a matrix that is symmetric under exchanging particles and holes -/
noncomputable def phSym {n : ℕ} (L : Op (n + n)) : Op (n + n) := (1 / 2 : ℂ) • (L + swapS n * cj L * swapS n)

theorem phSym_apply {n : ℕ} (L : Op (n + n)) (i j : Fin (n + n)) : phSym L i j = 1 / 2 * (L i j + conj (L (fl i) (fl j))) := by
  simp [phSym, mul_swapS, swapS_mul, cj]

theorem phSym_canonical {n : ℕ} {L : Op (n + n)} (h : IsCanonicalU L) : phSym L = L := by
  rw [phSym, h, ← two_smul ℂ L, smul_smul]
  norm_num

theorem cj_of_skew {m : ℕ} {L : Op m} (hs : Lᴴ = -L) : cj L = -Lᵀ := by
  have : Lᵀ = cj (Lᴴ) := by ext i j; simp [cj]
  rw [this, hs]; ext i j; simp [cj]

theorem phSym_skew {n : ℕ} {L : Op (n + n)} (hs : Lᴴ = -L) : (phSym L)ᴴ = -phSym L := by
  have h1 : (cj L)ᴴ = -cj L := by
    rw [cj_of_skew hs]
    have : (Lᵀ)ᴴ = (Lᴴ)ᵀ := rfl
    rw [conjTranspose_neg, this, hs, transpose_neg]
  rw [phSym, conjTranspose_smul, conjTranspose_add, hs, conjTranspose_mul, conjTranspose_mul, h1, swapS_conjTranspose]
  ext i j
  simp [mul_assoc]
  ring

/-- The Heisenberg picture of `exp(-iG)` for the generator made from any skew-Hermitian `L`. -/
theorem rot_heisenberg_all {n : ℕ} {L : Op (n + n)} (hs : Lᴴ = -L) (k : Fin (n + n)) :
    (expm ((-Complex.I) • Spec.quad (genMat L) (al n)))ᴴ * al n k *
      expm ((-Complex.I) • Spec.quad (genMat L) (al n)) = ∑ l, expm (phSym L) k l • al n l := by
  set R := genMat L with hR
  set G := Spec.quad R (al n) with hG
  have hGh : G.IsHermitian := quad_herm (genMat_herm hs) _
  have hph : swapS n * Rᵀ * swapS n = -((Complex.I / 2) • (swapS n * cj L * swapS n)) := by
    rw [cj_of_skew hs, hR, genMat, transpose_smul, Matrix.mul_smul, Matrix.smul_mul, Matrix.mul_neg, Matrix.neg_mul, smul_neg, neg_neg]
  have hcomm : ∀ k, al n k * ((-Complex.I) • G) = ((-Complex.I) • G) * al n k + ∑ l, phSym L k l • al n l := by
    intro k
    have h1 := lift_comm R k
    rw [hph] at h1
    have h2 : al n k * G = G * al n k + ∑ l, (Complex.I * phSym L k l) • al n l := by
      rw [← sub_eq_iff_eq_add', ← neg_sub, h1, ← Finset.sum_neg_distrib]
      refine Finset.sum_congr rfl fun l _ => ?_
      rw [← neg_smul]; congr 1
      simp only [Matrix.neg_apply, Matrix.sub_apply, hR, genMat, phSym, Matrix.smul_apply, Matrix.add_apply, smul_eq_mul]; ring
    rw [Matrix.mul_smul, h2, smul_add, Matrix.smul_mul, Finset.smul_sum]
    congr 1
    refine Finset.sum_congr rfl fun l _ => ?_
    rw [smul_smul]; congr 1
    linear_combination (-phSym L k l) * Complex.I_sq
  have h1 := heisenberg _ (phSym L) (al n) hcomm k
  have hU := expm_unitary (skewHerm_I hGh)
  rw [mul_assoc, h1, ← mul_assoc, mul_eq_one_comm.1 hU, one_mul]

/-- the part of the logarithm that matters vanishes on the eigenvectors of `C` for -1 -/
theorem phSym_minus_one {n : ℕ} {C L : Op (n + n)} (hC : C * Cᴴ = 1) (hcan : IsCanonicalU C) (hL : Spec.IsPrincipalLog C L)
    {v : Fin (n + n) → ℂ} (hv : C *ᵥ v = -v) : phSym L *ᵥ v = 0 := by
  have hS : swapS n * swapS n = 1 := swapS_sq
  have hw : C *ᵥ star (swapS n *ᵥ v) = -star (swapS n *ᵥ v) := by
    have h1 : cj C *ᵥ (swapS n *ᵥ v) = -(swapS n *ᵥ v) := by
      have h2 : cj C * swapS n = swapS n * C := by
        conv_rhs => rw [← hcan]
        rw [← mul_assoc, ← mul_assoc, hS, one_mul]
      rw [mulVec_mulVec, h2, ← mulVec_mulVec, hv, mulVec_neg]
    rw [cj_mulVec] at h1
    have h3 := congrArg star h1
    rw [star_star, star_neg] at h3
    exact h3
  have h1 := log_minus_one hC hL hw
  have h2 : (swapS n * cj L * swapS n) *ᵥ v = -((Real.pi * Complex.I : ℂ) • v) := by
    rw [← mulVec_mulVec, ← mulVec_mulVec, cj_mulVec, h1, star_smul, star_star, mulVec_smul, mulVec_mulVec, hS, one_mulVec]
    rw [← neg_smul]
    congr 1
    simp
  rw [phSym, smul_mulVec, add_mulVec, log_minus_one hC hL hv, h2, add_neg_cancel, smul_zero]

/-- dropping small entries changes the rotation by little -/
theorem drop_close {n : ℕ} {L : Op (n + n)} (hs : Lᴴ = -L) (k l : Fin (n + n)) :
    ‖(expm (phSym (Spec.dropSmall 2e-10 L)) - expm (phSym L)) k l‖ ≤ 4e-10 * n := by
  have hd : ∀ i j, ‖Spec.dropSmall 2e-10 L i j - L i j‖ ≤ 2e-10 := by
    intro i j
    rw [dropSmall_apply]
    split_ifs with h
    · rw [zero_sub, norm_neg]; exact h.le
    · rw [sub_self, norm_zero]; norm_num
  have h := expm_lipschitz (phSym_skew (drop_skewHerm (ε := 2e-10) hs)) (phSym_skew hs) (ε := 2e-10) (by norm_num) (by
    intro i j
    have e : (phSym (Spec.dropSmall 2e-10 L) - phSym L) i j = 1 / 2 * ((Spec.dropSmall 2e-10 L i j - L i j) +
        conj (Spec.dropSmall 2e-10 L (fl i) (fl j) - L (fl i) (fl j))) := by
      rw [Matrix.sub_apply, phSym_apply, phSym_apply, map_sub]; ring
    rw [e, norm_mul]
    have h1 := norm_add_le (Spec.dropSmall 2e-10 L i j - L i j) (conj (Spec.dropSmall 2e-10 L (fl i) (fl j) - L (fl i) (fl j)))
    rw [RCLike.norm_conj] at h1
    have h2 := hd i j
    have h3 := hd (fl i) (fl j)
    have h4 : ‖(1 / 2 : ℂ)‖ = 1 / 2 := by norm_num
    rw [h4]
    linarith) k l
  refine h.trans (le_of_eq ?_)
  push_cast
  ring

/-- the ladder operators are linearly independent -/
theorem al_sum_inj {n : ℕ} {a b : Fin (n + n) → ℂ} (h : ∑ l, a l • al n l = ∑ l, b l • al n l) : a = b := by
  funext k
  have e : ∀ c : Fin (n + n) → ℂ, (∑ l, c l • al n l) * al n (fl k) + al n (fl k) * (∑ l, c l • al n l) = c k • 1 := by
    intro c
    rw [Finset.sum_mul, Finset.mul_sum, ← Finset.sum_add_distrib, Finset.sum_eq_single k]
    · rw [Matrix.smul_mul, Matrix.mul_smul, ← smul_add, al_anticomm, swapS_apply, if_pos rfl, one_smul]
    · intro l _ hl
      rw [Matrix.smul_mul, Matrix.mul_smul, ← smul_add, al_anticomm, swapS_apply, if_neg, zero_smul, smul_zero]
      intro h
      exact hl (by rw [← fl_fl l, ← h, fl_fl])
    · simp
  have h1 := e a
  rw [h, e b] at h1
  have h2 := congrFun (congrFun h1 ⟨0, by positivity⟩) ⟨0, by positivity⟩
  simpa using h2.symm

/-- with eigenvalue -1 the rotation obtained is far from `C` -/
theorem minus_one_far {n : ℕ} {C L C' : Op (n + n)} (hC : C * Cᴴ = 1) (hcan : IsCanonicalU C) (hL : Spec.IsPrincipalLog C L)
    {v : Fin (n + n) → ℂ} (hv : C *ᵥ v = -v) (hv0 : v ≠ 0) {η : ℝ} (h1 : ∀ k l, ‖(C' - expm (phSym L)) k l‖ ≤ η)
    (h2 : ∀ k l, ‖C' k l - C k l‖ ≤ η) : 1 ≤ 2 * n * η := by
  have hE : expm (phSym L) *ᵥ v = v := by
    have := expm_eigenvector (phSym L) v 0 (by rw [phSym_minus_one hC hcan hL hv, zero_smul])
    rwa [Complex.exp_zero, one_smul] at this
  have hne : (Finset.univ : Finset (Fin (n + n))).Nonempty := by
    by_contra h
    rw [Finset.not_nonempty_iff_eq_empty] at h
    apply hv0
    funext i
    exact absurd (Finset.mem_univ i) (by rw [h]; simp)
  obtain ⟨i, -, hi⟩ := Finset.exists_max_image Finset.univ (fun i => ‖v i‖) hne
  have hpos : 0 < ‖v i‖ := by
    by_contra h
    apply hv0
    funext j
    have := hi j (Finset.mem_univ j)
    exact norm_le_zero_iff.1 (this.trans (not_lt.1 h))
  have e : (2 : ℂ) * v i = ∑ l, (expm (phSym L) i l - C i l) * v l := by
    have a1 := congrFun hE i
    have a2 := congrFun hv i
    simp only [mulVec, dotProduct, Pi.neg_apply] at a1 a2
    simp only [sub_mul, Finset.sum_sub_distrib, a1, a2]
    ring
  have hb : ∀ l, ‖(expm (phSym L) i l - C i l) * v l‖ ≤ 2 * η * ‖v i‖ := by
    intro l
    rw [norm_mul]
    refine mul_le_mul ?_ (hi l (Finset.mem_univ l)) (norm_nonneg _) ?_
    · have a1 := h1 i l
      have a2 := h2 i l
      rw [Matrix.sub_apply] at a1
      have : expm (phSym L) i l - C i l = (C' i l - C i l) - (C' i l - expm (phSym L) i l) := by ring
      rw [this]
      exact (norm_sub_le _ _).trans (by linarith)
    · have := (norm_nonneg _).trans (h2 i l)
      linarith
  have h3 : ‖(2 : ℂ) * v i‖ ≤ (n + n : ℕ) * (2 * η * ‖v i‖) := by
    rw [e]
    refine (norm_sum_le _ _).trans ((Finset.sum_le_sum fun l _ => hb l).trans ?_)
    simp
  rw [norm_mul, Complex.norm_ofNat] at h3
  push_cast at h3
  have : 2 * ‖v i‖ ≤ (4 * n * η) * ‖v i‖ := by linarith
  have := le_of_mul_le_mul_right this hpos
  linarith

end FF
