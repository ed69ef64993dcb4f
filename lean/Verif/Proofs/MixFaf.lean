import Verif.Proofs.FafMore
import Verif.Proofs.Reduced
import Verif.Proofs.Mix
import Mathlib.Analysis.Matrix.Spectrum
import Mathlib.Analysis.Convex.Mul

/-! # Helper lemmas: a trace inequality for skew matrices -/

namespace FF

open Matrix

variable {ι κ : Type} [Fintype ι] [DecidableEq ι] [Fintype κ] [DecidableEq κ]

/-- Peierls' inequality for even powers. -/
theorem peierls {H V : Matrix ι ι ℂ} (hH : H.IsHermitian) (hV : Vᴴ * V = 1) (k : ℕ) :
    ∑ j, ((Vᴴ * H * V) j j).re ^ (2 * k) ≤ ((H ^ (2 * k)).trace).re := by
  let U : Matrix ι ι ℂ := hH.eigenvectorUnitary
  have u1 : U * Uᴴ = 1 := mem_unitaryGroup_iff.1 hH.eigenvectorUnitary.2
  have u2 : Uᴴ * U = 1 := mem_unitaryGroup_iff'.1 hH.eigenvectorUnitary.2
  set l := hH.eigenvalues with hl
  have hs : H = U * diagonal (fun i => (l i : ℂ)) * Uᴴ := by
    have := hH.spectral_theorem
    rw [Unitary.conjStarAlgAut_apply] at this
    exact this
  set W := Vᴴ * U with hW
  have hV' : V * Vᴴ = 1 := mul_eq_one_comm.1 hV
  have w1 : W * Wᴴ = 1 := by
    rw [hW, conjTranspose_mul, conjTranspose_conjTranspose, ← mul_assoc, mul_assoc Vᴴ, u1, mul_one, hV]
  have w2 : Wᴴ * W = 1 := mul_eq_one_comm.1 w1
  have r1 : ∀ j, ∑ i, ‖W j i‖ ^ 2 = 1 := fun j => by
    have h := congrFun (congrFun w1 j) j
    rw [mul_apply, one_apply_eq] at h
    simp only [conjTranspose_apply, Complex.star_def, Complex.mul_conj, Complex.normSq_eq_norm_sq] at h
    exact_mod_cast h
  have r2 : ∀ i, ∑ j, ‖W j i‖ ^ 2 = 1 := fun i => by
    have h := congrFun (congrFun w2 i) i
    rw [mul_apply, one_apply_eq] at h
    simp only [conjTranspose_apply, Complex.star_def, mul_comm ((starRingEnd ℂ) _), Complex.mul_conj, Complex.normSq_eq_norm_sq] at h
    exact_mod_cast h
  have e1 : ∀ j, ((Vᴴ * H * V) j j).re = ∑ i, ‖W j i‖ ^ 2 • l i := fun j => by
    have : Vᴴ * H * V = W * diagonal (fun i => (l i : ℂ)) * Wᴴ := by
      rw [hs, hW, conjTranspose_mul, conjTranspose_conjTranspose]; simp only [mul_assoc]
    rw [this, mul_apply, Complex.re_sum]
    refine Finset.sum_congr rfl fun i _ => ?_
    rw [mul_diagonal, conjTranspose_apply, Complex.star_def, mul_right_comm, Complex.mul_conj, Complex.normSq_eq_norm_sq]
    rw [smul_eq_mul, ← Complex.ofReal_mul, Complex.ofReal_re]
  have e2 : ((H ^ (2 * k)).trace).re = ∑ i, l i ^ (2 * k) := by
    have : H ^ (2 * k) = U * diagonal (fun i => (l i : ℂ)) ^ (2 * k) * Uᴴ := by
      rw [hs]
      generalize 2 * k = r
      induction r with
      | zero => rw [pow_zero, pow_zero, mul_one, u1]
      | succ r ih =>
        rw [pow_succ, ih, pow_succ]
        simp only [mul_assoc]
        rw [← mul_assoc Uᴴ U, u2, one_mul]
    rw [this, trace_mul_comm, ← mul_assoc, u2, one_mul, diagonal_pow, trace_diagonal, Complex.re_sum]
    refine Finset.sum_congr rfl fun i _ => ?_
    rw [Pi.pow_apply, ← Complex.ofReal_pow, Complex.ofReal_re]
  rw [e2]
  calc ∑ j, ((Vᴴ * H * V) j j).re ^ (2 * k) ≤ ∑ j, ∑ i, ‖W j i‖ ^ 2 • l i ^ (2 * k) := by
        refine Finset.sum_le_sum fun j _ => ?_
        rw [e1]
        exact ((even_two_mul k).convexOn_pow (𝕜 := ℝ)).map_sum_le (fun i _ => by positivity) (r1 j) fun i _ => Set.mem_univ _
    _ = ∑ i, l i ^ (2 * k) := by
        rw [Finset.sum_comm]
        refine Finset.sum_congr rfl fun i _ => ?_
        rw [← Finset.sum_smul, r2, one_smul]

/-- A skew matrix times the imaginary unit. -/
noncomputable def hermOf (M : Matrix ι ι ℝ) : Matrix ι ι ℂ := Complex.I • M.map (fun x => (x : ℂ))

theorem hermOf_herm {M : Matrix ι ι ℝ} (h : Mᵀ = -M) : (hermOf M).IsHermitian := by
  ext i j
  have := congrFun (congrFun h i) j
  rw [transpose_apply, Matrix.neg_apply] at this
  simp only [hermOf, conjTranspose_apply, Matrix.smul_apply, Matrix.map_apply, smul_eq_mul, Complex.star_def, map_mul, Complex.conj_I,
    Complex.conj_ofReal, this]
  push_cast; ring

theorem hermOf_pow {M : Matrix ι ι ℝ} (h : Mᵀ = -M) (k : ℕ) : ((hermOf M ^ (2 * k)).trace).re = ((Mᵀ * M) ^ k).trace := by
  have e : hermOf M ^ 2 = (Mᵀ * M).map Complex.ofRealHom := by
    rw [h, sq, hermOf, smul_mul_smul_comm, Complex.I_mul_I, neg_mul, Matrix.map_neg _ (fun x => map_neg _ x), Matrix.map_mul, neg_smul, one_smul]
    rfl
  rw [pow_mul, e, ← Matrix.map_pow, trace, trace, Complex.re_sum]
  rfl

theorem trace_pow_mix {m : ℕ} {w : Fin m → ℝ} (hw : Spec.IsProb w) {M : Fin m → Matrix ι ι ℝ} (hM : ∀ i, (M i)ᵀ = -M i) (k : ℕ) :
    (((∑ i, w i • M i)ᵀ * ∑ i, w i • M i) ^ k).trace ≤ ∑ i, w i * (((M i)ᵀ * M i) ^ k).trace := by
  set N := ∑ i, w i • M i with hN
  have hNs : Nᵀ = -N := by
    rw [hN, transpose_sum, ← Finset.sum_neg_distrib]
    exact Finset.sum_congr rfl fun i _ => by rw [transpose_smul, hM i, smul_neg]
  have hNh := hermOf_herm hNs
  let U : Matrix ι ι ℂ := hNh.eigenvectorUnitary
  have u1 : U * Uᴴ = 1 := mem_unitaryGroup_iff.1 hNh.eigenvectorUnitary.2
  have u2 : Uᴴ * U = 1 := mem_unitaryGroup_iff'.1 hNh.eigenvectorUnitary.2
  set l := hNh.eigenvalues with hl
  have hs : hermOf N = U * diagonal (fun i => (l i : ℂ)) * Uᴴ := by
    have := hNh.spectral_theorem
    rw [Unitary.conjStarAlgAut_apply] at this
    exact this
  have hd : Uᴴ * hermOf N * U = diagonal (fun i => (l i : ℂ)) := by
    rw [hs]
    simp only [mul_assoc]
    rw [u2, mul_one, ← mul_assoc, u2, one_mul]
  have hlin : hermOf N = ∑ i, (w i : ℂ) • hermOf (M i) := by
    ext x y
    rw [hN, Matrix.sum_apply]
    simp only [hermOf, Matrix.smul_apply, Matrix.map_apply, smul_eq_mul, Matrix.sum_apply]
    push_cast
    rw [Finset.mul_sum]
    exact Finset.sum_congr rfl fun i _ => by ring
  have hdj : ∀ j, l j = ∑ i, w i • ((Uᴴ * hermOf (M i) * U) j j).re := fun j => by
    have h := congrFun (congrFun hd j) j
    rw [diagonal_apply_eq, hlin, Matrix.mul_sum, Matrix.sum_mul, Matrix.sum_apply] at h
    have h' := congrArg Complex.re h
    rw [Complex.ofReal_re, Complex.re_sum] at h'
    rw [← h']
    refine Finset.sum_congr rfl fun i _ => ?_
    rw [Matrix.mul_smul, Matrix.smul_mul, Matrix.smul_apply, smul_eq_mul, smul_eq_mul, Complex.re_ofReal_mul]
  have ht : (((Nᵀ * N) ^ k).trace) = ∑ j, l j ^ (2 * k) := by
    rw [← hermOf_pow hNs]
    have : hermOf N ^ (2 * k) = U * diagonal (fun i => (l i : ℂ)) ^ (2 * k) * Uᴴ := by
      rw [hs]
      generalize 2 * k = r
      induction r with
      | zero => rw [pow_zero, pow_zero, mul_one, u1]
      | succ r ih =>
        rw [pow_succ, ih, pow_succ]
        simp only [mul_assoc]
        rw [← mul_assoc Uᴴ U, u2, one_mul]
    rw [this, trace_mul_comm, ← mul_assoc, u2, one_mul, diagonal_pow, trace_diagonal, Complex.re_sum]
    refine Finset.sum_congr rfl fun i _ => ?_
    rw [Pi.pow_apply, ← Complex.ofReal_pow, Complex.ofReal_re]
  rw [ht]
  calc ∑ j, l j ^ (2 * k) ≤ ∑ j, ∑ i, w i • ((Uᴴ * hermOf (M i) * U) j j).re ^ (2 * k) := by
        refine Finset.sum_le_sum fun j _ => ?_
        rw [hdj]
        exact ((even_two_mul k).convexOn_pow (𝕜 := ℝ)).map_sum_le (fun i _ => hw.nonneg i) hw.sum_one fun i _ => Set.mem_univ _
    _ = ∑ i, w i * ∑ j, ((Uᴴ * hermOf (M i) * U) j j).re ^ (2 * k) := by
        rw [Finset.sum_comm]
        exact Finset.sum_congr rfl fun i _ => by simp only [smul_eq_mul, Finset.mul_sum]
    _ ≤ _ := Finset.sum_le_sum fun i _ => mul_le_mul_of_nonneg_left (by
        rw [← hermOf_pow (hM i)]; exact peierls (hermOf_herm (hM i)) u2 k) (hw.nonneg i)

/-- The mean of a skew matrix and a reflection of it. -/
theorem trace_pow_reflect {M D : Matrix ι ι ℝ} (hM : Mᵀ = -M) (hD : D * D = 1) (hD' : Dᵀ = D) (s : ℝ) (hs : s = 1 ∨ s = -1) (k : ℕ) :
    ((((1 / 2 : ℝ) • (M + s • (D * M * D)))ᵀ * ((1 / 2 : ℝ) • (M + s • (D * M * D)))) ^ k).trace ≤ ((Mᵀ * M) ^ k).trace := by
  have hw : Spec.IsProb ![(1 / 2 : ℝ), 1 / 2] := ⟨by intro i; fin_cases i <;> norm_num, by norm_num [Fin.sum_univ_two]⟩
  have h2 : (s • (D * M * D))ᵀ = -(s • (D * M * D)) := by
    rw [transpose_smul, transpose_mul, transpose_mul, hD', hM]; simp [mul_assoc]
  have := trace_pow_mix hw (M := ![M, s • (D * M * D)]) (by intro i; fin_cases i; exacts [hM, h2]) k
  simp only [Fin.sum_univ_two, Matrix.cons_val_zero, Matrix.cons_val_one] at this
  rw [← smul_add] at this
  refine this.trans (le_of_eq ?_)
  have hss : s * s = 1 := by rcases hs with rfl | rfl <;> norm_num
  have e : (s • (D * M * D))ᵀ * (s • (D * M * D)) = D * (Mᵀ * M) * D := by
    rw [transpose_smul, smul_mul_smul_comm, hss, one_smul, transpose_mul, transpose_mul, hD']
    calc D * (Mᵀ * D) * (D * M * D) = D * Mᵀ * (D * D) * M * D := by simp only [mul_assoc]
      _ = _ := by rw [hD, mul_one]; simp only [mul_assoc]
  have e2 : ∀ r : ℕ, (D * (Mᵀ * M) * D) ^ r = D * (Mᵀ * M) ^ r * D := by
    intro r
    induction r with
    | zero => rw [pow_zero, pow_zero, mul_one, hD]
    | succ r ih =>
      rw [pow_succ, ih, pow_succ]
      calc D * (Mᵀ * M) ^ r * D * (D * (Mᵀ * M) * D) = D * (Mᵀ * M) ^ r * (D * D) * (Mᵀ * M) * D := by simp only [mul_assoc]
        _ = _ := by rw [hD, mul_one]; simp only [mul_assoc]
  rw [e, e2, trace_mul_comm (D * _), ← mul_assoc, hD, one_mul]
  ring

theorem trace_pow_pinch {A : Matrix ι ι ℝ} {B : Matrix ι κ ℝ} {C : Matrix κ ι ℝ} {E : Matrix κ κ ℝ}
    (h : (fromBlocks A B C E)ᵀ = -fromBlocks A B C E) (k : ℕ) :
    ((Aᵀ * A) ^ k).trace + ((Eᵀ * E) ^ k).trace ≤ (((fromBlocks A B C E)ᵀ * fromBlocks A B C E) ^ k).trace := by
  have hD : (fromBlocks (1 : Matrix ι ι ℝ) 0 0 (-1 : Matrix κ κ ℝ)) * fromBlocks 1 0 0 (-1) = 1 := by
    rw [fromBlocks_multiply]; simp [fromBlocks_one]
  have := trace_pow_reflect h hD (by rw [fromBlocks_transpose]; simp) 1 (.inl rfl) k
  have e : (1 / 2 : ℝ) • (fromBlocks A B C E + (1 : ℝ) • (fromBlocks (1 : Matrix ι ι ℝ) 0 0 (-1 : Matrix κ κ ℝ) * fromBlocks A B C E *
      fromBlocks 1 0 0 (-1))) = fromBlocks A 0 0 E := by
    rw [one_smul, fromBlocks_multiply, fromBlocks_multiply, fromBlocks_add, fromBlocks_smul]
    have e2 : ∀ {μ : Type} (X : Matrix μ μ ℝ), (1 / 2 : ℝ) • (X + X) = X := fun X => by
      rw [← two_smul ℝ, smul_smul]; norm_num
    congr 1
    · simpa using e2 A
    · simp
    · simp
    · simpa using e2 E
  have e3 : (fromBlocks A 0 0 E)ᵀ * fromBlocks A 0 0 E = fromBlocks (Aᵀ * A) 0 0 (Eᵀ * E) := by
    rw [fromBlocks_transpose, fromBlocks_multiply]; simp
  rw [e, e3, fromBlocks_diagonal_pow] at this
  refine le_trans (le_of_eq ?_) this
  simp [trace, Fintype.sum_sum_type]

/-! ## covariance matrices of mixtures, of parts and of real parts -/

open scoped ComplexOrder

theorem majCov_mix {m n : ℕ} (g : Fin (n + n) → Op (2 ^ n)) (w : Fin m → ℝ) (ρ : Fin m → Op (2 ^ n)) :
    majCov g (Spec.mixedState w ρ) = ∑ i, w i • majCov g (ρ i) := by
  ext x y
  rw [Matrix.sum_apply, majCov, of_apply, Spec.mixedState, Matrix.sum_mul, trace_sum, Finset.mul_sum, Complex.re_sum]
  refine Finset.sum_congr rfl fun i _ => ?_
  rw [Matrix.smul_mul, trace_smul, Matrix.smul_apply, majCov, of_apply, smul_eq_mul, smul_eq_mul, ← Complex.re_ofReal_mul]
  congr 1; ring

variable {a b : ℕ}

theorem majCov_rd1 (ρ : Op (2 ^ (a + b))) (x y : Fin (b + b)) :
    majCov (mj (a + b)) ρ (Spec.lastSites a b x) (Spec.lastSites a b y) = majCov (mj b) (rd1 ρ) x y := by
  simp only [majCov, of_apply, mj_last, kr_mul, zAll_sq, Matrix.mul_sub, trace_sub, rd1_trace]

theorem majCov_rd2 (ρ : Op (2 ^ (a + b))) (x y : Fin (a + a)) :
    majCov (mj (a + b)) ρ (Spec.firstSites a b x) (Spec.firstSites a b y) = majCov (mj a) (rd2 ρ) x y := by
  simp only [majCov, of_apply, mj_first, kr_mul, Matrix.mul_one, Matrix.mul_sub, trace_sub, rd2_trace]

theorem trace_pow_submatrix (e : ι ≃ κ) (M : Matrix κ κ ℝ) (k : ℕ) :
    (((M.submatrix e e)ᵀ * M.submatrix e e) ^ k).trace = ((Mᵀ * M) ^ k).trace := by
  have h1 : (M.submatrix e e)ᵀ * M.submatrix e e = (Mᵀ * M).submatrix e e := by
    rw [transpose_submatrix, submatrix_mul_equiv]
  have h2 : ∀ r : ℕ, ((Mᵀ * M).submatrix e e) ^ r = ((Mᵀ * M) ^ r).submatrix e e := by
    intro r
    induction r with
    | zero => rw [pow_zero, pow_zero, submatrix_one_equiv]
    | succ r ih => rw [pow_succ, ih, pow_succ, submatrix_mul_equiv]
  rw [h1, h2, trace, trace]
  exact e.sum_comp fun i => ((Mᵀ * M) ^ k) i i

theorem trace_pow_parts (ρ : Op (2 ^ (a + b))) (k : ℕ) :
    (((majCov (mj a) (rd2 ρ))ᵀ * majCov (mj a) (rd2 ρ)) ^ k).trace + (((majCov (mj b) (rd1 ρ))ᵀ * majCov (mj b) (rd1 ρ)) ^ k).trace ≤
      (((majCov (mj (a + b)) ρ)ᵀ * majCov (mj (a + b)) ρ) ^ k).trace := by
  set M := majCov (mj (a + b)) ρ with hM
  have hs : Mᵀ = -M := majCov_skew
  rw [← trace_pow_submatrix (siteEquiv a b) M]
  set N := M.submatrix (siteEquiv a b) (siteEquiv a b) with hN
  have e : N = fromBlocks (majCov (mj a) (rd2 ρ)) N.toBlocks₁₂ N.toBlocks₂₁ (majCov (mj b) (rd1 ρ)) := by
    conv_lhs => rw [← fromBlocks_toBlocks N]
    congr 1
    · ext x y; exact majCov_rd2 ρ x y
    · ext x y; exact majCov_rd1 ρ x y
  have hNs : Nᵀ = -N := by rw [hN, transpose_submatrix, hs]; rfl
  rw [e] at hNs ⊢
  exact trace_pow_pinch hNs k

/-- The sign of a Majorana operator under transposition. -/
def tsign (n : ℕ) (j : Fin (n + n)) : ℝ := Fin.addCases (fun _ => 1) (fun _ => -1) j

theorem conj_nu : star nu = nu := by
  rw [nu]
  simp

theorem mj_transpose {n : ℕ} (hH : ∀ i, (mj n i).IsHermitian) (j : Fin (n + n)) : (mj n j)ᵀ = (tsign n j : ℂ) • mj n j := by
  have hr : ∀ (k : Fin (n + n)) x y, star (al n k x y) = al n k x y := fun k x y => Complex.conj_eq_iff_im.2 (al_real k x y)
  have h : ∀ x y, star (mj n j x y) = tsign n j * mj n j x y := by
    intro x y
    refine Fin.addCases (fun i => ?_) (fun i => ?_) j
    · rw [mj_left, tsign, Fin.addCases_left]
      simp only [Matrix.add_apply, Matrix.smul_apply, smul_eq_mul, star_add, star_mul', hr, buildOmega, blk_11, blk_12, Matrix.smul_apply,
        one_apply_eq, mul_one, conj_nu]
      push_cast; ring
    · rw [mj_right, tsign, Fin.addCases_right]
      simp only [Matrix.add_apply, Matrix.smul_apply, smul_eq_mul, star_add, star_mul', star_neg, hr, buildOmega, blk_21, blk_22,
        one_apply_eq, mul_one, conj_nu, Complex.star_def, Complex.conj_I]
      push_cast; ring
  ext x y
  rw [transpose_apply, Matrix.smul_apply, smul_eq_mul, ← h, ← congrFun (congrFun (hH j) y) x, conjTranspose_apply]

theorem majCov_transpose {n : ℕ} (hH : ∀ i, (mj n i).IsHermitian) (ρ : Op (2 ^ n)) :
    majCov (mj n) ρᵀ = (-1 : ℝ) • (diagonal (tsign n) * majCov (mj n) ρ * diagonal (tsign n)) := by
  ext i j
  rw [Matrix.smul_apply, mul_diagonal, diagonal_mul, majCov, majCov, of_apply, of_apply]
  have : (ρᵀ * (mj n i * mj n j - mj n j * mj n i)).trace = (-(tsign n i * tsign n j) : ℝ) * (ρ * (mj n i * mj n j - mj n j * mj n i)).trace := by
    rw [← trace_transpose, transpose_mul, transpose_transpose, transpose_sub, transpose_mul, transpose_mul, mj_transpose hH, mj_transpose hH,
      smul_mul_smul_comm, smul_mul_smul_comm, mul_comm (tsign n j : ℂ), ← smul_sub, Matrix.smul_mul, trace_smul, trace_mul_comm, ← neg_sub (mj n i * mj n j),
      Matrix.mul_neg, trace_neg, smul_eq_mul]
    push_cast; ring
  rw [this, smul_eq_mul, mul_left_comm, Complex.re_ofReal_mul]
  ring

theorem trace_pow_reMat {n : ℕ} (hH : ∀ i, (mj n i).IsHermitian) {ρ : Op (2 ^ n)} (hρ : ρ.IsHermitian) (k : ℕ) :
    (((majCov (mj n) (reMat ρ))ᵀ * majCov (mj n) (reMat ρ)) ^ k).trace ≤ (((majCov (mj n) ρ)ᵀ * majCov (mj n) ρ) ^ k).trace := by
  have hd : diagonal (tsign n) * diagonal (tsign n) = 1 := by
    rw [diagonal_mul_diagonal, ← diagonal_one]
    congr 1
    funext j
    refine Fin.addCases (fun i => ?_) (fun i => ?_) j
    · rw [tsign, Fin.addCases_left, mul_one]
    · rw [tsign, Fin.addCases_right]; norm_num
  have e : majCov (mj n) (reMat ρ) = (1 / 2 : ℝ) • (majCov (mj n) ρ + (-1 : ℝ) • (diagonal (tsign n) * majCov (mj n) ρ * diagonal (tsign n))) := by
    rw [← majCov_transpose hH, reMat_eq hρ]
    ext i j
    rw [Matrix.smul_apply, Matrix.add_apply, majCov, majCov, majCov, of_apply, of_apply, of_apply, Matrix.smul_mul, trace_smul, Matrix.add_mul,
      trace_add, Complex.real_smul, mul_left_comm, Complex.re_ofReal_mul, mul_add, Complex.add_re, smul_eq_mul]
  rw [e]
  exact trace_pow_reflect majCov_skew hd (diagonal_transpose _) (-1) (.inr rfl) k

theorem rd1_density {a b : ℕ} {ρ : Op (2 ^ (a + b))} (h : Spec.IsDensity ρ) : Spec.IsDensity (rd1 ρ) := by
  constructor
  · have e : rd1 ρ = ∑ j, ρ.submatrix (fun x => sIdx a b (j, x)) (fun x => sIdx a b (j, x)) := by
      ext x y
      rw [sum_apply2]
      rfl
    rw [e]
    exact posSemidef_sum _ fun _ _ => h.psd.submatrix _
  · rw [← h.trace_one, trace_sites, Finset.sum_comm]
    rfl

theorem rd2_density {a b : ℕ} {ρ : Op (2 ^ (a + b))} (h : Spec.IsDensity ρ) : Spec.IsDensity (rd2 ρ) := by
  constructor
  · have e : rd2 ρ = ∑ k, ρ.submatrix (fun x => sIdx a b (x, k)) (fun x => sIdx a b (x, k)) := by
      ext x y
      rw [sum_apply2]
      rfl
    rw [e]
    exact posSemidef_sum _ fun _ _ => h.psd.submatrix _
  · rw [← h.trace_one, trace_sites]
    rfl

theorem maj_exists (n : ℕ) : ∃ g, jordanWignerMajoranas n = List.ofFn (n := n + n) g := ⟨_, jordanWignerMajoranas_eq n⟩

theorem mixed_density {m d : ℕ} {w : Fin m → ℝ} (hw : Spec.IsProb w) {ρ : Fin m → Op d} (h : ∀ i, Spec.IsDensity (ρ i)) :
    Spec.IsDensity (Spec.mixedState w ρ) := by
  constructor
  · exact posSemidef_sum _ fun i _ => (h i).psd.smul (by exact_mod_cast hw.nonneg i)
  · rw [Spec.mixedState, trace_sum]
    simp only [trace_smul, (h _).trace_one, smul_eq_mul, mul_one]
    exact_mod_cast hw.sum_one

theorem prob_rep {d : ℕ} {p : Fin d → ℝ} (hp : Spec.IsProb p) : Spec.Represents (.mat d d (diagonal fun i => (p i : ℂ))) p := by
  refine .inr (.inl ⟨_, ⟨PosSemidef.diagonal fun i => show (0 : ℂ) ≤ _ by exact_mod_cast hp.nonneg i, ?_⟩, rfl, fun i => by rw [diagonal_apply_eq]⟩)
  rw [trace_diagonal]
  exact_mod_cast hp.sum_one

end FF
