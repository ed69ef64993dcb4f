import Verif.Proofs.MixFaf
import Verif.Proofs.Info
import Verif.Proofs.SchurExists
import Mathlib.Analysis.SpecialFunctions.Log.NegMulLog

/-! # Lemmas for C144: continuity of entropies, correlations and anti-flatness -/

namespace FF

open Finset Matrix
open scoped ComplexOrder

section

variable {d : ℕ} {p q : Fin d → ℝ}

theorem eta_add_le {x y : ℝ} (hx : 0 ≤ x) (hy : 0 ≤ y) : Real.negMulLog (x + y) ≤ Real.negMulLog x + Real.negMulLog y := by
  rcases eq_or_lt_of_le hx with rfl | hx
  · simp
  rcases eq_or_lt_of_le hy with rfl | hy
  · simp
  have h1 := mul_le_mul_of_nonneg_left (Real.log_le_log hx (show x ≤ x + y by linarith)) hx.le
  have h2 := mul_le_mul_of_nonneg_left (Real.log_le_log hy (show y ≤ x + y by linarith)) hy.le
  simp only [Real.negMulLog]
  linarith

theorem eta_sum_le {S : Finset (Fin d)} (hS : S.Nonempty) {a : Fin d → ℝ} (ha : ∀ i, 0 ≤ a i) {t : ℝ} (ht : 0 < t)
    (hs : ∑ i ∈ S, a i = t) : ∑ i ∈ S, Real.negMulLog (a i) ≤ t * Real.log S.card + Real.negMulLog t := by
  have hc : (0 : ℝ) < S.card := by exact_mod_cast hS.card_pos
  have h := Real.concaveOn_negMulLog.le_map_sum (t := S) (w := fun _ => (1 : ℝ) / S.card) (p := a) (fun i _ => by positivity)
    (by rw [sum_const, nsmul_eq_mul]; field_simp) fun i _ => ha i
  simp only [smul_eq_mul, ← mul_sum, hs] at h
  have e : Real.negMulLog (1 / S.card * t) = 1 / S.card * (t * Real.log S.card + Real.negMulLog t) := by
    rw [Real.negMulLog, Real.negMulLog, Real.log_mul (by positivity) ht.ne', one_div, Real.log_inv]
    ring
  rw [e] at h
  exact le_of_mul_le_mul_left h (by positivity)

theorem shannon_eta (p : Fin d → ℝ) : Spec.renyi p 1 = ∑ i, Real.negMulLog (p i) := by
  rw [Spec.renyi, if_pos rfl, ← sum_neg_distrib]
  exact sum_congr rfl fun i _ => by rw [Real.negMulLog]; ring

theorem tvd_parts (hp : Spec.IsProb p) (hq : Spec.IsProb q) :
    ∑ i, (p i - min (p i) (q i)) = tvd p q ∧ ∑ i, min (p i) (q i) = 1 - tvd p q := by
  have h : ∑ i, (p i - min (p i) (q i)) = tvd p q := by
    have : ∀ i, p i - min (p i) (q i) = 0.5 * |p i - q i| + 0.5 * (p i - q i) := fun i => by
      rw [min_def]; split_ifs with h
      · rw [abs_of_nonpos (by linarith)]; ring
      · rw [abs_of_nonneg (by linarith)]; ring
    rw [sum_congr rfl fun i _ => this i, sum_add_distrib, ← mul_sum, ← mul_sum, sum_sub_distrib, hp.sum_one, hq.sum_one, tvd]
    ring
  refine ⟨h, ?_⟩
  rw [sum_sub_distrib, hp.sum_one] at h
  linarith

/-- The Fannes inequality for distributions. -/
theorem fannes (hp : Spec.IsProb p) (hq : Spec.IsProb q) :
    Spec.renyi p 1 - Spec.renyi q 1 ≤ tvd p q * Real.log (d - 1) + Real.negMulLog (tvd p q) + Real.negMulLog (1 - tvd p q) := by
  obtain ⟨hA, hC⟩ := tvd_parts hp hq
  have hB := (tvd_parts hq hp).1
  have hcomm : tvd q p = tvd p q := by rw [tvd, tvd]; simp only [abs_sub_comm]
  rw [hcomm] at hB
  set t := tvd p q with ht
  set c : Fin d → ℝ := fun i => min (p i) (q i) with hc
  set a : Fin d → ℝ := fun i => p i - c i with ha
  set b : Fin d → ℝ := fun i => q i - c i with hb
  have hc0 : ∀ i, 0 ≤ c i := fun i => le_min (hp.nonneg i) (hq.nonneg i)
  have ha0 : ∀ i, 0 ≤ a i := fun i => sub_nonneg.2 (min_le_left _ _)
  have hb0 : ∀ i, 0 ≤ b i := fun i => sub_nonneg.2 (min_le_right _ _)
  have hB' : ∑ i, b i = t := by
    rw [← hB]; exact sum_congr rfl fun i _ => by rw [hb, hc]; simp only [min_comm]
  have hA' : ∑ i, a i = t := hA
  have hC' : ∑ i, c i = 1 - t := hC
  have ht0 : 0 ≤ t := hA' ▸ sum_nonneg fun i _ => ha0 i
  have ht1 : t ≤ 1 := by have := sum_nonneg fun i (_ : i ∈ univ) => hc0 i; linarith
  rw [shannon_eta, shannon_eta]
  rcases eq_or_lt_of_le ht0 with h0 | h0
  · have e : p = q := by
      funext i
      rw [← h0] at hA' hB'
      have h1 := (sum_eq_zero_iff_of_nonneg fun i _ => ha0 i).1 hA' i (mem_univ i)
      have h2 := (sum_eq_zero_iff_of_nonneg fun i _ => hb0 i).1 hB' i (mem_univ i)
      simp only [ha, hb] at h1 h2
      linarith
    rw [← h0, e]
    simp
  -- the part of `p` outside the overlap misses an outcome
  have h1 : ∑ i, Real.negMulLog (a i) ≤ t * Real.log (d - 1) + Real.negMulLog t := by
    obtain ⟨k, hk⟩ : ∃ k, b k ≠ 0 := by
      by_contra h
      push Not at h
      rw [sum_eq_zero fun i _ => h i] at hB'
      exact h0.ne hB'
    have hak : a k = 0 := by
      simp only [ha, hb, hc] at hk ⊢
      rw [min_def] at hk ⊢
      split_ifs at hk ⊢
      · ring
      · simp at hk
    have e1 : ∑ i ∈ univ.erase k, a i = t := by rw [sum_erase _ hak, hA']
    have hne : (univ.erase k).Nonempty := by
      rw [nonempty_iff_ne_empty]
      intro h
      rw [h, sum_empty] at e1
      exact h0.ne e1
    have := eta_sum_le hne ha0 h0 e1
    rw [sum_erase _ (by rw [hak, Real.negMulLog_zero]), card_erase_of_mem (mem_univ k), card_univ, Fintype.card_fin,
      Nat.cast_sub (Nat.one_le_iff_ne_zero.2 fun h => by subst h; exact k.elim0), Nat.cast_one] at this
    exact this
  have h2 : ∑ i, Real.negMulLog (p i) ≤ ∑ i, Real.negMulLog (c i) + ∑ i, Real.negMulLog (a i) := by
    rw [← sum_add_distrib]
    refine sum_le_sum fun i _ => ?_
    rw [show p i = c i + a i by simp [ha]]
    exact eta_add_le (hc0 i) (ha0 i)
  have h3 : ∑ i, Real.negMulLog (c i) - Real.negMulLog (1 - t) ≤ ∑ i, Real.negMulLog (q i) := by
    rcases eq_or_lt_of_le ht1 with h | h
    · have hz : ∀ i, c i = 0 := fun i => by
        rw [h, sub_self] at hC'
        exact (sum_eq_zero_iff_of_nonneg fun i _ => hc0 i).1 hC' i (mem_univ i)
      rw [sum_eq_zero fun i _ => by rw [hz i, Real.negMulLog_zero], h, sub_self, Real.negMulLog_zero, sub_zero]
      exact sum_nonneg fun i _ => Real.negMulLog_nonneg (hq.nonneg i) (prob_le_one hq i)
    have h1t : 0 < 1 - t := by linarith
    have key : ∀ i, Real.negMulLog (c i) - c i / (1 - t) * Real.negMulLog (1 - t) ≤ Real.negMulLog (q i) := by
      intro i
      have hbt : b i / t ≤ 1 := by
        rw [div_le_one h0, ← hB']
        exact single_le_sum (fun j _ => hb0 j) (mem_univ i)
      have hcv := Real.concaveOn_negMulLog.2 (Set.mem_Ici.2 (div_nonneg (hc0 i) h1t.le)) (Set.mem_Ici.2 (div_nonneg (hb0 i) h0.le))
        h1t.le h0.le (by ring)
      simp only [smul_eq_mul] at hcv
      rw [mul_div_cancel₀ _ h1t.ne', mul_div_cancel₀ _ h0.ne', show c i + b i = q i by simp [hb]] at hcv
      have e : (1 - t) * Real.negMulLog (c i / (1 - t)) = Real.negMulLog (c i) - c i / (1 - t) * Real.negMulLog (1 - t) := by
        have := Real.negMulLog_mul (1 - t) (c i / (1 - t))
        rw [mul_div_cancel₀ _ h1t.ne'] at this
        linarith
      have hnn := mul_nonneg h0.le (Real.negMulLog_nonneg (div_nonneg (hb0 i) h0.le) hbt)
      linarith
    have := sum_le_sum fun i (_ : i ∈ univ) => key i
    rw [sum_sub_distrib, ← sum_mul, ← sum_div, hC', div_self h1t.ne', one_mul] at this
    exact this
  linarith

theorem sumsq_close (hp : Spec.IsProb p) (hq : Spec.IsProb q) : ∑ i, p i ^ 2 - ∑ i, q i ^ 2 ≤ 2 * tvd p q := by
  rw [← (tvd_parts hp hq).1, mul_sum, ← sum_sub_distrib]
  refine sum_le_sum fun i _ => ?_
  have h1 := prob_le_one hp i
  have h2 := prob_le_one hq i
  have h3 := hp.nonneg i
  have h4 := hq.nonneg i
  rw [min_def]
  split_ifs with h
  · nlinarith
  · nlinarith

end

section

variable {d : ℕ}

/-- An observable of norm at most one changes by at most the trace norm. -/
theorem tnorm_contraction {X : Op d} (hX : X.IsHermitian) {E : Op d} (hE : (1 - E * Eᴴ).PosSemidef) : ‖(E * X).trace‖ ≤ tnorm X := by
  obtain ⟨U, l, h1, h2, h3, h4⟩ := herm_diag hX
  rw [tnorm_eq h4]
  have e : (E * X).trace = ∑ i, (Uᴴ * E * U) i i * (l i : ℂ) := by
    rw [h3, ← mul_assoc, ← mul_assoc, trace_mul_comm, ← mul_assoc, ← mul_assoc, trace]
    simp only [diag_apply, mul_diagonal]
  have hV : (1 - (Uᴴ * E * U) * (Uᴴ * E * U)ᴴ).PosSemidef := by
    have := hE.conjTranspose_mul_mul_same U
    have e2 : Uᴴ * (1 - E * Eᴴ) * U = 1 - (Uᴴ * E * U) * (Uᴴ * E * U)ᴴ := by
      rw [conjTranspose_mul, conjTranspose_mul, conjTranspose_conjTranspose, mul_sub, sub_mul, mul_one, h2]
      congr 1
      calc Uᴴ * (E * Eᴴ) * U = Uᴴ * E * 1 * Eᴴ * U := by noncomm_ring
        _ = _ := by rw [← h1]; noncomm_ring
    rwa [e2] at this
  rw [e]
  refine (norm_sum_le _ _).trans (Finset.sum_le_sum fun i _ => ?_)
  rw [norm_mul, Complex.norm_real, Real.norm_eq_abs]
  refine mul_le_of_le_one_left (abs_nonneg _) ?_
  have hd := hV.diag_nonneg (i := i)
  rw [Matrix.sub_apply, one_apply_eq, mul_apply] at hd
  simp only [conjTranspose_apply, Complex.star_def, Complex.mul_conj, Complex.normSq_eq_norm_sq] at hd
  have hd' : ∑ j, ‖(Uᴴ * E * U) i j‖ ^ 2 ≤ 1 := by
    rw [← Complex.ofReal_sum, ← Complex.ofReal_one, ← Complex.ofReal_sub] at hd
    have := Complex.zero_le_real.1 hd
    linarith
  have h5 := (single_le_sum (f := fun j => ‖(Uᴴ * E * U) i j‖ ^ 2) (fun j _ => by positivity) (mem_univ i)).trans hd'
  have h6 : ‖(Uᴴ * E * U) i i‖ ^ 2 ≤ 1 ^ 2 := by simpa using h5
  exact (sq_le_sq₀ (norm_nonneg _) zero_le_one).1 h6

theorem contraction_mul {E F : Op d} (hE : (1 - E * Eᴴ).PosSemidef) (hF : (1 - F * Fᴴ).PosSemidef) :
    (1 - (E * F) * (E * F)ᴴ).PosSemidef := by
  have e : 1 - (E * F) * (E * F)ᴴ = (1 - E * Eᴴ) + E * (1 - F * Fᴴ) * Eᴴ := by
    rw [conjTranspose_mul]; noncomm_ring
  rw [e]
  exact hE.add (hF.mul_mul_conjTranspose_same E)

theorem al_contraction {n : ℕ} (i : Fin (n + n)) : (1 - al n i * (al n i)ᴴ).PosSemidef := by
  have h := al_anticomm i (fl i)
  rw [swapS_apply, if_pos rfl, one_smul, ← al_conjTranspose] at h
  rw [← h, add_sub_cancel_left]
  exact posSemidef_conjTranspose_mul_self _

end

section

variable {m : ℕ}

/-- A real matrix that lengthens no vector. -/
def Shortens (M : RMat m) : Prop := ∀ v : Fin m → ℝ, (M *ᵥ v) ⬝ᵥ (M *ᵥ v) ≤ v ⬝ᵥ v

theorem shortens_one : Shortens (1 : RMat m) := fun v => by rw [one_mulVec]

theorem shortens_mul {M N : RMat m} (hM : Shortens M) (hN : Shortens N) : Shortens (M * N) := fun v => by
  rw [← mulVec_mulVec]
  exact (hM _).trans (hN v)

theorem shortens_pow {M : RMat m} (hM : Shortens M) (k : ℕ) : Shortens (M ^ k) := by
  induction k with
  | zero => rw [pow_zero]; exact shortens_one
  | succ k ih => rw [pow_succ]; exact shortens_mul ih hM

theorem shortens_entry {M : RMat m} (hM : Shortens M) (i j : Fin m) : |M i j| ≤ 1 := by
  have h := hM (Pi.single j 1)
  rw [mulVec_single_one] at h
  have h1 : (Pi.single j 1 : Fin m → ℝ) ⬝ᵥ Pi.single j 1 = 1 := by simp
  rw [h1] at h
  have h2 := (single_le_sum (f := fun i => M.col j i * M.col j i) (fun i _ => mul_self_nonneg _) (mem_univ i)).trans h
  simp only [col_apply] at h2
  rw [← sq, ← sq_abs] at h2
  exact (sq_le_one_iff₀ (abs_nonneg _)).1 h2

theorem trace_bound (D : RMat m) {C : RMat m} (hC : Shortens C) : |(D * C).trace| ≤ ∑ i, ∑ j, |D i j| := by
  rw [trace]
  refine (abs_sum_le_sum_abs _ _).trans (sum_le_sum fun i _ => ?_)
  rw [diag_apply, mul_apply]
  refine (abs_sum_le_sum_abs _ _).trans (sum_le_sum fun j _ => ?_)
  rw [abs_mul]
  exact mul_le_of_le_one_right (abs_nonneg _) (shortens_entry hC j i)

theorem trace_pow_close {M N : RMat m} (hM : Shortens M) (hN : Shortens N) (k : ℕ) : ∀ {C : RMat m}, Shortens C →
    |(M ^ k * C).trace - (N ^ k * C).trace| ≤ k * ∑ i, ∑ j, |(M - N) i j| := by
  induction k with
  | zero => intro C _; simp
  | succ k ih =>
    intro C hC
    have e : (M ^ (k + 1) * C).trace - (N ^ (k + 1) * C).trace =
        ((M ^ k * (M * C)).trace - (N ^ k * (M * C)).trace) + ((M - N) * (C * N ^ k)).trace := by
      rw [sub_mul, trace_sub, pow_succ, pow_succ]
      have e1 : (M * (C * N ^ k)).trace = (N ^ k * (M * C)).trace := by
        rw [← mul_assoc, trace_mul_comm]
      have e2 : (N * (C * N ^ k)).trace = (N ^ k * N * C).trace := by
        rw [← mul_assoc, trace_mul_comm, mul_assoc]
      rw [e1, e2, mul_assoc]
      ring
    rw [e]
    refine (abs_add_le _ _).trans ?_
    have h1 := ih (shortens_mul hM hC)
    have h2 := trace_bound (M - N) (shortens_mul hC (shortens_pow hN k))
    push_cast
    linarith

theorem gram_pow {M : RMat m} (h : Mᵀ = -M) (k : ℕ) : ((Mᵀ * M) ^ k).trace = (-1) ^ k * (M ^ (2 * k)).trace := by
  rw [h, neg_mul, neg_pow, ← sq, ← pow_mul]
  rcases Nat.even_or_odd k with hk | hk
  · rw [hk.neg_one_pow, hk.neg_one_pow, one_mul, one_mul]
  · rw [hk.neg_one_pow, hk.neg_one_pow, neg_one_mul, trace_neg, neg_one_mul]

theorem gram_close {M N : RMat m} (h : Mᵀ = -M) (h' : Nᵀ = -N) (hM : Shortens M) (hN : Shortens N) (k : ℕ) :
    |((Mᵀ * M) ^ k).trace - ((Nᵀ * N) ^ k).trace| ≤ 2 * k * ∑ i, ∑ j, |(M - N) i j| := by
  have := trace_pow_close hM hN (2 * k) shortens_one
  rw [mul_one, mul_one] at this
  rw [gram_pow h, gram_pow h', ← mul_sub, abs_mul, abs_pow, abs_neg, abs_one, one_pow, one_mul]
  push_cast at this
  exact this

end

section

variable {n : ℕ} {g : Fin (n + n) → Op (2 ^ n)} {ρ σ : Op (2 ^ n)}

theorem majCov_shortens (hH : ∀ i, (g i).IsHermitian) (hA : ∀ i j, g i * g j + g j * g i = if i = j then 1 else 0)
    (h : Spec.IsDensity ρ) : Shortens (majCov g ρ) := by
  obtain ⟨T, Z, a1, a2, -, a3, a4, -⟩ := schur_exists (n + n) (majCov g ρ) majCov_skew
  have hZ : Spec.IsRealSchur (majCov g ρ) T Z := ⟨a1, a2, a3, a4⟩
  intro v
  set C := majCov g ρ
  have hgram : Cᵀ * C = Z * diagonal (sq2 T) * Zᵀ := schur_gram_M hZ majCov_skew
  have e : (C *ᵥ v) ⬝ᵥ (C *ᵥ v) = ∑ i, sq2 T i * (Zᵀ *ᵥ v) i ^ 2 := by
    rw [dotProduct_mulVec, vecMul_mulVec, ← dotProduct_mulVec, hgram]
    rw [← mulVec_mulVec, ← mulVec_mulVec, dotProduct_mulVec, ← mulVec_transpose, dotProduct]
    refine sum_congr rfl fun i _ => ?_
    rw [mulVec_diagonal]
    ring
  have e2 : v ⬝ᵥ v = ∑ i, (Zᵀ *ᵥ v) i ^ 2 := by
    have : (Zᵀ *ᵥ v) ⬝ᵥ (Zᵀ *ᵥ v) = v ⬝ᵥ v := by
      rw [dotProduct_mulVec, vecMul_mulVec, ← dotProduct_mulVec, transpose_transpose, hZ.orth, one_mulVec]
    rw [← this, dotProduct]
    exact sum_congr rfl fun i _ => by ring
  rw [e, e2]
  exact sum_le_sum fun i _ => mul_le_of_le_one_left (sq_nonneg _) (sq2_le hH hA h hZ i)

theorem majCov_close (hH : ∀ i, (g i).IsHermitian) (hA : ∀ i j, g i * g j + g j * g i = if i = j then 1 else 0)
    (hρ : ρ.IsHermitian) (hσ : σ.IsHermitian) (i j : Fin (n + n)) :
    |(majCov g ρ - majCov g σ) i j| ≤ if i = j then 0 else tnorm (ρ - σ) := by
  rw [Matrix.sub_apply]
  split_ifs with hij
  · subst hij
    rw [majCov, of_apply, majCov, of_apply, sub_self]; simp
  · have hanti : g j * g i = -(g i * g j) := by
      have := hA i j
      rw [if_neg hij] at this
      exact (eq_neg_of_add_eq_zero_right this)
    have hsq : ∀ k, g k * g k = (1 / 2 : ℂ) • (1 : Op (2 ^ n)) := by
      intro k
      have := hA k k
      rw [if_pos rfl, ← two_smul ℂ] at this
      rw [← this, smul_smul]; norm_num
    set X : Op (2 ^ n) := (-Complex.I) • (g i * g j - g j * g i) with hX
    have hX2 : X = (-(2 * Complex.I)) • (g i * g j) := by
      rw [hX, hanti, sub_neg_eq_add, ← two_smul ℂ, smul_smul]; congr 1; ring
    have hXX : X * Xᴴ = 1 := by
      rw [hX2, conjTranspose_smul, conjTranspose_mul, (hH i).eq, (hH j).eq, Matrix.smul_mul, Matrix.mul_smul, smul_smul]
      have : g i * g j * (g j * g i) = (1 / 4 : ℂ) • (1 : Op (2 ^ n)) := by
        calc _ = g i * (g j * g j) * g i := by simp only [Matrix.mul_assoc]
          _ = _ := by
            rw [hsq j, Matrix.mul_smul, mul_one, Matrix.smul_mul, hsq i, smul_smul]; norm_num
      rw [this, smul_smul]
      have h4 : -(2 * Complex.I) * star (-(2 * Complex.I)) * (1 / 4) = 1 := by
        simp [Complex.ext_iff]; norm_num
      rw [h4, one_smul]
    have := tnorm_bound (hρ.sub hσ) hXX
    rw [trace_mul_comm, sub_mul, trace_sub, hX, Matrix.mul_smul, trace_smul, smul_eq_mul, ← majCov_eq hH hρ, Matrix.mul_smul, trace_smul,
      smul_eq_mul, ← majCov_eq hH hσ, ← Complex.ofReal_sub, Complex.norm_real] at this
    exact this

theorem majCov_total (hH : ∀ i, (g i).IsHermitian) (hA : ∀ i j, g i * g j + g j * g i = if i = j then 1 else 0)
    (hρ : ρ.IsHermitian) (hσ : σ.IsHermitian) :
    ∑ i, ∑ j, |(majCov g ρ - majCov g σ) i j| ≤ 2 * n * (2 * n - 1) * tnorm (ρ - σ) := by
  refine (sum_le_sum fun i _ => sum_le_sum fun j _ => majCov_close hH hA hρ hσ i j).trans (le_of_eq ?_)
  have : ∀ i : Fin (n + n), ∑ j, (if i = j then 0 else tnorm (ρ - σ)) = (2 * n - 1) * tnorm (ρ - σ) := by
    intro i
    have e : ∀ j : Fin (n + n), (if i = j then 0 else tnorm (ρ - σ)) = tnorm (ρ - σ) - if i = j then tnorm (ρ - σ) else 0 := fun j => by
      split_ifs <;> ring
    rw [sum_congr rfl fun j _ => e j, sum_sub_distrib, sum_const, sum_ite_eq, if_pos (mem_univ _), card_univ, Fintype.card_fin, nsmul_eq_mul]
    push_cast; ring
  rw [sum_congr rfl fun i _ => this i, sum_const, card_univ, Fintype.card_fin, nsmul_eq_mul]
  push_cast; ring

end

end FF
