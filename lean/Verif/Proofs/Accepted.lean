import Verif.Proofs.Distance3
import Verif.Proofs.Eigen3

/-! # The distributions that `cast_to_pdf` can return, and the measures on them -/

namespace FF

open Finset
open scoped ComplexOrder

variable {d : ℕ} {p q : Fin d → ℝ} {x y : Arr}

theorem close_total {s t r : ℝ} (hr : 0 ≤ r) (hrs : r * r = s * s + t * t) (h : (1 - s) * (1 - s) + t * t ≤
    (1e-8 + 1e-5 * r) * (1e-8 + 1e-5 * r)) : |1 - s| ≤ 1e-8 + 1e-5 * |s| := by
  set u := |s| with hu
  have hu0 : 0 ≤ u := abs_nonneg s
  have hus : u * u = s * s := abs_mul_abs_self s
  have hur : u ≤ r := by nlinarith
  have h1 : |1 - s| ≤ 1e-8 + 1e-5 * r := by
    refine abs_le_of_sq_le_sq ?_ (by positivity)
    nlinarith
  have hr1 : 0.9 ≤ r := by
    have := (abs_le.1 h1).2
    have := le_abs_self s
    norm_num at *
    linarith
  refine abs_le_of_sq_le_sq ?_ (by positivity)
  have e1 : t * t = (r - u) * (r + u) := by nlinarith
  set w := r - u with hw
  have hw0 : 0 ≤ w := by linarith
  have e2 : r = u + w := by linarith
  rw [e1, e2] at h
  have : (1e-8 + 1e-5 * (u + w)) * (1e-8 + 1e-5 * (u + w)) ≤ (1e-8 + 1e-5 * u) * (1e-8 + 1e-5 * u) + w * (u + w + u) := by
    rw [e2] at hr1
    have k1 : 0 ≤ w * u := mul_nonneg hw0 hu0
    have k2 : 0 ≤ w * w := mul_nonneg hw0 hw0
    have k3 : 0.9 * w ≤ w * u + w * w := by nlinarith
    norm_num at *
    nlinarith
  nlinarith

theorem cast_accepted (h : castToPdf x = .ok ⟨d, p⟩) :
    |1 - ∑ i, p i| ≤ 1e-8 + 1e-5 * |∑ i, p i| ∧ ∀ i, -1e-12 ≤ p i := by
  rw [castToPdf] at h
  cases hx : castToDensityMatrix x with
  | error e => rw [hx] at h; cases h
  | ok v =>
    obtain ⟨d', ρ⟩ := v
    rw [hx] at h
    simp only [bind, Except.bind] at h
    split at h
    · rename_i h2
      injection h with h
      injection h with e1 e2
      subst e1
      rw [heq_eq_eq] at e2
      subst e2
      obtain ⟨h1, -, h3⟩ := Props.C16_sound x d' ρ hx
      constructor
      · have er : ∑ i, (ρ i i).re = ρ.trace.re := by rw [Matrix.trace, Complex.re_sum]; rfl
        rw [er]
        refine close_total (s := ρ.trace.re) (t := ρ.trace.im) (r := ‖ρ.trace‖) (norm_nonneg _) ?_ ?_
        · rw [← sq, ← Complex.normSq_eq_norm_sq, Complex.normSq_apply]
        · have := mul_self_le_mul_self (norm_nonneg _) h1
          rw [← sq ‖1 - ρ.trace‖, ← Complex.normSq_eq_norm_sq, Complex.normSq_apply] at this
          simpa using this
      · intro i
        have := h3 (lowerHerm ρ) (lowerHerm_isHermitian ρ) (fun i j hij => by simp [lowerHerm, hij])
          (fun i => by simp [lowerHerm])
        have h4 := this.diag_nonneg (i := i)
        have h5 := (Complex.le_def.1 h4).1
        simp [lowerHerm] at h5
        norm_num at h5 ⊢
        linarith
    · cases h

theorem eigvalsh_diag (hp : ∀ i, -1e-12 ≤ p i) (i : Fin d) :
    eigvalsh (Matrix.diagonal fun i => (p i : ℂ)) i ≥ -1e-12 := by
  have hA : (Matrix.diagonal fun i => (p i : ℂ)).IsHermitian := by
    rw [Matrix.isHermitian_diagonal_iff]
    exact fun i => Complex.conj_ofReal _
  have h := eigvalsh_charpoly hA
  rw [Matrix.charpoly_diagonal] at h
  have := congrArg (Polynomial.eval ((eigvalsh (Matrix.diagonal fun i => (p i : ℂ)) i : ℝ) : ℂ)) h
  rw [Polynomial.eval_prod, Polynomial.eval_prod] at this
  have h0 := this.trans (prod_eq_zero (mem_univ i) (by simp))
  obtain ⟨k, -, hk⟩ := prod_eq_zero_iff.1 h0
  simp only [Polynomial.eval_sub, Polynomial.eval_X, Polynomial.eval_C, sub_eq_zero] at hk
  rw [Complex.ofReal_inj.1 hk]
  exact hp k

theorem accepted_cast (h1 : |1 - ∑ i, p i| ≤ 1e-8 + 1e-5 * |∑ i, p i|) (h2 : ∀ i, -1e-12 ≤ p i) :
    ∃ x, castToPdf x = .ok ⟨d, p⟩ := by
  have hval : validateDM (Matrix.diagonal fun i => (p i : ℂ)) = .ok ⟨d, Matrix.diagonal fun i => (p i : ℂ)⟩ := by
    refine validateDM_square _ ?_ ?_ (eigvalsh_diag h2)
    · have e : npTrace (Matrix.diagonal fun i => (p i : ℂ)) = ((∑ i, p i : ℝ) : ℂ) := by
        simp [npTrace, Matrix.trace]
      rw [e, isclose, ← Complex.ofReal_one, ← Complex.ofReal_sub, Complex.norm_real, Complex.norm_real]
      exact h1
    · intro i j
      rw [Matrix.diagonal_conjTranspose]
      have : (star fun i => (p i : ℂ)) = fun i => (p i : ℂ) := funext fun i => Complex.conj_ofReal _
      rw [this]
      exact isclose_self _
  by_cases hd : d = 1
  · subst hd
    rw [Fin.sum_univ_one] at h1
    have hp0 : 0.9 ≤ p 0 := by
      have := abs_le.1 h1
      rcases abs_cases (p 0) with ⟨h, h'⟩ | ⟨h, h'⟩ <;> rw [h] at this <;> norm_num at this ⊢ <;> linarith
    have hs : 0 ≤ Real.sqrt (p 0) := Real.sqrt_nonneg _
    have hss : Real.sqrt (p 0) * Real.sqrt (p 0) = p 0 := Real.mul_self_sqrt (by linarith)
    refine ⟨.vec 1 fun _ => (Real.sqrt (p 0) : ℂ), Props.castToPdf_of (ρ := Matrix.diagonal fun i => (p i : ℂ)) ?_
      fun i => by simp⟩
    rw [castToDensityMatrix, castVector, if_pos]
    · convert hval using 2
      ext i j
      rw [Subsingleton.elim i 0, Subsingleton.elim j 0]
      simp only [Matrix.of_apply, Matrix.diagonal_apply_eq, Complex.conj_ofReal]
      rw [← Complex.ofReal_mul, hss]
    · have : l2norm (fun _ : Fin 1 => (Real.sqrt (p 0) : ℂ)) = Real.sqrt (p 0) := by
        rw [l2norm]
        simp only [univ_unique, sum_const, card_singleton, one_smul, Complex.norm_real, Real.norm_eq_abs, sq_abs]
        rw [Real.sqrt_sq hs]
      rw [this, isclose, ← Complex.ofReal_one, ← Complex.ofReal_sub, Complex.norm_real, Complex.norm_real, norm_one,
        Real.norm_eq_abs, mul_one]
      rw [abs_of_nonneg (a := p 0) (by linarith)] at h1
      set s := Real.sqrt (p 0)
      rw [abs_le] at h1 ⊢
      obtain ⟨ha, hb⟩ := h1
      rw [← hss] at ha hb
      norm_num at *
      constructor <;> nlinarith
  · refine ⟨.mat d d (Matrix.diagonal fun i => (p i : ℂ)), Props.castToPdf_of (ρ := Matrix.diagonal fun i => (p i : ℂ)) ?_
      fun i => by simp⟩
    rw [castToDensityMatrix, if_neg (by rwa [min_self])]
    exact hval

/-! ## values -/

theorem accepted_total (h : |1 - ∑ i, p i| ≤ 1e-8 + 1e-5 * |∑ i, p i|) : 0.99 ≤ ∑ i, p i ∧ ∑ i, p i ≤ 1.01 := by
  rw [abs_le] at h
  rcases abs_cases (∑ i, p i) with ⟨h', h2⟩ | ⟨h', h2⟩ <;> rw [h'] at h <;> norm_num at h ⊢ <;> constructor <;> linarith

theorem entr_bot {x : ℝ} (hx : x < 0) : entr x = ⊥ := by
  rw [entr, if_neg (not_lt.2 hx.le), if_neg hx.ne]

theorem normal_prob (hs : 0 < ∑ i, p i) (hp : ∀ i, 0 ≤ p i) : Spec.IsProb fun i => p i / ∑ j, p j := by
  refine ⟨fun i => div_nonneg (hp i) hs.le, ?_⟩
  rw [← sum_div, div_self hs.ne']

theorem entropy1_scale {c : ℝ} (hc : c ≠ 0) : entropy1 (fun i => p i / c) = entropy1 p := by
  rw [entropy1, entropy1]
  refine sum_congr rfl fun i _ => ?_
  rw [← sum_div, div_div_div_cancel_right₀ hc]

theorem entropy2_scale {c k : ℝ} (hc : c ≠ 0) (hk : k ≠ 0) : entropy2 (fun i => p i / c) (fun i => q i / k) = entropy2 p q := by
  rw [entropy2, entropy2]
  refine sum_congr rfl fun i _ => ?_
  rw [← sum_div, ← sum_div, div_div_div_cancel_right₀ hc, div_div_div_cancel_right₀ hk]

theorem sum_bot {s : Finset (Fin d)} {f : Fin d → EReal} {i : Fin d} (hi : i ∈ s) (h : f i = ⊥) : ∑ j ∈ s, f j = ⊥ := by
  classical
  rw [← insert_erase hi, sum_insert (notMem_erase i s), h, EReal.bot_add]

theorem entropy1_neg (hs : 0 < ∑ i, p i) {i : Fin d} (hi : p i < 0) : entropy1 p = ⊥ :=
  sum_bot (mem_univ i) (entr_bot (div_neg_of_neg_of_pos hi hs))

theorem entropy2_top' (hs : 0 < ∑ i, p i) (ht : 0 < ∑ i, q i) {i : Fin d} (h : p i < 0 ∨ q i < 0 ∨ (q i = 0 ∧ p i ≠ 0)) :
    entropy2 p q = ⊤ := by
  classical
  have : relEntr (p i / ∑ j, p j) (q i / ∑ j, q j) = ⊤ := by
    rw [relEntr, if_neg, if_neg]
    · rintro ⟨h1, h2⟩
      have h1' : p i = 0 := by simpa [hs.ne'] using h1
      have h2' : 0 ≤ q i := by
        by_contra hc
        exact absurd h2 (not_le.2 (div_neg_of_neg_of_pos (not_le.1 hc) ht))
      rcases h with h | h | h
      · linarith
      · linarith
      · exact h.2 h1'
    · rintro ⟨h1, h2⟩
      rw [div_pos_iff_of_pos_right hs] at h1
      rw [div_pos_iff_of_pos_right ht] at h2
      rcases h with h | h | h <;> linarith
  rw [entropy2, ← add_sum_erase _ _ (mem_univ i), this]
  exact EReal.top_add_of_ne_bot (sum_ne_bot fun i => relEntr_ne_bot _ _)

/-- The absolute values. -/
noncomputable def absv (p : Fin d → ℝ) : Fin d → ℝ := fun i => |p i|

theorem absv_total (hs : 0 < ∑ i, p i) : 0 < ∑ i, absv p i :=
  lt_of_lt_of_le hs (sum_le_sum fun i _ => le_abs_self _)

theorem absv_prob (hs : 0 < ∑ i, p i) : Spec.IsProb fun i => absv p i / ∑ j, absv p j :=
  normal_prob (absv_total hs) fun i => abs_nonneg _

theorem renyiCore_shift (hs : 0 < ∑ i, p i) {a : ℝ} (ha : 0 ≤ a) (h1 : a ≠ 1) :
    renyiCore p (.num a) =
      ((Spec.renyi (fun i => absv p i / ∑ j, absv p j) a + a / (1 - a) * Real.log (∑ j, absv p j) : ℝ) : EReal) := by
  have hP := absv_prob hs
  have hS := absv_total hs
  set S := ∑ j, absv p j with hSdef
  have h1' : 1 - a ≠ 0 := sub_ne_zero.2 (Ne.symm h1)
  rw [renyiCore, if_neg h1]
  split_ifs with h0 h2
  · subst h0
    rw [renyi_zero, zero_div, zero_mul, add_zero, countNonzero_eq]
    congr 4
    ext i
    rw [mem_supp, mem_supp, Ne, Ne, div_eq_zero_iff]
    simp [absv, hS.ne']
  · exact absurd h2.1 (not_lt.2 ha)
  · have e : ∑ i, |p i| ^ a = S ^ a * powSum (fun i => absv p i / S) a := by
      rw [← lpSum_eq hP h0, mul_sum]
      refine sum_congr rfl fun i _ => ?_
      rw [← Real.mul_rpow hS.le (abs_nonneg _)]
      congr 1
      rw [abs_div, abs_of_pos hS, absv, abs_abs]
      field_simp
    rw [lpNorm, e, Real.log_rpow (mul_pos (Real.rpow_pos_of_pos hS a) (powSum_pos hP a)),
      Real.log_mul (Real.rpow_pos_of_pos hS a).ne' (powSum_pos hP a).ne', Real.log_rpow hS, renyi_of_ne _ h1]
    congr 1
    field_simp
    ring

theorem nanSum_none {i : Fin d} (h : p i * q i < 0) : (nanSum fun i => npSqrtNan (p i * q i)) = none := by
  rw [nanSum, if_neg]
  intro h'
  have := h' i
  rw [npSqrtNan, if_pos h] at this
  cases this

/-- Measures of the accepted input `x`, in terms of the array that `cast_to_pdf` returns. -/
theorem renyi_of_cast (hx : castToPdf x = .ok ⟨d, p⟩) (o : Order) : renyiEntropy x o = .ok (renyiCore p o) := by
  rw [renyiEntropy, hx]; rfl

theorem rel_of_cast (hx : castToPdf x = .ok ⟨d, p⟩) (hy : castToPdf y = .ok ⟨d, q⟩) :
    relativeEntropy x y = .ok (entropy2 p q) := by
  rw [relativeEntropy, hx, hy]
  simp only [bind, Except.bind]
  rw [broadcast_same]; rfl

theorem bc_of_cast (hx : castToPdf x = .ok ⟨d, p⟩) (hy : castToPdf y = .ok ⟨d, q⟩) :
    bhattacharyyaCoeff x y = .ok (nanSum fun i => npSqrtNan (p i * q i)) := by
  rw [bhattacharyyaCoeff, hx, hy]
  simp only [bind, Except.bind]
  rw [broadcast_same]; rfl

theorem tvd_of_cast (hx : castToPdf x = .ok ⟨d, p⟩) (hy : castToPdf y = .ok ⟨d, q⟩) :
    totalVariationDistance x y = .ok (tvd p q) := by
  rw [totalVariationDistance, hx, hy]
  simp only [bind, Except.bind]
  rw [broadcast_same]; rfl

theorem jsd_of_cast (hx : castToPdf x = .ok ⟨d, p⟩) (hy : castToPdf y = .ok ⟨d, q⟩) :
    jensenShannonDivergence x y =
      .ok (((0.5 : ℝ) : EReal) * (entropy2 p (mid p q) + entropy2 q (mid p q))) := by
  rw [jensenShannonDivergence, hx, hy]
  simp only [bind, Except.bind]
  rw [broadcast_same]; rfl

end FF
