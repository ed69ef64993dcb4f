import Verif.Spec.Mix
import Verif.Proofs.Info

/-! # Helper lemmas: mixtures of distributions -/

namespace FF

open Finset

variable {m d e : ℕ} {w : Fin m → ℝ} {p q : Fin m → Fin d → ℝ}

theorem mix_prob (hw : Spec.IsProb w) (hp : ∀ i, Spec.IsProb (p i)) : Spec.IsProb (Spec.mixture w p) := by
  refine ⟨fun j => sum_nonneg fun i _ => mul_nonneg (hw.nonneg i) ((hp i).nonneg j), ?_⟩
  simp only [Spec.mixture]
  rw [sum_comm]
  simp only [← mul_sum, (hp _).sum_one, mul_one, hw.sum_one]

theorem tvd_mix (hw : Spec.IsProb w) (p q : Fin m → Fin d → ℝ) :
    tvd (Spec.mixture w p) (Spec.mixture w q) ≤ ∑ i, w i * tvd (p i) (q i) := by
  have : ∑ j, |Spec.mixture w p j - Spec.mixture w q j| ≤ ∑ i, w i * ∑ j, |p i j - q i j| := by
    calc _ ≤ ∑ j, ∑ i, w i * |p i j - q i j| := sum_le_sum fun j _ => by
          rw [Spec.mixture, Spec.mixture, ← sum_sub_distrib]
          refine (abs_sum_le_sum_abs _ _).trans (sum_le_sum fun i _ => ?_)
          rw [← mul_sub, abs_mul, abs_of_nonneg (hw.nonneg i)]
      _ = _ := by rw [sum_comm]; simp only [mul_sum]
  calc tvd (Spec.mixture w p) (Spec.mixture w q) ≤ 0.5 * ∑ i, w i * ∑ j, |p i j - q i j| := by
        rw [tvd]; exact mul_le_mul_of_nonneg_left this (by norm_num)
    _ = _ := by rw [mul_sum]; exact sum_congr rfl fun i _ => by rw [tvd]; ring

theorem kl_mix (hw : Spec.IsProb w) (hp : ∀ i, Spec.IsProb (p i)) (hq : ∀ i, Spec.IsProb (q i))
    (h : ∀ i, w i ≠ 0 → ∀ j, q i j = 0 → p i j = 0) :
    klReal (Spec.mixture w p) (Spec.mixture w q) ≤ ∑ i, w i * klReal (p i) (q i) := by
  have h1 : ∀ j, Spec.mixture w p j * Real.log (Spec.mixture w p j / Spec.mixture w q j) ≤
      ∑ i, w i * (p i j * Real.log (p i j / q i j)) := by
    intro j
    refine (log_sum (fun i => mul_nonneg (hw.nonneg i) ((hp i).nonneg j)) (fun i => mul_nonneg (hw.nonneg i) ((hq i).nonneg j))
      (fun i hi => ?_)).trans (sum_le_sum fun i _ => ?_)
    · rcases eq_or_ne (w i) 0 with h1 | h1
      · rw [h1, zero_mul]
      · rw [h i h1 j ((mul_eq_zero.1 hi).resolve_left h1), mul_zero]
    · rcases eq_or_ne (w i) 0 with h1 | h1
      · rw [h1]; simp
      · rw [mul_div_mul_left _ _ h1, mul_assoc]
  rw [klReal]
  refine (sum_le_sum fun j _ => h1 j).trans ?_
  rw [sum_comm]
  simp only [klReal, mul_sum, le_refl]

theorem mix_zero (hw : Spec.IsProb w) (hq : ∀ i, Spec.IsProb (q i)) (h : ∀ i, w i ≠ 0 → ∀ j, q i j = 0 → p i j = 0) (j : Fin d)
    (hj : Spec.mixture w q j = 0) : Spec.mixture w p j = 0 := by
  have := (sum_eq_zero_iff_of_nonneg fun i _ => mul_nonneg (hw.nonneg i) ((hq i).nonneg j)).1 hj
  refine sum_eq_zero fun i hi => ?_
  rcases eq_or_ne (w i) 0 with h1 | h1
  · rw [h1, zero_mul]
  · rw [h i h1 j ((mul_eq_zero.1 (this i hi)).resolve_left h1), mul_zero]

theorem mix_mid (p q : Fin m → Fin d → ℝ) : Spec.mixture w (fun i => mid (p i) (q i)) = mid (Spec.mixture w p) (Spec.mixture w q) := by
  funext j
  simp only [Spec.mixture, mid]
  rw [← sum_add_distrib, mul_sum]
  exact sum_congr rfl fun i _ => by ring

theorem js_mix (hw : Spec.IsProb w) (hp : ∀ i, Spec.IsProb (p i)) (hq : ∀ i, Spec.IsProb (q i)) :
    jsReal (Spec.mixture w p) (Spec.mixture w q) ≤ ∑ i, w i * jsReal (p i) (q i) := by
  have h1 := kl_mix hw hp (fun i => prob_mid (hp i) (hq i)) (fun i _ => mid_zero (hp i) (hq i))
  have h2 := kl_mix hw hq (fun i => prob_mid (hp i) (hq i)) (fun i _ j h => mid_zero (hq i) (hp i) j (mid_comm (p i) (q i) ▸ h))
  rw [mix_mid] at h1 h2
  have e : ∑ i, w i * jsReal (p i) (q i) = 0.5 * (∑ i, w i * klReal (p i) (mid (p i) (q i)) + ∑ i, w i * klReal (q i) (mid (p i) (q i))) := by
    rw [← sum_add_distrib, mul_sum]
    exact sum_congr rfl fun i _ => by rw [jsReal]; ring
  rw [e, jsReal]
  linarith

theorem bc_mix (hw : Spec.IsProb w) (hp : ∀ i, Spec.IsProb (p i)) (hq : ∀ i, Spec.IsProb (q i)) :
    ∑ i, w i * bc (p i) (q i) ≤ bc (Spec.mixture w p) (Spec.mixture w q) := by
  have : ∀ j, ∑ i, w i * Real.sqrt (p i j * q i j) ≤ Real.sqrt (Spec.mixture w p j * Spec.mixture w q j) := by
    intro j
    apply Real.le_sqrt_of_sq_le
    refine sum_sq_le_sum_mul_sum_of_sq_eq_mul univ (fun i _ => mul_nonneg (hw.nonneg i) ((hp i).nonneg j))
      (fun i _ => mul_nonneg (hw.nonneg i) ((hq i).nonneg j)) fun i _ => ?_
    rw [mul_pow, Real.sq_sqrt (mul_nonneg ((hp i).nonneg j) ((hq i).nonneg j))]
    ring
  calc ∑ i, w i * bc (p i) (q i) = ∑ j, ∑ i, w i * Real.sqrt (p i j * q i j) := by
        rw [sum_comm]; simp only [bc, mul_sum]
    _ ≤ _ := sum_le_sum fun j _ => this j

/-! ## entropies -/

theorem powSum_full {a : ℝ} (r : Fin d → ℝ) (h0 : a ≠ 0) : powSum r a = ∑ i, r i ^ a := by
  rw [powSum_univ]
  refine sum_congr rfl fun i _ => ?_
  split_ifs with h
  · rw [h, Real.zero_rpow h0]
  · rfl

theorem mix_smul (j : Fin d) : Spec.mixture w p j = ∑ i, w i • p i j := rfl

theorem renyi_mix (hw : Spec.IsProb w) (hp : ∀ i, Spec.IsProb (p i)) {a : ℝ} (ha : 0 ≤ a) (h1 : a ≤ 1) :
    ∑ i, w i * Spec.renyi (p i) a ≤ Spec.renyi (Spec.mixture w p) a := by
  rcases eq_or_lt_of_le h1 with rfl | h1
  · simp only [Spec.renyi, if_true]
    rw [le_neg, ← sum_neg_distrib]
    have h : ∀ j, Spec.mixture w p j * Real.log (Spec.mixture w p j) ≤ ∑ i, w i • (p i j * Real.log (p i j)) := fun j => by
      rw [mix_smul]
      exact Real.convexOn_mul_log.map_sum_le (fun i _ => hw.nonneg i) hw.sum_one fun i _ => (hp i).nonneg j
    refine (sum_le_sum fun j _ => h j).trans (le_of_eq ?_)
    rw [sum_comm]
    refine sum_congr rfl fun i _ => ?_
    simp only [smul_eq_mul, ← mul_sum]
    ring
  have hS : ∑ i, w i * powSum (p i) a ≤ powSum (Spec.mixture w p) a ∨ a = 0 := by
    rcases eq_or_lt_of_le ha with h0 | h0
    · exact .inr h0.symm
    refine .inl ?_
    simp only [powSum_full _ h0.ne', mul_sum]
    rw [sum_comm]
    refine sum_le_sum fun j _ => ?_
    rw [mix_smul]
    exact (Real.concaveOn_rpow ha h1.le).le_map_sum (fun i _ => hw.nonneg i) hw.sum_one fun i _ => (hp i).nonneg j
  have hlog : ∑ i, w i * Real.log (powSum (p i) a) ≤ Real.log (powSum (Spec.mixture w p) a) := by
    rcases hS with hS | rfl
    · refine le_trans ?_ (Real.log_le_log ?_ hS)
      · exact strictConcaveOn_log_Ioi.concaveOn.le_map_sum (fun i _ => hw.nonneg i) hw.sum_one fun i _ => powSum_pos (hp i) a
      · obtain ⟨i, hi⟩ : ∃ i, w i ≠ 0 := by
          by_contra hc
          push Not at hc
          have := hw.sum_one
          simp [hc] at this
        exact sum_pos' (fun i _ => mul_nonneg (hw.nonneg i) (powSum_pos (hp i) a).le)
          ⟨i, mem_univ _, mul_pos (lt_of_le_of_ne (hw.nonneg i) hi.symm) (powSum_pos (hp i) a)⟩
    · have : ∀ i, w i * Real.log (powSum (p i) 0) ≤ w i * Real.log (powSum (Spec.mixture w p) 0) := by
        intro i
        rcases eq_or_ne (w i) 0 with h0 | h0
        · simp [h0]
        refine mul_le_mul_of_nonneg_left (Real.log_le_log (powSum_pos (hp i) 0) ?_) (hw.nonneg i)
        simp only [powSum, Real.rpow_zero, sum_const, nsmul_eq_mul, mul_one]
        refine Nat.cast_le.2 (card_le_card fun j hj => ?_)
        rw [mem_supp] at hj ⊢
        intro hz
        have := (sum_eq_zero_iff_of_nonneg fun i _ => mul_nonneg (hw.nonneg i) ((hp i).nonneg j)).1 hz i (mem_univ i)
        exact hj ((mul_eq_zero.1 this).resolve_left h0)
      refine (sum_le_sum fun i _ => this i).trans ?_
      rw [← sum_mul, hw.sum_one, one_mul]
  simp only [renyi_of_ne _ h1.ne]
  have h2 : 0 ≤ 1 / (1 - a) := by rw [one_div]; exact inv_nonneg.2 (by linarith)
  refine le_trans (le_of_eq ?_) (mul_le_mul_of_nonneg_left hlog h2)
  rw [mul_sum]
  exact sum_congr rfl fun i _ => by ring

theorem renyi_mix_min (hw : Spec.IsProb w) (hp : ∀ i, Spec.IsProb (p i)) {a : ℝ} (ha : 0 ≤ a) {v : ℝ}
    (hv : ∀ i, w i ≠ 0 → v ≤ Spec.renyi (p i) a) : v ≤ Spec.renyi (Spec.mixture w p) a := by
  rcases le_or_gt a 1 with h1 | h1
  · refine le_trans ?_ (renyi_mix hw hp ha h1)
    calc v = ∑ i, w i * v := by rw [← sum_mul, hw.sum_one, one_mul]
      _ ≤ _ := sum_le_sum fun i _ => by
        rcases eq_or_ne (w i) 0 with h0 | h0
        · simp [h0]
        · exact mul_le_mul_of_nonneg_left (hv i h0) (hw.nonneg i)
  have hm := mix_prob hw hp
  have h2 : 0 < a - 1 := by linarith
  have key : ∀ {r : Fin d → ℝ}, Spec.IsProb r → (v ≤ Spec.renyi r a ↔ powSum r a ≤ Real.exp ((1 - a) * v)) := by
    intro r hr
    rw [renyi_of_ne _ h1.ne', ← Real.log_le_iff_le_exp (powSum_pos hr a), show 1 / (1 - a) * Real.log (powSum r a) = -Real.log (powSum r a) / (a - 1) by
      rw [show 1 - a = -(a - 1) by ring]; field_simp, le_div_iff₀ h2]
    constructor <;> intro <;> linarith
  rw [key hm]
  calc powSum (Spec.mixture w p) a ≤ ∑ i, w i * powSum (p i) a := by
        simp only [powSum_full _ (by linarith : a ≠ 0), mul_sum]
        rw [sum_comm]
        refine sum_le_sum fun j _ => ?_
        rw [mix_smul]
        exact (convexOn_rpow h1.le).map_sum_le (fun i _ => hw.nonneg i) hw.sum_one fun i _ => (hp i).nonneg j
    _ ≤ ∑ i, w i * Real.exp ((1 - a) * v) := sum_le_sum fun i _ => by
        rcases eq_or_ne (w i) 0 with h0 | h0
        · simp [h0]
        · exact mul_le_mul_of_nonneg_left ((key (hp i)).1 (hv i h0)) (hw.nonneg i)
    _ = _ := by rw [← sum_mul, hw.sum_one, one_mul]

theorem sumsq_mix (hw : Spec.IsProb w) (p : Fin m → Fin d → ℝ) : ∑ j, Spec.mixture w p j ^ 2 ≤ ∑ i, w i * ∑ j, p i j ^ 2 := by
  simp only [mul_sum]
  rw [sum_comm]
  refine sum_le_sum fun j _ => ?_
  rw [mix_smul]
  exact (even_two.convexOn_pow (𝕜 := ℝ)).map_sum_le (fun i _ => hw.nonneg i) hw.sum_one fun i _ => Set.mem_univ _

/-! ## two outcomes -/

theorem sum_pairs (f : Fin (d * e) → ℝ) : ∑ k, f k = ∑ i, ∑ j, f (finProdFinEquiv (i, j)) := by
  rw [← finProdFinEquiv.sum_comp, Fintype.sum_prod_type]

theorem marginal_prob {r : Fin (d * e) → ℝ} (hr : Spec.IsProb r) : Spec.IsProb (Spec.marginal1 r) ∧ Spec.IsProb (Spec.marginal2 r) := by
  have h := hr.sum_one
  rw [sum_pairs] at h
  exact ⟨⟨fun i => sum_nonneg fun j _ => hr.nonneg _, h⟩, fun j => sum_nonneg fun i _ => hr.nonneg _, by rw [sum_comm] at h; exact h⟩

theorem shannon_sub {r : Fin (d * e) → ℝ} (hr : Spec.IsProb r) :
    Spec.renyi r 1 ≤ Spec.renyi (Spec.marginal1 r) 1 + Spec.renyi (Spec.marginal2 r) 1 ∧
    (Spec.renyi r 1 = Spec.renyi (Spec.marginal1 r) 1 + Spec.renyi (Spec.marginal2 r) 1 ↔
      r = Spec.product (Spec.marginal1 r) (Spec.marginal2 r)) := by
  obtain ⟨h1, h2⟩ := marginal_prob hr
  set a := Spec.marginal1 r with ha
  set b := Spec.marginal2 r with hb
  have hz1 : ∀ i j, a i = 0 → r (finProdFinEquiv (i, j)) = 0 := fun i j h =>
    (sum_eq_zero_iff_of_nonneg fun j _ => hr.nonneg (finProdFinEquiv (i, j))).1 h j (mem_univ j)
  have hz2 : ∀ i j, b j = 0 → r (finProdFinEquiv (i, j)) = 0 := fun i j h =>
    (sum_eq_zero_iff_of_nonneg fun i _ => hr.nonneg (finProdFinEquiv (i, j))).1 h i (mem_univ i)
  have hpv : ∀ i j, Spec.product a b (finProdFinEquiv (i, j)) = a i * b j := fun i j => by
    have := finProdFinEquiv.symm_apply_apply (i, j)
    rw [finProdFinEquiv_symm_apply, Prod.mk.injEq] at this
    rw [Spec.product, this.1, this.2]
  have hpp : Spec.IsProb (Spec.product a b) := by
    refine ⟨fun k => mul_nonneg (h1.nonneg _) (h2.nonneg _), ?_⟩
    rw [sum_pairs]
    simp only [hpv, ← mul_sum, h2.sum_one, mul_one, h1.sum_one]
  have hac : ∀ k, Spec.product a b k = 0 → r k = 0 := by
    intro k hk
    obtain ⟨⟨i, j⟩, rfl⟩ := finProdFinEquiv.surjective k
    rw [hpv] at hk
    rcases mul_eq_zero.1 hk with h | h
    · exact hz1 i j h
    · exact hz2 i j h
  have hk := klReal_nonneg hr hpp hac
  have e : klReal r (Spec.product a b) = Spec.renyi a 1 + Spec.renyi b 1 - Spec.renyi r 1 := by
    have e1 : ∀ i j, r (finProdFinEquiv (i, j)) * Real.log (r (finProdFinEquiv (i, j)) / Spec.product a b (finProdFinEquiv (i, j))) =
        r (finProdFinEquiv (i, j)) * Real.log (r (finProdFinEquiv (i, j))) - r (finProdFinEquiv (i, j)) * Real.log (a i)
          - r (finProdFinEquiv (i, j)) * Real.log (b j) := by
      intro i j
      rcases eq_or_ne (r (finProdFinEquiv (i, j))) 0 with h | h
      · simp [h]
      rw [hpv, Real.log_div h (mul_ne_zero (fun h' => h (hz1 i j h')) fun h' => h (hz2 i j h')),
        Real.log_mul (fun h' => h (hz1 i j h')) fun h' => h (hz2 i j h')]
      ring
    simp only [Spec.renyi, if_true]
    rw [klReal, sum_pairs, sum_congr rfl fun i _ => sum_congr rfl fun j _ => e1 i j]
    simp only [sum_sub_distrib]
    rw [sum_pairs (fun k => r k * Real.log (r k))]
    have e2 : ∑ i, ∑ j, r (finProdFinEquiv (i, j)) * Real.log (a i) = ∑ i, a i * Real.log (a i) :=
      sum_congr rfl fun i _ => by rw [← sum_mul]; rfl
    have e3 : ∑ i, ∑ j, r (finProdFinEquiv (i, j)) * Real.log (b j) = ∑ j, b j * Real.log (b j) := by
      rw [sum_comm]
      exact sum_congr rfl fun j _ => by rw [← sum_mul]; rfl
    rw [e2, e3]; ring
  rw [e] at hk
  refine ⟨by linarith [hk.1], ?_⟩
  rw [← hk.2]
  constructor <;> intro <;> linarith

end FF
