import Verif.Proofs.Distance
import Verif.Model.Distance
import Mathlib.InformationTheory.KullbackLeibler.KLFun

/-! # Products, relative entropy and overlaps of probability vectors -/

namespace FF

open Finset

variable {d e : ℕ} {p q r : Fin d → ℝ}

/-! ## special distributions -/

theorem prob_deterministic (h : Spec.Deterministic p) : Spec.IsProb p := by
  obtain ⟨k, hk⟩ := h
  refine ⟨fun i => ?_, ?_⟩
  · rw [hk]; split <;> norm_num
  · simp [hk]

theorem prob_uniform (hd : 0 < d) (h : Spec.Uniform p) : Spec.IsProb p := by
  have hd' : (d : ℝ) ≠ 0 := by positivity
  refine ⟨fun i => ?_, ?_⟩
  · rw [h]; positivity
  · simp [h _, hd']

theorem renyi_deterministic (h : Spec.Deterministic p) (a : ℝ) : Spec.renyi p a = 0 := by
  obtain ⟨k, hk⟩ := h
  have hs : supp p = {k} := by
    ext i; rw [mem_supp, hk, mem_singleton]; split <;> simp_all
  by_cases ha : a = 1
  · subst ha
    rw [renyi_one, hs]; simp [hk]
  · rw [renyi_of_ne p ha, powSum, hs]; simp [hk]

theorem renyi_uniform (hd : 0 < d) (h : Spec.Uniform p) (a : ℝ) : Spec.renyi p a = Real.log d := by
  have hd' : (0 : ℝ) < d := by positivity
  have hs : supp p = univ := by
    ext i; rw [mem_supp, h]; simp [hd.ne']
  by_cases ha : a = 1
  · subst ha
    rw [renyi_one, hs]; simp [h _, hd'.ne']
  · have ha' : 1 - a ≠ 0 := sub_ne_zero.2 (Ne.symm ha)
    rw [renyi_of_ne p ha, powSum, hs]
    simp only [h _, sum_const, card_univ, Fintype.card_fin, nsmul_eq_mul]
    rw [one_div (d : ℝ), Real.inv_rpow hd'.le, ← Real.rpow_neg hd'.le]
    have : (d : ℝ) * (d : ℝ) ^ (-a) = (d : ℝ) ^ (1 - a) := by
      rw [sub_eq_add_neg, Real.rpow_add hd', Real.rpow_one]
    rw [this, Real.log_rpow hd']
    field_simp

/-! ## product distributions -/

theorem sum_product {M : Type} [AddCommMonoid M] (f : Fin d → Fin e → M) :
    ∑ i : Fin (d * e), f i.divNat i.modNat = ∑ i, ∑ j, f i j := by
  rw [← sum_product', univ_product_univ]
  exact Fintype.sum_equiv finProdFinEquiv.symm _ _ fun i => rfl

theorem prob_product {q : Fin e → ℝ} (hp : Spec.IsProb p) (hq : Spec.IsProb q) : Spec.IsProb (Spec.product p q) := by
  refine ⟨fun i => mul_nonneg (hp.nonneg _) (hq.nonneg _), ?_⟩
  rw [show (fun i => Spec.product p q i) = fun i : Fin (d * e) => p i.divNat * q i.modNat from rfl,
    sum_product fun i j => p i * q j]
  simp_rw [← mul_sum, hq.sum_one, mul_one]
  exact hp.sum_one

theorem powSum_univ (p : Fin d → ℝ) (a : ℝ) : powSum p a = ∑ i, if p i = 0 then 0 else p i ^ a := by
  classical
  rw [powSum, supp, sum_filter]
  refine sum_congr rfl fun i _ => ?_
  by_cases h : p i = 0 <;> simp [h]

theorem powSum_product {q : Fin e → ℝ} (hp : Spec.IsProb p) (hq : Spec.IsProb q) (a : ℝ) :
    powSum (Spec.product p q) a = powSum p a * powSum q a := by
  classical
  rw [powSum_univ, powSum_univ, powSum_univ, sum_mul_sum]
  rw [← sum_product fun i j => (if p i = 0 then 0 else p i ^ a) * (if q j = 0 then 0 else q j ^ a)]
  refine sum_congr rfl fun i _ => ?_
  simp only [Spec.product, mul_eq_zero]
  by_cases h1 : p i.divNat = 0 <;> by_cases h2 : q i.modNat = 0 <;> simp [h1, h2]
  rw [Real.mul_rpow (hp.nonneg _) (hq.nonneg _)]

theorem renyi_product {q : Fin e → ℝ} (hp : Spec.IsProb p) (hq : Spec.IsProb q) (a : ℝ) :
    Spec.renyi (Spec.product p q) a = Spec.renyi p a + Spec.renyi q a := by
  classical
  by_cases ha : a = 1
  · subst ha
    rw [Spec.renyi, Spec.renyi, Spec.renyi, if_pos rfl, if_pos rfl, if_pos rfl, ← neg_add, neg_inj]
    have h : ∀ i : Fin (d * e), Spec.product p q i * Real.log (Spec.product p q i) =
        p i.divNat * Real.log (p i.divNat) * q i.modNat + p i.divNat * (q i.modNat * Real.log (q i.modNat)) := by
      intro i
      by_cases h1 : p i.divNat = 0
      · simp [Spec.product, h1]
      by_cases h2 : q i.modNat = 0
      · simp [Spec.product, h2]
      rw [Spec.product, Real.log_mul h1 h2]
      ring
    simp_rw [h]
    rw [sum_product fun i j => p i * Real.log (p i) * q j + p i * (q j * Real.log (q j))]
    simp_rw [sum_add_distrib, ← mul_sum, ← sum_mul, hq.sum_one, hp.sum_one, one_mul, mul_one]
  · rw [renyi_of_ne _ ha, renyi_of_ne _ ha, renyi_of_ne _ ha, powSum_product hp hq,
      Real.log_mul (powSum_pos hp a).ne' (powSum_pos hq a).ne', mul_add]

theorem max_product {q : Fin e → ℝ} (hp : Spec.IsProb p) (hq : Spec.IsProb q) {m k : ℝ} (hm : Spec.IsMax p m)
    (hk : Spec.IsMax q k) : Spec.IsMax (Spec.product p q) (m * k) := by
  obtain ⟨⟨i, hi⟩, hm⟩ := hm
  obtain ⟨⟨j, hj⟩, hk⟩ := hk
  refine ⟨⟨finProdFinEquiv (i, j), ?_⟩, fun x => ?_⟩
  · have h := finProdFinEquiv.symm_apply_apply (i, j)
    simp only [finProdFinEquiv_symm_apply, Prod.mk.injEq] at h
    rw [Spec.product, h.1, h.2, hi, hj]
  · exact mul_le_mul (hm _) (hk _) (hq.nonneg _) ((hp.nonneg i).trans (hi ▸ le_rfl))

/-! ## relative entropy -/

theorem klTerm {x y : ℝ} (hx : 0 < x) (hy : 0 < y) :
    x - y ≤ x * Real.log (x / y) ∧ (x * Real.log (x / y) = x - y → x = y) := by
  have h1 : 0 < y / x := by positivity
  have h2 : Real.log (x / y) = -Real.log (y / x) := by rw [← Real.log_inv, inv_div]
  have h3 : x * (y / x - 1) = y - x := by field_simp
  constructor
  · have := Real.log_le_sub_one_of_pos h1
    rw [h2]
    nlinarith
  · intro h
    by_contra hne
    have := Real.log_lt_sub_one_of_pos h1 (by
      intro h4
      rw [div_eq_one_iff_eq hx.ne'] at h4
      exact hne h4.symm)
    rw [h2] at h
    nlinarith

/-- The real value of the relative entropy, where finite. -/
noncomputable def klReal (p q : Fin d → ℝ) : ℝ := ∑ i, p i * Real.log (p i / q i)

theorem coe_sum (f : Fin d → ℝ) : ∑ i, ((f i : ℝ) : EReal) = ((∑ i, f i : ℝ) : EReal) :=
  (map_sum (⟨⟨Real.toEReal, EReal.coe_zero⟩, EReal.coe_add⟩ : ℝ →+ EReal) f univ).symm

theorem relEntr_ne_bot (x y : ℝ) : relEntr x y ≠ ⊥ := by
  unfold relEntr
  split
  · exact EReal.coe_ne_bot _
  · split
    · exact EReal.zero_ne_bot
    · exact top_ne_bot

theorem sum_ne_bot {s : Finset (Fin d)} {f : Fin d → EReal} (h : ∀ i, f i ≠ ⊥) : ∑ i ∈ s, f i ≠ ⊥ := by
  classical
  induction s using Finset.induction_on with
  | empty => simp
  | insert a s ha ih =>
    rw [sum_insert ha]
    intro h'
    rw [EReal.add_eq_bot_iff] at h'
    exact h'.elim (h a) ih

theorem entropy2_eq (hp : Spec.IsProb p) (hq : Spec.IsProb q) : entropy2 p q = ∑ i, relEntr (p i) (q i) := by
  rw [entropy2, hp.sum_one, hq.sum_one]
  simp

theorem entropy2_finite (hp : Spec.IsProb p) (hq : Spec.IsProb q) (h : ∀ i, q i = 0 → p i = 0) :
    entropy2 p q = ((klReal p q : ℝ) : EReal) := by
  rw [entropy2_eq hp hq, klReal, ← coe_sum]
  refine sum_congr rfl fun i _ => ?_
  by_cases h1 : p i = 0
  · simp [relEntr, h1, hq.nonneg i]
  · have h2 : q i ≠ 0 := fun h' => h1 (h i h')
    rw [relEntr, if_pos ⟨lt_of_le_of_ne (hp.nonneg i) (Ne.symm h1), lt_of_le_of_ne (hq.nonneg i) (Ne.symm h2)⟩]

theorem entropy2_top (hp : Spec.IsProb p) (hq : Spec.IsProb q) {i : Fin d} (h1 : q i = 0) (h2 : p i ≠ 0) :
    entropy2 p q = ⊤ := by
  classical
  rw [entropy2_eq hp hq, ← insert_erase (mem_univ i), sum_insert (notMem_erase i univ)]
  have : relEntr (p i) (q i) = ⊤ := by
    rw [relEntr, if_neg (by rw [h1]; simp), if_neg (by simp [h2])]
  rw [this]
  exact EReal.top_add_of_ne_bot (sum_ne_bot fun j => relEntr_ne_bot _ _)

theorem klReal_nonneg (hp : Spec.IsProb p) (hq : Spec.IsProb q) (h : ∀ i, q i = 0 → p i = 0) :
    0 ≤ klReal p q ∧ (klReal p q = 0 ↔ p = q) := by
  have key : ∀ i, p i - q i ≤ p i * Real.log (p i / q i) ∧ (p i * Real.log (p i / q i) = p i - q i → p i = q i) := by
    intro i
    by_cases h1 : p i = 0
    · rw [h1]
      simp only [zero_sub, zero_div, Real.log_zero, mul_zero]
      exact ⟨by linarith [hq.nonneg i], fun h2 => by linarith⟩
    · have h2 : q i ≠ 0 := fun h' => h1 (h i h')
      exact klTerm (lt_of_le_of_ne (hp.nonneg i) (Ne.symm h1)) (lt_of_le_of_ne (hq.nonneg i) (Ne.symm h2))
  have hs : ∑ i, (p i - q i) = 0 := by rw [sum_sub_distrib, hp.sum_one, hq.sum_one, sub_self]
  refine ⟨?_, ?_, ?_⟩
  · rw [← hs]
    exact sum_le_sum fun i _ => (key i).1
  · intro h0
    rw [klReal, ← hs] at h0
    have := (sum_eq_sum_iff_of_le fun i _ => (key i).1).1 h0.symm
    funext i
    exact (key i).2 (this i (mem_univ i)).symm
  · rintro rfl
    rw [klReal]
    refine sum_eq_zero fun i _ => ?_
    by_cases h1 : p i = 0
    · simp [h1]
    · simp [h1]

/-! ## Jensen-Shannon -/

/-- The midpoint. -/
noncomputable def mid (p q : Fin d → ℝ) : Fin d → ℝ := fun i => 0.5 * (p i + q i)

theorem prob_mid (hp : Spec.IsProb p) (hq : Spec.IsProb q) : Spec.IsProb (mid p q) := by
  refine ⟨fun i => ?_, ?_⟩
  · have := hp.nonneg i
    have := hq.nonneg i
    simp only [mid]; positivity
  · simp only [mid]
    rw [← mul_sum, sum_add_distrib, hp.sum_one, hq.sum_one]
    norm_num

theorem mid_comm (p q : Fin d → ℝ) : mid p q = mid q p := by
  funext i; simp only [mid]; ring

theorem mid_zero (hp : Spec.IsProb p) (hq : Spec.IsProb q) (i : Fin d) (h : mid p q i = 0) : p i = 0 := by
  have := hp.nonneg i
  have := hq.nonneg i
  simp only [mid] at h
  norm_num at h
  linarith

theorem kl_mid_le (hp : Spec.IsProb p) (hq : Spec.IsProb q) :
    klReal p (mid p q) ≤ Real.log 2 ∧ (klReal p (mid p q) = Real.log 2 ↔ Spec.DisjointSupports p q) := by
  have key : ∀ i, p i * Real.log (p i / mid p q i) ≤ p i * Real.log 2 ∧
      (p i * Real.log (p i / mid p q i) = p i * Real.log 2 ↔ (p i = 0 ∨ q i = 0)) := by
    intro i
    by_cases h1 : p i = 0
    · simp [h1]
    have h2 : 0 < p i := lt_of_le_of_ne (hp.nonneg i) (Ne.symm h1)
    have h3 := hq.nonneg i
    have h4 : p i / mid p q i = 2 * (p i / (p i + q i)) := by
      simp only [mid]
      have : p i + q i ≠ 0 := by positivity
      field_simp
      norm_num
    have h5 : 0 < p i / (p i + q i) := by positivity
    rw [h4, Real.log_mul two_ne_zero h5.ne']
    have h6 : p i / (p i + q i) ≤ 1 := by rw [div_le_one (by positivity)]; linarith
    have h7 := Real.log_nonpos h5.le h6
    refine ⟨by nlinarith, ?_⟩
    rw [mul_right_inj' h1]
    simp only [h1, false_or]
    constructor
    · intro h8
      have h9 : Real.log (p i / (p i + q i)) = 0 := by linarith
      have h10 := Real.eq_one_of_pos_of_log_eq_zero h5 h9
      rw [div_eq_one_iff_eq (by positivity)] at h10
      linarith
    · intro h8
      rw [h8, add_zero, div_self h1, Real.log_one, add_zero]
  have hs : ∑ i, p i * Real.log 2 = Real.log 2 := by rw [← sum_mul, hp.sum_one, one_mul]
  refine ⟨?_, ?_, ?_⟩
  · rw [← hs]; exact sum_le_sum fun i _ => (key i).1
  · intro h
    have h' : klReal p (mid p q) = ∑ i, p i * Real.log 2 := by rw [hs, h]
    have := (sum_eq_sum_iff_of_le fun i _ => (key i).1).1 h'
    intro i
    exact (key i).2.1 (this i (mem_univ i))
  · intro h
    rw [klReal, ← hs]
    exact sum_congr rfl fun i _ => (key i).2.2 (h i)

/-- The real value of the divergence. -/
noncomputable def jsReal (p q : Fin d → ℝ) : ℝ := 0.5 * (klReal p (mid p q) + klReal q (mid p q))

theorem jsd_eq (hp : Spec.IsProb p) (hq : Spec.IsProb q) :
    ((0.5 : ℝ) : EReal) * (entropy2 p (mid p q) + entropy2 q (mid p q)) = ((jsReal p q : ℝ) : EReal) := by
  rw [entropy2_finite hp (prob_mid hp hq) (mid_zero hp hq),
    entropy2_finite hq (prob_mid hp hq) (fun i h => mid_zero hq hp i (mid_comm p q ▸ h)), ← EReal.coe_add,
    ← EReal.coe_mul]
  rfl

theorem js_comm (p q : Fin d → ℝ) : jsReal p q = jsReal q p := by
  rw [jsReal, jsReal, mid_comm p q, add_comm]

theorem js_facts (hp : Spec.IsProb p) (hq : Spec.IsProb q) :
    0 ≤ jsReal p q ∧ jsReal p q ≤ Real.log 2 ∧ (jsReal p q = 0 ↔ p = q) ∧
      (jsReal p q = Real.log 2 ↔ Spec.DisjointSupports p q) := by
  have h1 := klReal_nonneg hp (prob_mid hp hq) (mid_zero hp hq)
  have h2 := klReal_nonneg hq (prob_mid hp hq) (fun i h => mid_zero hq hp i (mid_comm p q ▸ h))
  have h3 := kl_mid_le hp hq
  have h4 := kl_mid_le hq hp
  rw [mid_comm q p] at h4
  rw [jsReal]
  refine ⟨by linarith [h1.1, h2.1], by linarith [h3.1, h4.1], ⟨fun h => ?_, fun h => ?_⟩, ⟨fun h => ?_, fun h => ?_⟩⟩
  · have e1 := h1.2.1 (by linarith [h1.1, h2.1])
    have e2 := h2.2.1 (by linarith [h1.1, h2.1])
    exact e1.trans e2.symm
  · subst h
    have : p = mid p p := by funext i; simp only [mid]; ring
    rw [h1.2.2 this]; norm_num
  · exact h3.2.1 (by linarith [h3.1, h4.1])
  · rw [h3.2.2 h, h4.2.2 (fun i => (h i).symm)]
    ring

/-! ## overlaps -/

/-- The Bhattacharyya coefficient. -/
noncomputable def bc (p q : Fin d → ℝ) : ℝ := ∑ i, Real.sqrt (p i * q i)

theorem nanSum_sqrt (h : ∀ i, 0 ≤ p i * q i) :
    (nanSum fun i => npSqrtNan (p i * q i)) = some (∑ i, Real.sqrt (p i * q i)) := by
  have e : ∀ i, npSqrtNan (p i * q i) = some (Real.sqrt (p i * q i)) := fun i => if_neg (not_lt.2 (h i))
  simp [nanSum, e]

/-- The total variation distance. -/
noncomputable def tvd (p q : Fin d → ℝ) : ℝ := 0.5 * ∑ i, |p i - q i|

theorem bc_sub (hp : Spec.IsProb p) (hq : Spec.IsProb q) :
    ∑ i, (Real.sqrt (p i) - Real.sqrt (q i)) ^ 2 = 2 - 2 * bc p q := by
  have : ∀ i, (Real.sqrt (p i) - Real.sqrt (q i)) ^ 2 = p i + q i - 2 * Real.sqrt (p i * q i) := by
    intro i
    rw [Real.sqrt_mul (hp.nonneg i), sub_sq, Real.sq_sqrt (hp.nonneg i), Real.sq_sqrt (hq.nonneg i)]
    ring
  simp_rw [this, sum_sub_distrib, sum_add_distrib, ← mul_sum, hp.sum_one, hq.sum_one]
  rw [bc]; ring

theorem bc_add (hp : Spec.IsProb p) (hq : Spec.IsProb q) :
    ∑ i, (Real.sqrt (p i) + Real.sqrt (q i)) ^ 2 = 2 + 2 * bc p q := by
  have : ∀ i, (Real.sqrt (p i) + Real.sqrt (q i)) ^ 2 = p i + q i + 2 * Real.sqrt (p i * q i) := by
    intro i
    rw [Real.sqrt_mul (hp.nonneg i), add_sq, Real.sq_sqrt (hp.nonneg i), Real.sq_sqrt (hq.nonneg i)]
    ring
  simp_rw [this, sum_add_distrib, ← mul_sum, hp.sum_one, hq.sum_one]
  rw [bc]; ring

theorem bc_facts (hp : Spec.IsProb p) (hq : Spec.IsProb q) :
    0 ≤ bc p q ∧ bc p q ≤ 1 ∧ (bc p q = 1 ↔ p = q) ∧ (bc p q = 0 ↔ Spec.DisjointSupports p q) := by
  have h := bc_sub hp hq
  have hn : 0 ≤ ∑ i, (Real.sqrt (p i) - Real.sqrt (q i)) ^ 2 := sum_nonneg fun i _ => sq_nonneg _
  refine ⟨sum_nonneg fun i _ => Real.sqrt_nonneg _, by linarith, ⟨fun h1 => ?_, fun h1 => ?_⟩, ?_⟩
  · rw [h1] at h
    have h2 := (sum_eq_zero_iff_of_nonneg fun i _ => sq_nonneg (Real.sqrt (p i) - Real.sqrt (q i))).1 (by linarith)
    funext i
    have h3 := h2 i (mem_univ i)
    rw [sq_eq_zero_iff, sub_eq_zero] at h3
    exact (Real.sqrt_inj (hp.nonneg i) (hq.nonneg i)).1 h3
  · subst h1
    simp only [sub_self, ne_eq, OfNat.ofNat_ne_zero, not_false_eq_true, zero_pow, sum_const_zero] at h
    linarith
  · rw [bc, sum_eq_zero_iff_of_nonneg fun i _ => Real.sqrt_nonneg _]
    constructor
    · intro h1 i
      have h2 := h1 i (mem_univ i)
      rw [Real.sqrt_eq_zero (mul_nonneg (hp.nonneg i) (hq.nonneg i)), mul_eq_zero] at h2
      exact h2
    · intro h1 i _
      rw [Real.sqrt_eq_zero (mul_nonneg (hp.nonneg i) (hq.nonneg i)), mul_eq_zero]
      exact h1 i

theorem abs_sub_sqrt (hp : Spec.IsProb p) (hq : Spec.IsProb q) (i : Fin d) :
    |p i - q i| = |Real.sqrt (p i) - Real.sqrt (q i)| * (Real.sqrt (p i) + Real.sqrt (q i)) := by
  have h : p i - q i = (Real.sqrt (p i) - Real.sqrt (q i)) * (Real.sqrt (p i) + Real.sqrt (q i)) := by
    nlinarith [Real.sq_sqrt (hp.nonneg i), Real.sq_sqrt (hq.nonneg i)]
  rw [h, abs_mul, abs_of_nonneg (add_nonneg (Real.sqrt_nonneg _) (Real.sqrt_nonneg _))]

theorem bc_tvd (hp : Spec.IsProb p) (hq : Spec.IsProb q) :
    1 - bc p q ≤ tvd p q ∧ tvd p q ≤ Real.sqrt (1 - bc p q ^ 2) := by
  have h1 := bc_sub hp hq
  have h2 := bc_add hp hq
  constructor
  · have : ∑ i, (Real.sqrt (p i) - Real.sqrt (q i)) ^ 2 ≤ ∑ i, |p i - q i| := by
      refine sum_le_sum fun i _ => ?_
      rw [abs_sub_sqrt hp hq, ← sq_abs, sq]
      refine mul_le_mul_of_nonneg_left ?_ (abs_nonneg _)
      rw [abs_le]
      constructor <;> linarith [Real.sqrt_nonneg (p i), Real.sqrt_nonneg (q i)]
    rw [tvd]
    linarith
  · apply Real.le_sqrt_of_sq_le
    have h3 := sum_mul_sq_le_sq_mul_sq univ (fun i => |Real.sqrt (p i) - Real.sqrt (q i)|)
      (fun i => Real.sqrt (p i) + Real.sqrt (q i))
    simp_rw [← abs_sub_sqrt hp hq, sq_abs] at h3
    rw [h1, h2] at h3
    rw [tvd, mul_pow]
    nlinarith

theorem tvd_facts (hp : Spec.IsProb p) (hq : Spec.IsProb q) (r : Fin d → ℝ) :
    tvd p q = tvd q p ∧ 0 ≤ tvd p q ∧ tvd p q ≤ 1 ∧ (tvd p q = 0 ↔ p = q) ∧ tvd p q ≤ tvd p r + tvd r q := by
  refine ⟨?_, ?_, ?_, ?_, ?_⟩
  · simp only [tvd, abs_sub_comm]
  · rw [tvd]
    have : 0 ≤ ∑ i, |p i - q i| := sum_nonneg fun i _ => abs_nonneg _
    positivity
  · rw [tvd]
    have : ∑ i, |p i - q i| ≤ ∑ i, (p i + q i) := sum_le_sum fun i _ => by
      rw [abs_le]; constructor <;> linarith [hp.nonneg i, hq.nonneg i]
    rw [sum_add_distrib, hp.sum_one, hq.sum_one] at this
    linarith
  · rw [tvd, mul_eq_zero, sum_eq_zero_iff_of_nonneg fun i _ => abs_nonneg _]
    constructor
    · rintro (h | h)
      · norm_num at h
      · funext i
        exact sub_eq_zero.1 (abs_eq_zero.1 (h i (mem_univ i)))
    · rintro rfl
      right; simp
  · rw [tvd, tvd, tvd, ← mul_add, ← sum_add_distrib]
    refine mul_le_mul_of_nonneg_left (sum_le_sum fun i _ => abs_sub_le _ _ _) (by norm_num)

/-- The distance is 1 exactly for disjoint supports. -/
theorem tvd_one (hp : Spec.IsProb p) (hq : Spec.IsProb q) : tvd p q = 1 ↔ Spec.DisjointSupports p q := by
  have h0 : ∀ i, |p i - q i| ≤ p i + q i := fun i => by
    rw [abs_le]; constructor <;> linarith [hp.nonneg i, hq.nonneg i]
  have hs : ∑ i, (p i + q i) = 2 := by rw [sum_add_distrib, hp.sum_one, hq.sum_one]; norm_num
  constructor
  · intro h i
    have h1 : ∑ i, |p i - q i| = ∑ i, (p i + q i) := by rw [hs]; rw [tvd] at h; linarith
    have h2 := (sum_eq_sum_iff_of_le fun i _ => h0 i).1 h1 i (mem_univ i)
    rcases abs_cases (p i - q i) with h3 | h3
    · right; linarith
    · left; linarith
  · intro h
    rw [tvd]
    have : ∑ i, |p i - q i| = ∑ i, (p i + q i) := sum_congr rfl fun i _ => by
      rcases h i with h1 | h1
      · rw [h1, zero_sub, abs_neg, zero_add, abs_of_nonneg (hq.nonneg i)]
      · rw [h1, sub_zero, add_zero, abs_of_nonneg (hp.nonneg i)]
    rw [this, hs]; norm_num

end FF
