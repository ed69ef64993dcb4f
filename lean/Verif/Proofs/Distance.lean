import Verif.Spec.Distance
import Mathlib.Analysis.MeanInequalities
import Mathlib.Analysis.MeanInequalitiesPow
import Mathlib.Analysis.Convex.SpecificFunctions.Basic
import Mathlib.Analysis.SpecialFunctions.Log.NegMulLog
import Mathlib.Data.EReal.Basic
import Mathlib.Data.EReal.Operations

/-! # Real analysis of probability vectors -/

namespace FF

open Finset

variable {d : ℕ} {p q r : Fin d → ℝ}

theorem prob_le_one (hp : Spec.IsProb p) (i : Fin d) : p i ≤ 1 := by
  rw [← hp.sum_one]
  exact single_le_sum (fun j _ => hp.nonneg j) (mem_univ i)

theorem prob_pos (hp : Spec.IsProb p) : 0 < d := by
  rcases Nat.eq_zero_or_pos d with h | h
  · subst h
    have := hp.sum_one
    simp at this
  · exact h

/-- The support. -/
noncomputable def supp (p : Fin d → ℝ) : Finset (Fin d) := open Classical in univ.filter fun i => p i ≠ 0

theorem mem_supp {i : Fin d} : i ∈ supp p ↔ p i ≠ 0 := by simp [supp]

theorem supp_pos (hp : Spec.IsProb p) {i : Fin d} (hi : i ∈ supp p) : 0 < p i :=
  lt_of_le_of_ne (hp.nonneg i) (Ne.symm (mem_supp.1 hi))

theorem sum_supp (hp : Spec.IsProb p) : ∑ i ∈ supp p, p i = 1 := by
  rw [← hp.sum_one]
  exact sum_subset (subset_univ _) fun i _ hi => by simpa [mem_supp] using hi

theorem supp_nonempty (hp : Spec.IsProb p) : (supp p).Nonempty := by
  by_contra h
  rw [not_nonempty_iff_eq_empty] at h
  have := sum_supp hp
  rw [h, sum_empty] at this
  exact zero_ne_one this

/-- `F a = Σ p^a` over the support. -/
noncomputable def powSum (p : Fin d → ℝ) (a : ℝ) : ℝ := ∑ i ∈ supp p, p i ^ a

theorem powSum_pos (hp : Spec.IsProb p) (a : ℝ) : 0 < powSum p a :=
  sum_pos (fun _ hi => Real.rpow_pos_of_pos (supp_pos hp hi) a) (supp_nonempty hp)

theorem powSum_eq (hp : Spec.IsProb p) (a : ℝ) : powSum p a = ∑ i ∈ supp p, p i * p i ^ (a - 1) := by
  refine sum_congr rfl fun i hi => ?_
  rw [Real.rpow_sub_one (mem_supp.1 hi), mul_div_cancel₀ _ (mem_supp.1 hi)]

theorem renyi_of_ne (p : Fin d → ℝ) {a : ℝ} (ha : a ≠ 1) : Spec.renyi p a = 1 / (1 - a) * Real.log (powSum p a) := by
  rw [Spec.renyi, if_neg ha]; rfl

theorem renyi_one (p : Fin d → ℝ) : Spec.renyi p 1 = -∑ i ∈ supp p, p i * Real.log (p i) := by
  rw [Spec.renyi, if_pos rfl, neg_inj]
  symm
  exact sum_subset (subset_univ _) fun i _ hi => by
    have : p i = 0 := by simpa [mem_supp] using hi
    simp [this]

/-- Jensen for powers, weights `p` on the support. -/
theorem jensen_pow (hp : Spec.IsProb p) {s t : ℝ} (hst : 1 ≤ t / s) (hs : s ≠ 0) :
    (∑ i ∈ supp p, p i * p i ^ s) ^ (t / s) ≤ ∑ i ∈ supp p, p i * p i ^ t := by
  have h := Real.rpow_arith_mean_le_arith_mean_rpow (supp p) p (fun i => p i ^ s)
    (fun i _ => hp.nonneg i) (sum_supp hp) (fun i hi => Real.rpow_nonneg (hp.nonneg i) s) hst
  refine h.trans (le_of_eq (sum_congr rfl fun i hi => ?_))
  rw [← Real.rpow_mul (hp.nonneg i), mul_div_cancel₀ _ hs]

theorem jensen_log (hp : Spec.IsProb p) (s : ℝ) :
    s * ∑ i ∈ supp p, p i * Real.log (p i) ≤ Real.log (∑ i ∈ supp p, p i * p i ^ s) := by
  have h := strictConcaveOn_log_Ioi.concaveOn.le_map_sum (t := supp p) (w := p) (p := fun i => p i ^ s)
    (fun i _ => hp.nonneg i) (sum_supp hp) (fun i hi => Real.rpow_pos_of_pos (supp_pos hp hi) s)
  simp only [smul_eq_mul] at h
  refine le_trans (le_of_eq ?_) h
  rw [mul_sum]
  refine sum_congr rfl fun i hi => ?_
  rw [Real.log_rpow (supp_pos hp hi)]
  ring

theorem renyi_le_shannon (hp : Spec.IsProb p) {b : ℝ} (hb : 1 < b) : Spec.renyi p b ≤ Spec.renyi p 1 := by
  rw [renyi_of_ne p (ne_of_gt hb), renyi_one, powSum_eq hp]
  have h := jensen_log hp (b - 1)
  have hb' : 0 < b - 1 := by linarith
  have : 1 / (1 - b) = -(1 / (b - 1)) := by rw [← neg_sub b 1, div_neg]
  rw [this, neg_mul, neg_le_neg_iff, one_div, ← div_eq_inv_mul, le_div_iff₀ hb', mul_comm]
  exact h

theorem shannon_le_renyi (hp : Spec.IsProb p) {a : ℝ} (ha : a < 1) : Spec.renyi p 1 ≤ Spec.renyi p a := by
  rw [renyi_of_ne p (ne_of_lt ha), renyi_one, powSum_eq hp]
  have h := jensen_log hp (a - 1)
  have ha' : 0 < 1 - a := by linarith
  rw [one_div, ← div_eq_inv_mul, le_div_iff₀ ha']
  linarith

theorem renyi_anti_gt (hp : Spec.IsProb p) {a b : ℝ} (ha : 1 < a) (hab : a ≤ b) :
    Spec.renyi p b ≤ Spec.renyi p a := by
  have h := jensen_pow hp (s := a - 1) (t := b - 1) (by rw [le_div_iff₀ (by linarith)]; linarith) (by linarith)
  rw [← powSum_eq hp, ← powSum_eq hp] at h
  have h2 := Real.log_le_log (Real.rpow_pos_of_pos (powSum_pos hp a) _) h
  rw [Real.log_rpow (powSum_pos hp a)] at h2
  rw [renyi_of_ne p (by linarith), renyi_of_ne p (by linarith)]
  have e1 : 1 / (1 - b) * Real.log (powSum p b) = -(Real.log (powSum p b) / (b - 1)) := by
    rw [← neg_sub b 1, div_neg]; ring
  have e2 : 1 / (1 - a) * Real.log (powSum p a) = -(Real.log (powSum p a) / (a - 1)) := by
    rw [← neg_sub a 1, div_neg]; ring
  rw [e1, e2, neg_le_neg_iff, le_div_iff₀ (by linarith)]
  refine le_trans (le_of_eq ?_) h2
  ring

theorem renyi_anti_lt (hp : Spec.IsProb p) {a b : ℝ} (hb : b < 1) (hab : a ≤ b) :
    Spec.renyi p b ≤ Spec.renyi p a := by
  have h := jensen_pow hp (s := b - 1) (t := a - 1)
    (by rw [← neg_div_neg_eq, le_div_iff₀ (by linarith)]; linarith) (by linarith)
  rw [← powSum_eq hp, ← powSum_eq hp] at h
  have h2 := Real.log_le_log (Real.rpow_pos_of_pos (powSum_pos hp b) _) h
  rw [Real.log_rpow (powSum_pos hp b)] at h2
  rw [renyi_of_ne p (by linarith), renyi_of_ne p (by linarith), one_div, one_div, ← div_eq_inv_mul, ← div_eq_inv_mul,
    le_div_iff₀ (by linarith)]
  refine le_trans (le_of_eq ?_) h2
  rw [← neg_div_neg_eq (a - 1), neg_sub, neg_sub]
  ring

/-- Rényi entropies decrease with the order. -/
theorem renyi_anti (hp : Spec.IsProb p) {a b : ℝ} (hab : a ≤ b) : Spec.renyi p b ≤ Spec.renyi p a := by
  rcases lt_trichotomy a 1 with ha | ha | ha
  · rcases lt_trichotomy b 1 with hb | hb | hb
    · exact renyi_anti_lt hp hb hab
    · rw [hb]; exact shannon_le_renyi hp ha
    · exact (renyi_le_shannon hp hb).trans (shannon_le_renyi hp ha)
  · subst ha
    rcases eq_or_lt_of_le hab with h | h
    · rw [h]
    · exact renyi_le_shannon hp h
  · exact renyi_anti_gt hp ha hab

theorem max_pos (hp : Spec.IsProb p) {m : ℝ} (hm : Spec.IsMax p m) : 0 < m := by
  obtain ⟨i, hi⟩ := supp_nonempty hp
  exact lt_of_lt_of_le (supp_pos hp hi) (hm.2 i)

/-- The min-entropy is a lower bound. -/
theorem minEntropy_le (hp : Spec.IsProb p) {m : ℝ} (hm : Spec.IsMax p m) (a : ℝ) : -Real.log m ≤ Spec.renyi p a := by
  have h : ∀ b : ℝ, 1 < b → -Real.log m ≤ Spec.renyi p b := by
    intro b hb
    rw [renyi_of_ne p (ne_of_gt hb), powSum_eq hp]
    have h1 : ∑ i ∈ supp p, p i * p i ^ (b - 1) ≤ m ^ (b - 1) := by
      calc ∑ i ∈ supp p, p i * p i ^ (b - 1) ≤ ∑ i ∈ supp p, p i * m ^ (b - 1) :=
            sum_le_sum fun i hi => mul_le_mul_of_nonneg_left
              (Real.rpow_le_rpow (hp.nonneg i) (hm.2 i) (by linarith)) (hp.nonneg i)
        _ = m ^ (b - 1) := by rw [← sum_mul, sum_supp hp, one_mul]
    have h2 := Real.log_le_log (by rw [← powSum_eq hp]; exact powSum_pos hp b) h1
    rw [Real.log_rpow (max_pos hp hm)] at h2
    have : 1 / (1 - b) = -(1 / (b - 1)) := by rw [← neg_sub b 1, div_neg]
    rw [this, neg_mul, neg_le_neg_iff, one_div, ← div_eq_inv_mul, div_le_iff₀ (by linarith), mul_comm]
    exact h2
  exact (h (max a 2) (lt_of_lt_of_le one_lt_two (le_max_right _ _))).trans (renyi_anti hp (le_max_left _ _))

theorem renyi_nonneg (hp : Spec.IsProb p) (a : ℝ) : 0 ≤ Spec.renyi p a := by
  obtain ⟨i, -, hi⟩ := exists_max_image univ p ⟨(⟨0, prob_pos hp⟩ : Fin d), mem_univ _⟩
  have hm : Spec.IsMax p (p i) := ⟨⟨i, rfl⟩, fun j => hi j (mem_univ j)⟩
  refine le_trans ?_ (minEntropy_le hp hm a)
  have := Real.log_nonpos (max_pos hp hm).le (prob_le_one hp i)
  linarith

theorem renyi_zero (p : Fin d → ℝ) : Spec.renyi p 0 = Real.log (supp p).card := by
  rw [renyi_of_ne p zero_ne_one]
  simp [powSum]

theorem renyi_le (hp : Spec.IsProb p) {a : ℝ} (ha : 0 ≤ a) : Spec.renyi p a ≤ Real.log d := by
  refine (renyi_anti hp ha).trans ?_
  rw [renyi_zero]
  refine Real.log_le_log (by exact_mod_cast (supp_nonempty hp).card_pos) ?_
  exact_mod_cast (card_le_univ _).trans (by simp)

end FF
