import Verif.Proofs.Distance2
import Verif.Proofs.Eigen2
import Verif.Props.Utils

/-! # From the model of the entropies to real analysis -/

namespace FF

open Finset

variable {d e : ℕ} {p q : Fin d → ℝ} {x y : Arr}

theorem represents_cast (h : Spec.Represents x p) : castToPdf x = .ok ⟨d, p⟩ ∧ Spec.IsProb p := by
  rcases h with ⟨ψ, hψ, rfl, hp⟩ | ⟨ρ, hρ, rfl, hp⟩ | ⟨hp, rfl, h2⟩
  · obtain rfl : p = fun i => ‖ψ i‖ ^ 2 := funext hp
    exact Props.C17_wavefunction d ψ hψ
  · obtain rfl : p = fun i => (ρ i i).re := funext fun i => by rw [← hp i, Complex.ofReal_re]
    exact Props.C17_density d ρ hρ
  · exact ⟨Props.C17_prob_vector_partial d p hp h2, hp⟩

/-- A distribution that is spread out represents itself. -/
theorem represents_self (hp : Spec.IsProb p) (h : ∑ i, p i ^ 2 ≤ 0.99) : Spec.Represents (realVec p) p := by
  refine .inr (.inr ⟨hp, rfl, ?_⟩)
  have h1 : Real.sqrt (∑ i, p i ^ 2) ≤ 0.996 := by
    rw [Real.sqrt_le_left (by norm_num)]
    refine h.trans (by norm_num)
  rw [abs_of_nonpos (by linarith)]
  norm_num
  linarith

theorem representsDet (h : Spec.Deterministic p) : Spec.Represents (realVec p) p := by
  have hp := prob_deterministic h
  obtain ⟨k, hk⟩ := h
  refine .inl ⟨fun i => (p i : ℂ), ?_, rfl, fun i => ?_⟩
  · simp only [Spec.IsUnitVec, Complex.norm_real, Real.norm_eq_abs, sq_abs]
    simp [hk]
  · rw [Complex.norm_real, Real.norm_eq_abs, sq_abs, hk]
    split <;> norm_num

theorem entr_eq {x : ℝ} (hx : 0 ≤ x) : entr x = ((-(x * Real.log x) : ℝ) : EReal) := by
  rcases hx.eq_or_lt with h | h
  · subst h
    simp [entr]
  · rw [entr, if_pos h]

theorem entropy1_eq (hp : Spec.IsProb p) : entropy1 p = ((Spec.renyi p 1 : ℝ) : EReal) := by
  rw [entropy1, hp.sum_one, Spec.renyi, if_pos rfl, ← sum_neg_distrib, ← coe_sum]
  refine sum_congr rfl fun i _ => ?_
  rw [div_one, entr_eq (hp.nonneg i)]

theorem countNonzero_eq (p : Fin d → ℝ) : countNonzero p = (supp p).card := rfl

theorem lpSum_eq (hp : Spec.IsProb p) {a : ℝ} (ha : a ≠ 0) : ∑ i, |p i| ^ a = powSum p a := by
  rw [powSum]
  symm
  refine sum_subset_zero_on_sdiff (subset_univ _) (fun i hi => ?_) fun i _ => by rw [abs_of_nonneg (hp.nonneg i)]
  have : p i = 0 := by simpa [mem_supp] using hi
  rw [this, abs_zero, Real.zero_rpow ha]

theorem npMax_eq {m : ℝ} (hm : Spec.IsMax p m) : npMax p = m := by
  obtain ⟨⟨i, hi⟩, hm⟩ := hm
  have : Nonempty (Fin d) := ⟨i⟩
  refine le_antisymm (ciSup_le hm) ?_
  rw [← hi]
  exact le_ciSup (Set.finite_range p).bddAbove i

theorem renyiCore_num (hp : Spec.IsProb p) {a : ℝ} (ha : 0 ≤ a) :
    renyiCore p (.num a) = ((Spec.renyi p a : ℝ) : EReal) := by
  rw [renyiCore]
  split_ifs with h1 h0 h2
  · subst h1; exact entropy1_eq hp
  · subst h0; rw [renyi_zero]; rfl
  · exact absurd h2.1 (not_lt.2 ha)
  · rw [lpNorm, lpSum_eq hp h0, Real.log_rpow (powSum_pos hp a), renyi_of_ne p h1]
    congr 1
    have : 1 - a ≠ 0 := sub_ne_zero.2 (Ne.symm h1)
    field_simp

theorem renyiCore_neg (hp : Spec.IsProb p) {a : ℝ} (ha : a < 0) :
    renyiCore p (.num a) = open Classical in if ∃ i, p i = 0 then ⊤ else ((Spec.renyi p a : ℝ) : EReal) := by
  have h1 : a ≠ 1 := by linarith
  rw [renyiCore, if_neg h1, if_neg ha.ne]
  by_cases h : ∃ i, p i = 0
  · rw [if_pos ⟨ha, h⟩, if_pos h]
  · rw [if_neg fun h' => h h'.2, if_neg h, lpNorm, lpSum_eq hp ha.ne, Real.log_rpow (powSum_pos hp a), renyi_of_ne p h1]
    congr 1
    have : 1 - a ≠ 0 := by linarith
    have := ha.ne
    field_simp

theorem renyiCore_inf {m : ℝ} (hm : Spec.IsMax p m) : renyiCore p .inf = ((-Real.log m : ℝ) : EReal) := by
  rw [renyiCore, npMax_eq hm]

theorem exists_max (hp : Spec.IsProb p) : ∃ m, Spec.IsMax p m := by
  obtain ⟨i, -, hi⟩ := exists_max_image univ p ⟨(⟨0, prob_pos hp⟩ : Fin d), mem_univ _⟩
  exact ⟨p i, ⟨i, rfl⟩, fun j => hi j (mem_univ j)⟩

theorem renyiEntropy_eq (h : Spec.Represents x p) (o : Order) : renyiEntropy x o = .ok (renyiCore p o) := by
  rw [renyiEntropy, (represents_cast h).1]
  rfl

theorem deterministic_of_max (hp : Spec.IsProb p) {m : ℝ} (hm : Spec.IsMax p m) (h : 1 ≤ m) : Spec.Deterministic p := by
  obtain ⟨⟨k, hk⟩, -⟩ := hm
  refine ⟨k, fun i => ?_⟩
  have h1 : p k = 1 := le_antisymm (prob_le_one hp k) (hk ▸ h)
  split_ifs with hi
  · rw [hi, h1]
  · have h2 := hp.sum_one
    classical
    rw [← add_sum_erase _ _ (mem_univ k), h1] at h2
    have h3 : ∑ j ∈ univ.erase k, p j = 0 := by linarith
    exact (sum_eq_zero_iff_of_nonneg fun j _ => hp.nonneg j).1 h3 i (mem_erase.2 ⟨hi, mem_univ i⟩)

/-! ## linear entropy -/

theorem sumsq_facts (hp : Spec.IsProb p) :
    1 / (d : ℝ) ≤ ∑ i, p i ^ 2 ∧ ∑ i, p i ^ 2 ≤ 1 ∧ (∑ i, p i ^ 2 = 1 ↔ Spec.Deterministic p) ∧
      (∑ i, p i ^ 2 = 1 / (d : ℝ) ↔ Spec.Uniform p) := by
  have hd : (0 : ℝ) < d := by exact_mod_cast prob_pos hp
  have key : ∑ i, (p i - 1 / (d : ℝ)) ^ 2 = ∑ i, p i ^ 2 - 1 / (d : ℝ) := by
    simp_rw [sub_sq, sum_add_distrib, sum_sub_distrib, mul_assoc, ← mul_sum, ← sum_mul, hp.sum_one]
    rw [sum_const, card_univ, Fintype.card_fin, nsmul_eq_mul]
    field_simp
    ring
  have hn : 0 ≤ ∑ i, (p i - 1 / (d : ℝ)) ^ 2 := sum_nonneg fun i _ => sq_nonneg _
  have hle : ∀ i, p i ^ 2 ≤ p i := fun i => by nlinarith [hp.nonneg i, prob_le_one hp i]
  refine ⟨by linarith, by rw [← hp.sum_one]; exact sum_le_sum fun i _ => hle i, ⟨fun h => ?_, fun h => ?_⟩,
    ⟨fun h i => ?_, fun h => ?_⟩⟩
  · have h1 : ∑ i, p i ^ 2 = ∑ i, p i := by rw [h, hp.sum_one]
    have h2 := (sum_eq_sum_iff_of_le fun i _ => hle i).1 h1
    obtain ⟨k, hk⟩ := supp_nonempty hp
    have hk' := supp_pos hp hk
    refine deterministic_of_max hp (m := p k) ⟨⟨k, rfl⟩, fun i => ?_⟩ ?_ <;>
    · have := h2 k (mem_univ k)
      have h3 : p k = 1 := by nlinarith
      first | (rw [h3]; exact prob_le_one hp i) | rw [h3]
  · obtain ⟨k, hk⟩ := h
    simp [hk]
  · rw [h, sub_self] at key
    have := (sum_eq_zero_iff_of_nonneg fun i _ => sq_nonneg _).1 key i (mem_univ i)
    exact sub_eq_zero.1 (pow_eq_zero_iff (two_ne_zero) |>.1 this)
  · simp_rw [h _]
    rw [sum_const, card_univ, Fintype.card_fin, nsmul_eq_mul]
    field_simp

theorem lpNorm_two (p : Fin d → ℝ) : lpNorm p 2 ^ 2 = ∑ i, p i ^ 2 := by
  have h : ∀ i, |p i| ^ (2 : ℝ) = p i ^ 2 := fun i => by rw [Real.rpow_two, sq_abs]
  have hn : 0 ≤ ∑ i, p i ^ 2 := sum_nonneg fun i _ => sq_nonneg _
  rw [lpNorm]
  simp_rw [h]
  rw [← Real.rpow_natCast, ← Real.rpow_mul hn]
  norm_num

theorem isclose_zero_real {x : ℝ} : isclose (x : ℂ) 0 ↔ |x| ≤ 1e-8 := by
  rw [isclose, sub_zero, norm_zero, mul_zero, add_zero, Complex.norm_real, Real.norm_eq_abs]

theorem linearEntropy_eq (h : Spec.Represents x p) :
    (|Real.sqrt d - ⌊Real.sqrt d⌋₊| ≤ 1e-8 → linearEntropy x = .ok (1 - ∑ i, p i ^ 2)) ∧
      (¬ |Real.sqrt d - ⌊Real.sqrt d⌋₊| ≤ 1e-8 → linearEntropy x = .error .assertionError) := by
  constructor
  · intro h1
    rw [linearEntropy, (represents_cast h).1]
    simp only [bind, Except.bind]
    rw [pyAssert_ok (isclose_zero_real.2 h1), lpNorm_two]
    simp only
    rw [pyAssert_ok (isclose_self _)]
    rfl
  · intro h1
    rw [linearEntropy, (represents_cast h).1]
    simp only [bind, Except.bind]
    rw [pyAssert, if_neg (fun h2 => h1 (isclose_zero_real.1 h2))]

theorem sqrt_square (m : ℕ) : |Real.sqrt ((m * m : ℕ) : ℝ) - ⌊Real.sqrt ((m * m : ℕ) : ℝ)⌋₊| ≤ 1e-8 := by
  have : Real.sqrt ((m * m : ℕ) : ℝ) = m := by
    push_cast
    exact Real.sqrt_mul_self (Nat.cast_nonneg m)
  rw [this, Nat.floor_natCast, sub_self, abs_zero]
  norm_num

theorem sqrt_nonsquare {d : ℕ} (hd : ¬ IsSquare d) (hb : d ≤ 10 ^ 15) :
    ¬ |Real.sqrt d - ⌊Real.sqrt d⌋₊| ≤ 1e-8 := by
  set s := Real.sqrt d with hs
  set m : ℕ := ⌊s⌋₊ with hm
  have hs0 : 0 ≤ s := Real.sqrt_nonneg _
  have h1 : (m : ℝ) ≤ s := Nat.floor_le hs0
  have hsq : s * s = d := Real.mul_self_sqrt (Nat.cast_nonneg d)
  have h2 : m * m < d := by
    refine lt_of_le_of_ne ?_ fun h => hd ⟨m, h.symm⟩
    have : (m : ℝ) * m ≤ s * s := mul_self_le_mul_self (Nat.cast_nonneg m) h1
    rw [hsq] at this
    exact_mod_cast this
  have h3 : (m : ℝ) * m + 1 ≤ d := by exact_mod_cast h2
  have h4 : s ≤ 4e7 := by
    rw [hs, Real.sqrt_le_left (by norm_num)]
    have : (d : ℝ) ≤ 10 ^ 15 := by exact_mod_cast hb
    refine this.trans (by norm_num)
  rw [abs_of_nonneg (by linarith), not_le]
  by_contra hc
  rw [not_lt] at hc
  have h5 : s * s - m * m = (s - m) * (s + m) := by ring
  nlinarith

theorem broadcast_same {d : ℕ} (p q : Fin d → ℝ) : broadcast ⟨d, p⟩ ⟨d, q⟩ = .ok ⟨d, p, q⟩ := by
  simp [broadcast]

end FF
