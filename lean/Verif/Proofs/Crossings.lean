import Verif.Proofs.Matching
import Mathlib.GroupTheory.Perm.Fin

/-! # The sign of a term of the Pfaffian is the parity of the crossings of its matching -/

namespace FF

open Equiv

/-- `1` if `a < b`, and `-1` otherwise. -/
def ordSign {n : ℕ} (a b : Fin n) : ℤˣ := if a < b then 1 else -1

/-- The sign of the pairs `{a, b}` and `{c, d}`: their four comparisons. -/
def pairSign {n : ℕ} (a b c d : Fin n) : ℤˣ := ordSign a c * ordSign a d * ordSign b c * ordSign b d

theorem ordSign_swap {n : ℕ} {a b : Fin n} (h : a ≠ b) : ordSign a b = -ordSign b a := by
  unfold ordSign
  rcases lt_or_gt_of_ne h with h | h
  · rw [if_pos h, if_neg (not_lt.2 h.le), neg_neg]
  · rw [if_neg (not_lt.2 h.le), if_pos h]

/-- The sign of a permutation, slot by slot. -/
theorem sign_slots {m : ℕ} (σ : Perm (Fin (2 * m))) :
    Perm.sign σ = (∏ k : Fin m, ordSign (σ (ev k)) (σ (od k))) *
      ∏ l : Fin m, ∏ k : Fin m, if k < l then
        pairSign (σ (ev k)) (σ (od k)) (σ (ev l)) (σ (od l)) else 1 := by
  rw [Perm.sign_eq_prod_prod_Iio]
  have h1 : ∀ j, ∏ i ∈ Finset.Iio j, (if σ i < σ j then 1 else -1 : ℤˣ)
      = ∏ i : Fin (2 * m), if i < j then ordSign (σ i) (σ j) else 1 := by
    intro j
    rw [← Finset.prod_filter]
    refine Finset.prod_congr ?_ fun _ _ => rfl
    ext i; simp
  rw [Finset.prod_congr rfl fun j _ => h1 j, prod_pairs, ← Finset.prod_mul_distrib]
  refine Finset.prod_congr rfl fun l _ => ?_
  rw [prod_pairs, prod_pairs, ← Finset.prod_mul_distrib]
  have e1 : ∀ k : Fin m, (ev k < ev l) ↔ k < l := fun k => by
    simp only [ev, Fin.lt_def]; omega
  have e2 : ∀ k : Fin m, (od k < ev l) ↔ k < l := fun k => by
    simp only [ev, od, Fin.lt_def]; omega
  have e3 : ∀ k : Fin m, (ev k < od l) ↔ k < l ∨ k = l := fun k => by
    simp only [ev, od, Fin.lt_def, Fin.ext_iff]; omega
  have e4 : ∀ k : Fin m, (od k < od l) ↔ k < l := fun k => by
    simp only [od, Fin.lt_def]; omega
  have h2 : ordSign (σ (ev l)) (σ (od l))
      = ∏ k : Fin m, if k = l then ordSign (σ (ev k)) (σ (od l)) else 1 := by
    rw [Finset.prod_ite_eq' Finset.univ l]; simp
  rw [h2, ← Finset.prod_mul_distrib]
  refine Finset.prod_congr rfl fun k _ => ?_
  simp only [e1, e2, e3, e4, pairSign]
  by_cases hk : k < l
  · have : k ≠ l := hk.ne
    simp only [hk, this, if_true, true_or, if_false, one_mul]
    ac_rfl
  · by_cases hkl : k = l
    · subst hkl; simp
    · simp [hk, hkl]

/-- The sign of two pairs depends on the pairs only. -/
theorem pairSign_swap_left {n : ℕ} (a b c d : Fin n) : pairSign b a c d = pairSign a b c d := by
  unfold pairSign; ac_rfl

theorem pairSign_swap_right {n : ℕ} (a b c d : Fin n) : pairSign a b d c = pairSign a b c d := by
  unfold pairSign; ac_rfl

theorem pairSign_comm {n : ℕ} {a b c d : Fin n} (h1 : a ≠ c) (h2 : a ≠ d) (h3 : b ≠ c) (h4 : b ≠ d) :
    pairSign a b c d = pairSign c d a b := by
  unfold pairSign
  rw [ordSign_swap h1, ordSign_swap h2, ordSign_swap h3, ordSign_swap h4]
  simp only [mul_neg, neg_mul, neg_neg]
  ac_rfl

/-- For ordered pairs, the first of which begins first, the sign is `-1` exactly if the pairs cross. -/
theorem pairSign_ordered {n : ℕ} {a b c d : Fin n} (hcd : c < d) (hac : a < c) (hbc : b ≠ c) :
    pairSign a b c d = if c < b ∧ b < d then -1 else 1 := by
  unfold pairSign ordSign
  have h1 : a < d := hac.trans hcd
  by_cases h2 : b < c
  · have : b < d := h2.trans hcd
    simp [hac, h1, h2, this, not_lt.2 h2.le]
  · have h3 : c < b := lt_of_le_of_ne (not_lt.1 h2) hbc.symm
    by_cases h4 : b < d <;> simp [hac, h1, h2, h3, h4]

/-- A product over all pairs of slots, in either order. -/
theorem prod_reorder {M : Type} [CommMonoid M] {m : ℕ} {X : Type} [LinearOrder X] (key : Fin m → X)
    (hk : Function.Injective key) (f : Fin m → Fin m → M) (hf : ∀ k l, k ≠ l → f k l = f l k) :
    (∏ l : Fin m, ∏ k : Fin m, if k < l then f k l else 1)
      = ∏ l : Fin m, ∏ k : Fin m, if key k < key l then f k l else 1 := by
  have hs : ∀ (P : Fin m → Fin m → Prop) [∀ k l, Decidable (P k l)],
      (∏ l : Fin m, ∏ k : Fin m, if P k l then f k l else 1)
        = ∏ p ∈ (Finset.univ : Finset (Fin m × Fin m)).filter (fun p => P p.2 p.1), f p.2 p.1 := by
    intro P _
    rw [Finset.prod_filter, ← Finset.univ_product_univ, Finset.prod_product]
  rw [hs, hs]
  refine Finset.prod_bij (fun p _ => if key p.2 < key p.1 then p else p.swap) ?_ ?_ ?_ ?_
  · rintro ⟨l, k⟩ h
    simp only [Finset.mem_filter, Finset.mem_univ, true_and] at h ⊢
    by_cases h' : key k < key l
    · rw [if_pos h']; exact h'
    · rw [if_neg h']
      exact lt_of_le_of_ne (not_lt.1 h') fun he => h.ne (hk he).symm
  · rintro ⟨l, k⟩ h ⟨l', k'⟩ h' he
    simp only [Finset.mem_filter, Finset.mem_univ, true_and] at h h' he
    split at he <;> split at he <;> simp only [Prod.swap_prod_mk, Prod.mk.injEq] at he ⊢
    · exact he
    · obtain ⟨rfl, rfl⟩ := he; exact absurd h' (not_lt.2 h.le)
    · obtain ⟨rfl, rfl⟩ := he; exact absurd h' (not_lt.2 h.le)
    · exact ⟨he.2, he.1⟩
  · rintro ⟨l, k⟩ h
    simp only [Finset.mem_filter, Finset.mem_univ, true_and] at h
    rcases lt_or_gt_of_ne (fun e : k = l => by subst e; exact lt_irrefl _ h) with h' | h'
    · exact ⟨(l, k), by simpa using h', if_pos h⟩
    · exact ⟨(k, l), by simpa using h', by rw [if_neg (not_lt.2 h.le)]; rfl⟩
  · rintro ⟨l, k⟩ h
    simp only [Finset.mem_filter, Finset.mem_univ, true_and] at h
    split
    · rfl
    · exact hf _ _ h.ne

variable {K : Type} [Field K]

/-- A product over the slots is a product over the pairs. -/
theorem prod_slots_pairs {m : ℕ} (σ : Perm (Fin (2 * m))) (F : Fin (2 * m) × Fin (2 * m) → K) :
    ∏ k : Fin m, F (min (σ (ev k)) (σ (od k)), max (σ (ev k)) (σ (od k)))
      = ∏ e ∈ pairsOf (σ * tau0 m * σ⁻¹), F e := by
  rw [prod_slots σ (fun x y => F (min x y, max x y)) fun x y => by rw [min_comm, max_comm]]
  rw [← weight_eq (fun x y => F (x, y)) (σ * tau0 m * σ⁻¹)]
  refine Finset.prod_congr rfl fun v hv => ?_
  have h := (Finset.mem_filter.1 hv).2
  rw [min_eq_left h.le, max_eq_right h.le]

/-- The sign of two slots, as seen by their ordered pairs. -/
theorem pairSign_minmax {n : ℕ} (a b c d : Fin n) :
    pairSign a b c d = pairSign (min a b) (max a b) (min c d) (max c d) := by
  rcases le_total a b with h | h <;> rcases le_total c d with h' | h' <;>
    simp only [min_eq_left, min_eq_right, max_eq_left, max_eq_right, h, h']
  · rw [pairSign_swap_right]
  · rw [pairSign_swap_left]
  · rw [pairSign_swap_left, pairSign_swap_right]

theorem slot_ne {m : ℕ} (σ : Perm (Fin (2 * m))) {k l : Fin m} (h : k ≠ l) :
    σ (ev k) ≠ σ (ev l) ∧ σ (ev k) ≠ σ (od l) ∧ σ (od k) ≠ σ (ev l) ∧ σ (od k) ≠ σ (od l) :=
  ⟨fun e => h (ev_inj.1 (σ.injective e)), fun e => ev_ne_od _ _ (σ.injective e),
    fun e => od_ne_ev _ _ (σ.injective e), fun e => h (od_inj.1 (σ.injective e))⟩

/-- The term of the Pfaffian that belongs to a permutation. -/
theorem pfTerm_eq {m : ℕ} {A : Matrix (Fin (2 * m)) (Fin (2 * m)) K} (hA : ∀ i j, A i j = -A j i)
    (σ : Perm (Fin (2 * m))) :
    pfTerm A σ = (-1) ^ Spec.crossings (pairsOf (σ * tau0 m * σ⁻¹)) *
      ∏ e ∈ pairsOf (σ * tau0 m * σ⁻¹), A e.1 e.2 := by
  classical
  set key : Fin m → Fin (2 * m) := fun k => min (σ (ev k)) (σ (od k)) with hkey
  set top : Fin m → Fin (2 * m) := fun k => max (σ (ev k)) (σ (od k)) with htop
  have hne : ∀ k, σ (ev k) ≠ σ (od k) := fun k e => ev_ne_od _ _ (σ.injective e)
  have hkt : ∀ k, key k < top k := fun k => min_lt_max.2 (hne k)
  have hdis : ∀ k l, k ≠ l → key k ≠ key l ∧ key k ≠ top l ∧ top k ≠ key l ∧ top k ≠ top l := by
    intro k l h
    obtain ⟨h1, h2, h3, h4⟩ := slot_ne σ h
    simp only [hkey, htop]
    rcases le_total (σ (ev k)) (σ (od k)) with a | a <;> rcases le_total (σ (ev l)) (σ (od l)) with b | b <;>
      simp only [min_eq_left, min_eq_right, max_eq_left, max_eq_right, a, b] <;>
      exact ⟨by assumption, by assumption, by assumption, by assumption⟩
  have hinj : Function.Injective key := fun k l h => by
    by_contra hkl
    exact (hdis k l hkl).1 h
  have hs : Perm.sign σ = (∏ k : Fin m, ordSign (σ (ev k)) (σ (od k))) *
      ∏ l : Fin m, ∏ k : Fin m, if key k < key l ∧ key l < top k ∧ top k < top l then (-1 : ℤˣ) else 1 := by
    rw [sign_slots, prod_reorder key hinj]
    · congr 1
      refine Finset.prod_congr rfl fun l _ => Finset.prod_congr rfl fun k _ => ?_
      by_cases h : key k < key l
      · have hkl : k ≠ l := fun e => by subst e; exact lt_irrefl _ h
        rw [if_pos h, pairSign_minmax]
        change pairSign (key k) (top k) (key l) (top l) = _
        rw [pairSign_ordered (hkt l) h (hdis k l hkl).2.2.1]
        simp [h]
      · simp [h]
    · intro k l hkl
      obtain ⟨h1, h2, h3, h4⟩ := slot_ne σ hkl
      exact pairSign_comm h1 h2 h3 h4
  have h1 : (∏ k : Fin m, ((ordSign (σ (ev k)) (σ (od k)) : ℤ) : K) * A (σ (ev k)) (σ (od k)))
      = ∏ e ∈ pairsOf (σ * tau0 m * σ⁻¹), A e.1 e.2 := by
    rw [← prod_slots_pairs σ fun e => A e.1 e.2]
    refine Finset.prod_congr rfl fun k _ => ?_
    unfold ordSign
    rcases lt_or_gt_of_ne (hne k) with h | h
    · simp [h, min_eq_left h.le, max_eq_right h.le]
    · rw [if_neg (not_lt.2 h.le), min_eq_right h.le, max_eq_left h.le, hA]; simp
  have h2 : (∏ l : Fin m, ∏ k : Fin m,
        if key k < key l ∧ key l < top k ∧ top k < top l then (-1 : K) else 1)
      = (-1) ^ Spec.crossings (pairsOf (σ * tau0 m * σ⁻¹)) := by
    rw [prod_slots_pairs σ (fun f => ∏ k : Fin m, if key k < f.1 ∧ f.1 < top k ∧ top k < f.2 then (-1 : K) else 1)]
    have : ∀ f : Fin (2 * m) × Fin (2 * m),
        (∏ k : Fin m, if key k < f.1 ∧ f.1 < top k ∧ top k < f.2 then (-1 : K) else 1)
        = ∏ e ∈ pairsOf (σ * tau0 m * σ⁻¹), if e.1 < f.1 ∧ f.1 < e.2 ∧ e.2 < f.2 then (-1 : K) else 1 :=
      fun f => prod_slots_pairs σ (fun e => if e.1 < f.1 ∧ f.1 < e.2 ∧ e.2 < f.2 then (-1 : K) else 1)
    simp only [this]
    rw [Finset.prod_comm, ← Finset.prod_product', Finset.prod_ite]
    simp [Spec.crossings]
  unfold pfTerm
  rw [hs, ← h1, ← h2, Finset.prod_mul_distrib]
  push_cast
  have h3 : ∀ l k : Fin m, (((if key k < key l ∧ key l < top k ∧ top k < top l then (-1 : ℤˣ) else 1 : ℤˣ) : ℤ) : K)
      = if key k < key l ∧ key l < top k ∧ top k < top l then (-1 : K) else 1 := by
    intro l k; split <;> simp
  simp only [h3]
  ring

/-- The Pfaffian of a skew-symmetric matrix as a sum over perfect matchings. -/
theorem pf_eq_sum_matchings [CharZero K] {n : ℕ} (A : Matrix (Fin n) (Fin n) K) (hA : A.transpose = -A) :
    pf A = .ok (∑ M ∈ Spec.perfectMatchings n, (-1) ^ Spec.crossings M * ∏ e ∈ M, A e.1 e.2) := by
  classical
  have hA' : ∀ i j, A i j = -A j i := fun i j => congrFun (congrFun hA j) i
  rcases Nat.even_or_odd' n with ⟨m, rfl | rfl⟩
  · rw [pf_ok, ← sum_fpf_eq fun M => (-1) ^ Spec.crossings M * ∏ e ∈ M, A e.1 e.2]
    congr 1
    rw [pfVal_eq, pfSum]
    have h : ∀ σ : Perm (Fin (2 * m)), ((Perm.sign σ : ℤ) : K) * ∏ i : Fin m, A (σ (ev i)) (σ (od i))
        = (fun τ => (-1) ^ Spec.crossings (pairsOf τ) * ∏ e ∈ pairsOf τ, A e.1 e.2) (σ * tau0 m * σ⁻¹) :=
      fun σ => pfTerm_eq hA' σ
    rw [Finset.sum_congr rfl fun σ _ => h σ,
      sum_conj (fun τ => (-1) ^ Spec.crossings (pairsOf τ) * ∏ e ∈ pairsOf τ, A e.1 e.2), mul_div_cancel_left₀ _ (fact_ne m)]
  · rw [perfectMatchings_odd (by omega), Finset.sum_empty]
    unfold pf
    rw [if_pos (by omega)]

end FF
