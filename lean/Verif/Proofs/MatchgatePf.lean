import Verif.Proofs.MatchgateId

/-! # Helper lemmas: amplitudes of free-fermion states as Pfaffians -/

namespace FF

open Matrix
open scoped ComplexOrder

variable {n : ℕ}

theorem before_occ {N : ℕ} {t : Fin N → Fin n} (ht : Function.Injective t) (i : Fin n) :
    Spec.before (Spec.occ t) i = ∑ j, if t j < i then 1 else 0 := by
  classical
  have h : ∀ k : Fin n, (if k < i then ((Spec.occ t k : Fin 2) : ℕ) else 0) =
      if k ∈ Finset.univ.image t then (if k < i then 1 else 0) else 0 := by
    intro k
    rw [Spec.occ]
    simp only [Finset.mem_image, Finset.mem_univ, true_and]
    split_ifs <;> rfl
  rw [Spec.before, Finset.sum_congr rfl fun k _ => h k, Finset.sum_ite_mem, Finset.univ_inter,
    Finset.sum_image fun a _ b _ hab => ht hab]

theorem occ_apply {N : ℕ} (t : Fin N → Fin n) (i : Fin n) : Spec.occ t i = 1 ↔ ∃ j, t j = i := by
  rw [Spec.occ]; split_ifs with h <;> simp [h]

theorem occ_ext {N : ℕ} {t : Fin N → Fin n} {u : Fin n → Fin 2} (h : ∀ i, u i = 1 ↔ ∃ j, t j = i) : u = Spec.occ t := by
  funext i
  by_cases hi : ∃ j, t j = i
  · rw [(h i).2 hi, (occ_apply t i).2 hi]
  · rcases fin2_cases (u i) with h0 | h1
    · rw [h0, Spec.occ, if_neg hi]
    · exact absurd ((h i).1 h1) hi

theorem toggle_apply (b : Fin n → Fin 2) (i j : Fin n) : Spec.toggle b i j = 1 ↔ if j = i then b j ≠ 1 else b j = 1 := by
  rw [Spec.toggle, Function.update_apply]
  split_ifs with h
  · subst h
    rcases fin2_cases (b j) with h | h <;> simp [h]
  · rfl

theorem strictMono_pair {i j : Fin n} (h : i < j) : StrictMono (![i, j] : Fin 2 → Fin n) := by
  intro a b hab
  match a, b, hab with
  | 0, 1, _ => exact h
  | 0, 0, h => exact absurd h (lt_irrefl _)
  | 1, 1, h => exact absurd h (lt_irrefl _)
  | 1, 0, h => exact absurd h (by decide)

/-- The matchgate identity that expands an amplitude. -/
theorem defect_occ (ψ : Fin (2 ^ n) → ℂ) {m : ℕ} {s : Fin (m + 2) → Fin n} (hs : StrictMono s) :
    Spec.matchgateDefect ψ (Spec.occ fun i => s i.succ) (Spec.occ fun _ : Fin 1 => s 0) =
      Spec.amp ψ (Spec.occ s) * Spec.amp ψ (fun _ => 0) -
        ∑ p : Fin (m + 1), (-1) ^ (p : ℕ) * Spec.amp ψ (Spec.occ ![s 0, s p.succ]) *
          Spec.amp ψ (Spec.occ fun i : Fin m => s (p.succAbove i).succ) := by
  classical
  have hinj := hs.injective
  have hsucc : Function.Injective fun i : Fin (m + 1) => s i.succ := fun a b h => Fin.succ_injective _ (hinj h)
  have hset : (Finset.univ.filter fun i => Spec.occ (fun i : Fin (m + 1) => s i.succ) i ≠ Spec.occ (fun _ : Fin 1 => s 0) i) =
      Finset.univ.image s := by
    ext i
    simp only [Finset.mem_filter, Finset.mem_univ, true_and, Finset.mem_image]
    constructor
    · intro h
      by_contra hc
      push Not at hc
      apply h
      rw [Spec.occ, Spec.occ, if_neg (by rintro ⟨j, hj⟩; exact hc _ hj), if_neg (by rintro ⟨j, hj⟩; exact hc _ hj)]
    · rintro ⟨q, rfl⟩ h
      refine Fin.cases (fun h => ?_) (fun p h => ?_) q h
      · rw [(occ_apply (fun _ : Fin 1 => s 0) (s 0)).2 ⟨0, rfl⟩, occ_apply] at h
        obtain ⟨j, hj⟩ := h
        exact absurd (hinj hj) (Fin.succ_ne_zero j)
      · rw [(occ_apply (fun i : Fin (m + 1) => s i.succ) (s p.succ)).2 ⟨p, rfl⟩] at h
        obtain ⟨j, hj⟩ := (occ_apply _ _).1 h.symm
        exact absurd (hinj hj).symm (Fin.succ_ne_zero p)
  rw [Spec.matchgateDefect, hset, Finset.sum_image fun a _ b _ h => hinj h, Fin.sum_univ_succ, sub_eq_add_neg]
  congr 1
  · have h1 : Spec.before (Spec.occ fun i : Fin (m + 1) => s i.succ) (s 0) = 0 := by
      rw [before_occ hsucc]
      refine Finset.sum_eq_zero fun j _ => ?_
      rw [if_neg (not_lt_of_gt (hs (Fin.succ_pos j)))]
    have h2 : Spec.before (Spec.occ fun _ : Fin 1 => s 0) (s 0) = 0 := by
      rw [before_occ (Function.injective_of_subsingleton _)]
      simp
    have h3 : Spec.toggle (Spec.occ fun i : Fin (m + 1) => s i.succ) (s 0) = Spec.occ s := by
      refine occ_ext fun i => ?_
      rw [toggle_apply, Fin.exists_fin_succ]
      split_ifs with h
      · subst h
        simp only [true_or, iff_true, ne_eq, occ_apply, not_exists]
        exact fun j hj => absurd (hinj hj) (Fin.succ_ne_zero j)
      · rw [occ_apply]
        simp [Ne.symm h]
    have h4 : Spec.toggle (Spec.occ fun _ : Fin 1 => s 0) (s 0) = fun _ => 0 := by
      have : (fun _ : Fin n => (0 : Fin 2)) = Spec.occ (Fin.elim0 : Fin 0 → Fin n) := by
        funext i; simp [Spec.occ]
      rw [this]
      refine occ_ext fun i => ?_
      rw [toggle_apply]
      split_ifs with h
      · subst h; simp [occ_apply]
      · rw [occ_apply]; simp [Ne.symm h]
    rw [h1, h2, h3, h4]
    simp
  · rw [← Finset.sum_neg_distrib]
    refine Finset.sum_congr rfl fun p _ => ?_
    have h1 : Spec.before (Spec.occ fun i : Fin (m + 1) => s i.succ) (s p.succ) = p := by
      rw [before_occ hsucc]
      simp only [hs.lt_iff_lt, Fin.succ_lt_succ_iff]
      rw [← Finset.card_filter]
      have : (Finset.univ.filter fun j : Fin (m + 1) => j < p) = Finset.Iio p := by ext; simp
      rw [this, Fin.card_Iio]
    have h2 : Spec.before (Spec.occ fun _ : Fin 1 => s 0) (s p.succ) = 1 := by
      rw [before_occ (Function.injective_of_subsingleton _)]
      simp [hs (Fin.succ_pos p)]
    have h3 : Spec.toggle (Spec.occ fun i : Fin (m + 1) => s i.succ) (s p.succ) =
        Spec.occ fun i : Fin m => s (p.succAbove i).succ := by
      refine occ_ext fun i => ?_
      rw [toggle_apply]
      split_ifs with h
      · subst h
        have h5 : Spec.occ (fun i : Fin (m + 1) => s i.succ) (s p.succ) = 1 := (occ_apply _ _).2 ⟨p, rfl⟩
        rw [h5]
        simp only [ne_eq, not_true_eq_false, false_iff, not_exists]
        intro j hj
        exact absurd (hsucc hj) (Fin.succAbove_ne p j)
      · rw [occ_apply]
        constructor
        · rintro ⟨j, rfl⟩
          have hj : j ≠ p := by rintro rfl; exact h rfl
          obtain ⟨k, rfl⟩ := Fin.exists_succAbove_eq hj
          exact ⟨k, rfl⟩
        · rintro ⟨k, rfl⟩; exact ⟨_, rfl⟩
    have h4 : Spec.toggle (Spec.occ fun _ : Fin 1 => s 0) (s p.succ) = Spec.occ ![s 0, s p.succ] := by
      refine occ_ext fun i => ?_
      rw [toggle_apply, Fin.exists_fin_two]
      split_ifs with h
      · subst h
        simp only [cons_val_one, cons_val_zero, or_true, iff_true, ne_eq, occ_apply, not_exists]
        exact fun _ hj => absurd (hinj hj).symm (Fin.succ_ne_zero p)
      · rw [occ_apply]; simp [Ne.symm h]
    rw [h1, h2, h3, h4, pow_succ]
    ring

/-- Amplitudes are sums over pairings of the amplitudes of pairs. -/
theorem amp_contract {ψ : Fin (2 ^ n) → ℂ} (h : ∀ b c, Spec.matchgateDefect ψ b c = 0) : ∀ {m : ℕ} {s : Fin (2 * m + 2) → Fin n}
    (_ : StrictMono s), Spec.contract (Matrix.of fun i j => Spec.amp ψ (Spec.occ ![i, j])) (2 * m + 2) s =
      Spec.amp ψ (Spec.occ s) * Spec.amp ψ (fun _ => 0) ^ m
  | 0, s, hs => by
    rw [contract_two, Fin.sum_univ_one]
    have h1 : s = ![s 0, s 1] := by funext i; fin_cases i <;> rfl
    rw [pow_zero, mul_one]
    conv_rhs => rw [h1]
    simp [Spec.contract]
  | m + 1, s, hs => by
    have h0 := defect_occ ψ hs
    rw [h, eq_comm, sub_eq_zero] at h0
    rw [pow_succ', ← mul_assoc, h0, contract_two, Finset.sum_mul]
    refine Finset.sum_congr rfl fun p _ => ?_
    have hs' : StrictMono fun i : Fin (2 * m + 2) => s (p.succAbove i).succ :=
      fun a b hab => hs (Fin.succ_lt_succ_iff.2 (Fin.strictMono_succAbove p hab))
    rw [of_apply, mul_assoc _ (Spec.amp ψ _) (_ ^ m)]
    exact congrArg _ (amp_contract h hs')

/-! ## few sites -/

theorem sign_diff (b c : Fin n → Fin 2) (i : Fin n) : (-1 : ℂ) ^ (Spec.before b i + Spec.before c i) =
    (-1) ^ (Finset.univ.filter fun k => k < i ∧ b k ≠ c k).card := by
  rw [Spec.before, Spec.before, ← Finset.sum_add_distrib, Finset.card_filter, ← Finset.prod_pow_eq_pow_sum,
    ← Finset.prod_pow_eq_pow_sum]
  refine Finset.prod_congr rfl fun k _ => ?_
  by_cases hk : k < i
  · rcases fin2_cases (b k) with hb | hb <;> rcases fin2_cases (c k) with hc | hc <;> simp [hk, hb, hc]
  · simp [hk]

theorem sum_toggle (b : Fin n → Fin 2) (i : Fin n) :
    (-1 : ℂ) ^ (∑ k, (Spec.toggle b i k : ℕ)) = -(-1) ^ (∑ k, (b k : ℕ)) := by
  rw [← Finset.prod_pow_eq_pow_sum, ← Finset.prod_pow_eq_pow_sum, ← Finset.mul_prod_erase _ _ (Finset.mem_univ i),
    ← Finset.mul_prod_erase (Finset.univ) (fun k => (-1 : ℂ) ^ (b k : ℕ)) (Finset.mem_univ i), ← neg_mul]
  congr 1
  · rw [Spec.toggle, Function.update_self]
    rcases fin2_cases (b i) with hb | hb <;> simp [hb]
  · refine Finset.prod_congr rfl fun k hk => ?_
    rw [Spec.toggle, Function.update_of_ne (Finset.ne_of_mem_erase hk)]

theorem parity_diff (b c : Fin n → Fin 2) : (-1 : ℂ) ^ (∑ k, (b k : ℕ)) * (-1) ^ (∑ k, (c k : ℕ)) =
    (-1) ^ (Finset.univ.filter fun k => b k ≠ c k).card := by
  rw [← Finset.prod_pow_eq_pow_sum, ← Finset.prod_pow_eq_pow_sum, ← Finset.prod_mul_distrib, Finset.card_filter,
    ← Finset.prod_pow_eq_pow_sum]
  refine Finset.prod_congr rfl fun k _ => ?_
  rcases fin2_cases (b k) with hb | hb <;> rcases fin2_cases (c k) with hc | hc <;> simp [hb, hc]

/-- Two sites of difference: the two terms cancel. -/
theorem defect_pair (ψ : Fin (2 ^ n) → ℂ) {b c : Fin n → Fin 2} {i j : Fin n} (hij : i < j)
    (h : (Finset.univ.filter fun k => b k ≠ c k) = {i, j}) : Spec.matchgateDefect ψ b c = 0 := by
  have hd : ∀ k, b k ≠ c k ↔ k = i ∨ k = j := by
    intro k
    have := congrArg (k ∈ ·) h
    simpa using this
  have ht : ∀ {i j : Fin n}, i ≠ j → (∀ k, b k ≠ c k ↔ k = i ∨ k = j) → Spec.toggle b i = Spec.toggle c j := by
    intro i j hij hd
    funext k
    rw [Spec.toggle, Spec.toggle, Function.update_apply, Function.update_apply]
    by_cases hki : k = i
    · subst hki
      rw [if_pos rfl, if_neg hij]
      have := (hd k).2 (.inl rfl)
      rcases fin2_cases (b k) with hb | hb <;> rcases fin2_cases (c k) with hc | hc <;> simp [hb, hc] at this ⊢
    · rw [if_neg hki]
      by_cases hkj : k = j
      · subst hkj
        rw [if_pos rfl]
        have := (hd k).2 (.inr rfl)
        rcases fin2_cases (b k) with hb | hb <;> rcases fin2_cases (c k) with hc | hc <;> simp [hb, hc] at this ⊢
      · rw [if_neg hkj]
        by_contra hc
        rcases (hd k).1 hc with h | h
        · exact hki h
        · exact hkj h
  have hi : (Finset.univ.filter fun k => k < i ∧ b k ≠ c k) = ∅ := by
    ext k
    simp only [Finset.mem_filter, Finset.mem_univ, true_and, hd, Finset.notMem_empty, iff_false, not_and]
    rintro hk (rfl | rfl)
    · exact lt_irrefl _ hk
    · exact lt_irrefl _ (hk.trans hij)
  have hj : (Finset.univ.filter fun k => k < j ∧ b k ≠ c k) = {i} := by
    ext k
    simp only [Finset.mem_filter, Finset.mem_univ, true_and, hd, Finset.mem_singleton]
    constructor
    · rintro ⟨hk, rfl | rfl⟩
      · rfl
      · exact absurd hk (lt_irrefl _)
    · rintro rfl; exact ⟨hij, .inl rfl⟩
  rw [Spec.matchgateDefect, h, Finset.sum_pair hij.ne, sign_diff, sign_diff, hi, hj, ht hij.ne hd,
    ht hij.ne' (fun k => (hd k).trans Or.comm)]
  simp
  ring

theorem defect_small (hn : n ≤ 3) {ψ : Fin (2 ^ n) → ℂ} {e : ℂ}
    (h : ∀ b : Fin n → Fin 2, (-1 : ℂ) ^ (∑ k, (b k : ℕ)) ≠ e → Spec.amp ψ b = 0) (b c : Fin n → Fin 2) :
    Spec.matchgateDefect ψ b c = 0 := by
  classical
  by_cases hb : (-1 : ℂ) ^ (∑ k, (b k : ℕ)) = -e
  · by_cases hc : (-1 : ℂ) ^ (∑ k, (c k : ℕ)) = -e
    · have hp := parity_diff b c
      have he : e * e = 1 := by
        have h1 : ((-1 : ℂ) ^ (∑ k, (b k : ℕ))) * (-1) ^ (∑ k, (b k : ℕ)) = 1 := by rw [← mul_pow]; simp
        rw [hb] at h1
        linear_combination h1
      rw [hb, hc, neg_mul_neg, he] at hp
      have hcard : (Finset.univ.filter fun k => b k ≠ c k).card ≤ 3 :=
        (Finset.card_le_univ _).trans (by rw [Fintype.card_fin]; exact hn)
      generalize hT : (Finset.univ.filter fun k => b k ≠ c k) = T at *
      have hk : T.card = 0 ∨ T.card = 2 := by
        have h3 : T.card < 4 := by omega
        interval_cases hq : T.card
        · exact .inl rfl
        · norm_num at hp
        · exact .inr rfl
        · norm_num at hp
      rcases hk with hk | hk
      · rw [Spec.matchgateDefect, hT, Finset.card_eq_zero.1 hk, Finset.sum_empty]
      · obtain ⟨i, j, hij, hTe⟩ := Finset.card_eq_two.1 hk
        rcases lt_or_gt_of_ne hij with hlt | hlt
        · exact defect_pair ψ hlt (hT.trans hTe)
        · exact defect_pair ψ hlt (hT.trans (hTe.trans (Finset.pair_comm i j)))
    · refine Finset.sum_eq_zero fun i _ => ?_
      rw [h (Spec.toggle c i), mul_zero]
      rw [sum_toggle]
      exact fun hh => hc (by rw [← hh, neg_neg])
  · refine Finset.sum_eq_zero fun i _ => ?_
    rw [h (Spec.toggle b i), mul_zero, zero_mul]
    rw [sum_toggle]
    exact fun hh => hb (by rw [← hh, neg_neg])

end FF
