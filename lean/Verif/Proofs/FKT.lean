import Verif.Proofs.Kasteleyn
import Verif.Proofs.Matching
import Mathlib.GroupTheory.Perm.Sign
import Mathlib.GroupTheory.Perm.Cycle.Type

/-! # The theorem of Fisher, Kasteleyn and Temperley

For an orientation with an odd number of edges along every face, all terms of the Pfaffian have
the same sign. -/

namespace FF

open Equiv Verif.Kasteleyn

/-- One step from a matching to another, along an alternating cycle. -/
theorem exists_alternating {n : ℕ} {τ₁ τ₂ : Perm (Fin n)} (h₁ : IsFpf τ₁) (h₂ : IsFpf τ₂) {v : Fin n}
    (hv : τ₁ v ≠ τ₂ v) :
    ∃ ρ : Perm (Fin n), ρ.IsCycle ∧ 3 ≤ ρ.support.card ∧ v ∈ ρ.support ∧
      (∀ x, τ₁ x ∈ ρ.support ↔ x ∈ ρ.support) ∧
      (∀ x ∈ ρ.support, ρ x = τ₁ x ∨ ρ x = τ₂ x) ∧
      (∀ x ∈ ρ.support, ρ x = τ₁ x ∨ ρ (τ₁ x) = x) ∧
      (∀ x ∈ ρ.support, (ρ * τ₁ * ρ⁻¹) x = τ₂ x) ∧
      (∀ x, x ∉ ρ.support → (ρ * τ₁ * ρ⁻¹) x = τ₁ x) := by
  classical
  set π := τ₂ * τ₁ with hπ
  have hπ' : π⁻¹ = τ₁ * τ₂ := by
    rw [hπ, mul_inv_rev, inv_eq_of_mul_eq_one_left h₁.1, inv_eq_of_mul_eq_one_left h₂.1]
  set A : Fin n → Prop := fun x => π.SameCycle v x with hA
  have hAπ : ∀ x, A (τ₂ (τ₁ x)) ↔ A x := fun x => by
    have : τ₂ (τ₁ x) = π x := rfl
    simp only [hA, this, Perm.sameCycle_apply_right]
  have hAπ' : ∀ x, A (τ₁ (τ₂ x)) ↔ A x := fun x => by
    have : τ₁ (τ₂ x) = π⁻¹ x := by rw [hπ']; rfl
    have h := Perm.sameCycle_apply_right (f := π) (x := v) (y := π⁻¹ x)
    rw [ainv] at h
    simp only [hA, this]
    exact h.symm
  set B : Fin n → Prop := fun x => A (τ₁ x) with hB
  have hB1 : ∀ x, B (τ₁ x) ↔ A x := fun x => by simp only [hB, h₁.apply]
  have hB2 : ∀ x, B (τ₂ x) ↔ A x := fun x => hAπ' x
  have hA1 : ∀ x, A (τ₁ x) ↔ B x := fun x => Iff.rfl
  have hA2 : ∀ x, A (τ₂ x) ↔ B x := fun x => by
    have := hAπ (τ₁ x)
    rwa [h₁.apply] at this
  have hsemi : SemiconjBy τ₁ π π⁻¹ := by
    rw [SemiconjBy, hπ', hπ, mul_assoc]
  have hdisj : ∀ x, A x → ¬ B x := by
    intro x hx hx'
    have h : π.SameCycle x (τ₁ x) := (Perm.SameCycle.symm hx).trans hx'
    obtain ⟨k, hk⟩ := h
    have hz : ∀ j : ℤ, τ₁ ((π ^ j) x) = (π ^ (-j)) (τ₁ x) := by
      intro j
      have h3 := (hsemi.zpow_right j)
      rw [SemiconjBy, inv_zpow'] at h3
      exact congrArg (fun p : Perm (Fin n) => p x) h3
    rcases Int.even_or_odd' k with ⟨j, rfl | rfl⟩
    · apply h₁.2 ((π ^ j) x)
      rw [hz, ← hk, ← Perm.mul_apply, ← zpow_add]
      congr 2; ring
    · apply h₂.2 (τ₁ ((π ^ j) x))
      have : τ₂ (τ₁ ((π ^ j) x)) = (π ^ (1 + j)) x := by rw [zpow_add, zpow_one]; rfl
      rw [this, hz, ← hk, ← Perm.mul_apply, ← zpow_add]
      congr 2; ring
  set fwd : Fin n → Fin n := fun x => if A x then τ₁ x else if B x then τ₂ x else x with hfwd
  set bwd : Fin n → Fin n := fun x => if A x then τ₂ x else if B x then τ₁ x else x with hbwd
  have hfA : ∀ x, A x → fwd x = τ₁ x := fun x h => if_pos h
  have hfB : ∀ x, B x → fwd x = τ₂ x := fun x h => by
    have : ¬ A x := fun h' => hdisj x h' h
    simp [hfwd, this, h]
  have hfN : ∀ x, ¬ A x → ¬ B x → fwd x = x := fun x h h' => by simp [hfwd, h, h']
  have hbA : ∀ x, A x → bwd x = τ₂ x := fun x h => if_pos h
  have hbB : ∀ x, B x → bwd x = τ₁ x := fun x h => by
    have : ¬ A x := fun h' => hdisj x h' h
    simp [hbwd, this, h]
  have hbN : ∀ x, ¬ A x → ¬ B x → bwd x = x := fun x h h' => by simp [hbwd, h, h']
  set ρ : Perm (Fin n) := ⟨fwd, bwd, by
      intro x
      by_cases ha : A x
      · rw [hfA x ha, hbB _ ((hB1 x).2 ha), h₁.apply]
      · by_cases hb : B x
        · rw [hfB x hb, hbA _ ((hA2 x).2 hb), h₂.apply]
        · rw [hfN x ha hb, hbN x ha hb], by
      intro x
      by_cases ha : A x
      · rw [hbA x ha, hfB _ ((hB2 x).2 ha), h₂.apply]
      · by_cases hb : B x
        · rw [hbB x hb, hfA _ ((hA1 x).2 hb), h₁.apply]
        · rw [hbN x ha hb, hfN x ha hb]⟩ with hρ
  have hρf : ∀ x, ρ x = fwd x := fun _ => rfl
  have hρb : ∀ x, ρ⁻¹ x = bwd x := fun _ => rfl
  have hsupp : ∀ x, x ∈ ρ.support ↔ A x ∨ B x := by
    intro x
    rw [Perm.mem_support, hρf]
    by_cases ha : A x
    · rw [hfA x ha]; simp [ha, h₁.2 x]
    · by_cases hb : B x
      · rw [hfB x hb]; simp [hb, h₂.2 x]
      · rw [hfN x ha hb]; simp [ha, hb]
  have hAv : A v := Perm.SameCycle.refl _ _
  have hsame : ∀ x, A x → ρ.SameCycle v x := by
    have hsq : ∀ x, A x → ρ (ρ x) = π x := by
      intro x hx
      rw [hρf x, hfA x hx, hρf, hfB _ ((hB1 x).2 hx)]; rfl
    intro x hx
    obtain ⟨k, rfl⟩ : ∃ k : ℕ, (π ^ k) v = x := by
      obtain ⟨k, -, hk⟩ := Perm.SameCycle.exists_pow_eq'' hx
      exact ⟨k, hk.2⟩
    clear hx
    induction k with
    | zero => exact Perm.SameCycle.refl _ _
    | succ k ih =>
      have hk : A ((π ^ k) v) := ⟨k, by simp⟩
      rw [pow_succ', Perm.mul_apply, ← hsq _ hk]
      rw [Perm.sameCycle_apply_right, Perm.sameCycle_apply_right]
      exact ih
  refine ⟨ρ, ⟨v, ?_, ?_⟩, ?_, ?_, ?_, ?_, ?_, ?_, ?_⟩
  · exact Perm.mem_support.1 ((hsupp v).2 (Or.inl hAv))
  · intro y hy
    rcases (hsupp y).1 (Perm.mem_support.2 hy) with h | h
    · exact hsame y h
    · have h1 := hsame _ ((hA1 y).2 h)
      have h2 : ρ (τ₁ y) = y := by rw [hρf, hfA _ ((hA1 y).2 h), h₁.apply]
      rw [← h2, Perm.sameCycle_apply_right]
      exact h1
  · have : ({v, τ₁ v, τ₂ v} : Finset (Fin n)) ⊆ ρ.support := by
      intro x hx
      simp only [Finset.mem_insert, Finset.mem_singleton] at hx
      rw [hsupp]
      rcases hx with rfl | rfl | rfl
      · exact Or.inl hAv
      · exact Or.inr ((hB1 v).2 hAv)
      · exact Or.inr ((hB2 v).2 hAv)
    have h3 := Finset.card_le_card this
    rw [Finset.card_eq_three.2 ⟨v, τ₁ v, τ₂ v, (h₁.2 v).symm, (h₂.2 v).symm, hv, rfl⟩] at h3
    exact h3
  · exact (hsupp v).2 (Or.inl hAv)
  · intro x
    rw [hsupp, hsupp, hA1, hB1, or_comm]
  · intro x hx
    rcases (hsupp x).1 hx with h | h
    · left; rw [hρf, hfA x h]
    · right; rw [hρf, hfB x h]
  · intro x hx
    rcases (hsupp x).1 hx with h | h
    · left; rw [hρf, hfA x h]
    · right; rw [hρf, hfA _ ((hA1 x).2 h), h₁.apply]
  · intro x hx
    rw [Perm.mul_apply, Perm.mul_apply, hρb, hρf]
    rcases (hsupp x).1 hx with h | h
    · rw [hbA x h, hfA _ ((hA1 _).2 ((hB2 x).2 h)), h₁.apply]
    · rw [hbB x h, h₁.apply, hfB x h]
  · intro x hx
    rw [hsupp, not_or] at hx
    rw [Perm.mul_apply, Perm.mul_apply, hρb, hρf, hbN x hx.1 hx.2]
    exact hfN _ (fun h => hx.2 ((hA1 x).1 h)) (fun h => hx.1 ((hB1 x).1 h))

theorem even_card_of_fpf {n : ℕ} {τ : Perm (Fin n)} (h : IsFpf τ) (s : Finset (Fin n))
    (hs : ∀ x, τ x ∈ s ↔ x ∈ s) : Even s.card := by
  have h1 : ((s.card : ℕ) : ZMod 2) = 0 := by
    rw [Finset.cast_card]
    exact Finset.sum_involution (fun x _ => τ x) (fun _ _ => by decide) (fun x _ _ => h.2 x)
      (fun x hx => (hs x).2 hx) (fun x _ => h.apply x)
  exact (ZMod.natCast_eq_zero_iff_even).1 h1

/-- the sign of an orientation bit -/
def chi (K : Type) [Ring K] (z : ZMod 2) : K := if z = 0 then 1 else -1

theorem chi_add (K : Type) [Ring K] (a b : ZMod 2) : chi K (a + b) = chi K a * chi K b := by
  have h : ∀ z : ZMod 2, z = 0 ∨ z = 1 := by decide
  have h2 : (1 : ZMod 2) + 1 = 0 := by decide
  rcases h a with rfl | rfl <;> rcases h b with rfl | rfl <;> simp [chi, h2]

theorem chi_sum (K : Type) [CommRing K] {ι : Type} (s : Finset ι) (f : ι → ZMod 2) :
    chi K (∑ i ∈ s, f i) = ∏ i ∈ s, chi K (f i) := by
  classical
  induction s using Finset.induction_on with
  | empty => simp [chi]
  | insert a s ha ih => rw [Finset.sum_insert ha, Finset.prod_insert ha, chi_add, ih]

theorem chi_sq (K : Type) [Ring K] (a : ZMod 2) : chi K a * chi K a = 1 := by
  rw [← chi_add, Emb.zmod2_add_self]; simp [chi]

/-- An odd orientation of an embedded graph. -/
structure Odd' {V Φ : Type} [Fintype V] [DecidableEq V] [Fintype Φ] [DecidableEq Φ] (E : Emb V Φ)
    (e : V → V → ZMod 2) : Prop where
  skew : ∀ u v, E.adj u v → e u v + e v u = 1
  face : ∀ F, (open Classical in ∑ d : {d : V × V // E.adj d.1 d.2},
      (if E.face d.1.1 d.1.2 = F then e d.1.1 d.1.2 else 0)) = 1

open Classical in
/-- the signed adjacency matrix of an orientation -/
noncomputable def signed (K : Type) [Ring K] {n : ℕ} {Φ : Type} [Fintype Φ] (E : Emb (Fin n) Φ)
    (e : Fin n → Fin n → ZMod 2) : Matrix (Fin n) (Fin n) K :=
  fun u v => if E.adj u v then chi K (e u v) else 0

variable {K : Type} [Field K] {Φ : Type} [Fintype Φ] [DecidableEq Φ]

theorem signed_skew {n : ℕ} {E : Emb (Fin n) Φ} {e : Fin n → Fin n → ZMod 2}
    (he : ∀ u v, E.adj u v → e u v + e v u = 1) (u v : Fin n) :
    signed K E e u v = - signed K E e v u := by
  unfold signed
  by_cases h : E.adj u v
  · rw [if_pos h, if_pos (E.symm h)]
    have h1 := he u v h
    generalize e u v = a at h1 ⊢
    generalize e v u = b at h1 ⊢
    have h2 : (a = 0 ∧ b = 1) ∨ (a = 1 ∧ b = 0) := by revert a b; decide
    rcases h2 with ⟨rfl, rfl⟩ | ⟨rfl, rfl⟩ <;> simp [chi]
  · rw [if_neg h, if_neg fun h' => h (E.symm h')]; simp

theorem pfTerm_step {m : ℕ} {E : Emb (Fin (2 * m)) Φ} {e : Fin (2 * m) → Fin (2 * m) → ZMod 2}
    (hO : Odd' E e) {σ : Perm (Fin (2 * m))} {τ₂ : Perm (Fin (2 * m))} (h₂ : IsFpf τ₂)
    (hσ : ∀ v, E.adj v ((σ * tau0 m * σ⁻¹) v)) (hτ : ∀ v, E.adj v (τ₂ v)) {v : Fin (2 * m)}
    (hv : (σ * tau0 m * σ⁻¹) v ≠ τ₂ v) :
    ∃ σ' : Perm (Fin (2 * m)), pfTerm (signed K E e) σ' = pfTerm (signed K E e) σ ∧
      (∀ x, (σ' * tau0 m * σ'⁻¹) x = τ₂ x ∨ (σ' * tau0 m * σ'⁻¹) x = (σ * tau0 m * σ⁻¹) x) ∧
      (σ' * tau0 m * σ'⁻¹) v = τ₂ v := by
  classical
  have h₁ : IsFpf (σ * tau0 m * σ⁻¹) := (tau0_fpf m).conj σ
  have hpair : ∀ i : Fin m, (σ * tau0 m * σ⁻¹) (σ (ev i)) = σ (od i) := fun i => by
    simp [tau0_ev]
  generalize hτ1 : σ * tau0 m * σ⁻¹ = τ₁ at *
  obtain ⟨ρ, hcyc, h3, hvS, hS, hor, hor2, hon, hoff⟩ := exists_alternating h₁ h₂ hv
  have hconj : ρ * σ * tau0 m * (ρ * σ)⁻¹ = ρ * τ₁ * ρ⁻¹ := by rw [← hτ1]; group
  refine ⟨ρ * σ, ?_, ?_, ?_⟩
  swap
  · intro x
    rw [hconj]
    by_cases hx : x ∈ ρ.support
    · exact Or.inl (hon x hx)
    · exact Or.inr (hoff x hx)
  swap
  · rw [hconj]; exact hon v hvS
  have hadj : ∀ x ∈ ρ.support, E.adj x (ρ x) := by
    intro x hx
    rcases hor x hx with h | h <;> rw [h]
    · exact hσ x
    · exact hτ x
  obtain ⟨In, hIn0, hIn1, hIn2⟩ := kasteleyn E ρ hcyc h3 hadj e hO.skew hO.face
  have hsumIn : ∑ v, In v = 0 := by
    apply Finset.sum_involution (fun x _ => τ₁ x)
    · intro x _
      by_cases hx : x ∈ ρ.support
      · rw [hIn0 x hx, hIn0 _ ((hS x).2 hx), add_zero]
      · rw [hIn1 x (τ₁ x) (hσ x) hx (fun h => hx ((hS x).1 h)), Emb.zmod2_add_self]
    · intro x _ _; exact h₁.2 x
    · intro x _; exact Finset.mem_univ _
    · intro x _; exact h₁.apply x
  rw [hsumIn, add_zero] at hIn2
  set ε : Matrix (Fin (2 * m)) (Fin (2 * m)) K := signed K E e with hε
  have hεa : ∀ u v, E.adj u v → ε u v = chi K (e u v) := fun u v h => by
    simp only [hε, signed, if_pos h]
  have hsk : ∀ u v, ε u v = - ε v u := signed_skew hO.skew
  set w : Fin (2 * m) → K := fun x => if x ∈ ρ.support then ε x (ρ x) else 1 with hw
  have hprodw : ∏ x, w x = -1 := by
    simp only [hw, Finset.prod_ite_mem, Finset.univ_inter]
    rw [Finset.prod_congr rfl fun x hx => hεa x (ρ x) (hadj x hx), ← chi_sum, hIn2]
    simp [chi]
  have hsign : Perm.sign ρ = -1 := by
    rw [hcyc.sign, Even.neg_one_pow (even_card_of_fpf h₁ _ hS)]
  have hprodσ : ∏ i : Fin m, (w (σ (ev i)) * w (σ (od i))) = -1 := by
    rw [← prod_pairs (fun x => w (σ x)), Equiv.prod_comp σ w, hprodw]
  have hkey : ∀ i : Fin m, ε ((ρ * σ) (ev i)) ((ρ * σ) (od i))
      = (w (σ (ev i)) * w (σ (od i))) * ε (σ (ev i)) (σ (od i)) := by
    intro i
    rw [Perm.mul_apply, Perm.mul_apply]
    have hp := hpair i
    have ha : E.adj (σ (ev i)) (σ (od i)) := hp ▸ hσ (σ (ev i))
    generalize σ (ev i) = x at *
    generalize σ (od i) = y at *
    have hsq : ε x y * ε x y = 1 := by rw [hεa x y ha, chi_sq]
    by_cases hx : x ∈ ρ.support
    · have hy : y ∈ ρ.support := by rw [← hp]; exact (hS x).2 hx
      simp only [hw, hx, hy, if_true]
      rcases hor2 x hx with h | h
      · rw [hp] at h
        rw [h]
        linear_combination (-ε y (ρ y)) * hsq
      · rw [hp] at h
        rw [h, hsk (ρ x) x, hsk y x]
        linear_combination (ε x (ρ x)) * hsq
    · have hy : y ∉ ρ.support := by rw [← hp]; exact fun h => hx ((hS x).1 h)
      simp only [hw, hx, hy, if_false]
      rw [Perm.notMem_support.1 hx, Perm.notMem_support.1 hy]; ring
  unfold pfTerm
  rw [Finset.prod_congr rfl fun i _ => hkey i, Finset.prod_mul_distrib, hprodσ, Perm.sign_mul, hsign]
  push_cast
  ring

/-- all perfect matchings contribute to the Pfaffian with the same sign -/
theorem fkt_sign {m : ℕ} {E : Emb (Fin (2 * m)) Φ} {e : Fin (2 * m) → Fin (2 * m) → ZMod 2}
    (hO : Odd' E e) {σ₁ σ₂ : Perm (Fin (2 * m))}
    (h₁ : ∀ v, E.adj v ((σ₁ * tau0 m * σ₁⁻¹) v)) (h₂ : ∀ v, E.adj v ((σ₂ * tau0 m * σ₂⁻¹) v)) :
    pfTerm (signed K E e) σ₁ = pfTerm (signed K E e) σ₂ := by
  classical
  generalize hN : (Finset.univ.filter fun v => (σ₁ * tau0 m * σ₁⁻¹) v ≠ (σ₂ * tau0 m * σ₂⁻¹) v).card = N
  induction N using Nat.strong_induction_on generalizing σ₁ with
  | _ N ih =>
  by_cases hall : ∀ v, (σ₁ * tau0 m * σ₁⁻¹) v = (σ₂ * tau0 m * σ₂⁻¹) v
  · have heq : σ₁ * tau0 m * σ₁⁻¹ = σ₂ * tau0 m * σ₂⁻¹ := Equiv.ext hall
    have hc : (σ₂⁻¹ * σ₁) * tau0 m = tau0 m * (σ₂⁻¹ * σ₁) := by
      calc (σ₂⁻¹ * σ₁) * tau0 m = σ₂⁻¹ * (σ₁ * tau0 m * σ₁⁻¹) * σ₁ := by group
        _ = tau0 m * (σ₂⁻¹ * σ₁) := by rw [heq]; group
    have := pfTerm_mul (K := K) (signed_skew hO.skew) σ₂ hc
    rwa [mul_inv_cancel_left] at this
  · push Not at hall
    obtain ⟨v, hv⟩ := hall
    obtain ⟨σ', h1, h2, h3⟩ := pfTerm_step (K := K) hO ((tau0_fpf m).conj σ₂) h₁ h₂ hv
    rw [← h1]
    refine ih _ ?_ (σ₁ := σ') ?_ rfl
    · rw [← hN]
      apply Finset.card_lt_card
      rw [Finset.ssubset_iff_of_subset]
      · exact ⟨v, Finset.mem_filter.2 ⟨Finset.mem_univ _, hv⟩, fun h => (Finset.mem_filter.1 h).2 h3⟩
      · intro x
        simp only [Finset.mem_filter, Finset.mem_univ, true_and]
        intro hx hx'
        rcases h2 x with h | h
        · exact hx h
        · exact hx (h.trans hx')
    · intro x
      rcases h2 x with h | h <;> rw [h]
      · exact h₂ x
      · exact h₁ x

/-- **FKT**: the Pfaffian of the oriented matrix is the hafnian up to sign. -/
theorem fkt {m : ℕ} {E : Emb (Fin (2 * m)) Φ} {e : Fin (2 * m) → Fin (2 * m) → ZMod 2}
    (hO : Odd' E e) (A : Matrix (Fin (2 * m)) (Fin (2 * m)) K) (hA : ∀ u v, ¬ E.adj u v → A u v = 0) :
    pfVal (fun u v => signed K E e u v * A u v) = hfVal A ∨
      pfVal (fun u v => signed K E e u v * A u v) = - hfVal A := by
  classical
  have hterm : ∀ σ : Perm (Fin (2 * m)), ((Perm.sign σ : ℤ) : K)
      * ∏ i : Fin m, (signed K E e (σ (ev i)) (σ (od i)) * A (σ (ev i)) (σ (od i)))
      = pfTerm (signed K E e) σ * ∏ i : Fin m, A (σ (ev i)) (σ (od i)) := by
    intro σ
    rw [pfTerm, Finset.prod_mul_distrib, mul_assoc]
  have hall : ∀ σ : Perm (Fin (2 * m)), (∏ i : Fin m, A (σ (ev i)) (σ (od i)) ≠ 0) →
      ∀ v, E.adj v ((σ * tau0 m * σ⁻¹) v) := by
    intro σ h v
    have h1 : ∀ i, E.adj (σ (ev i)) (σ (od i)) := by
      intro i
      by_contra hn
      exact h (Finset.prod_eq_zero (Finset.mem_univ i) (hA _ _ hn))
    obtain ⟨w, rfl⟩ := σ.surjective v
    rcases ev_or_od w with ⟨i, rfl⟩ | ⟨i, rfl⟩
    · simpa [tau0_ev] using h1 i
    · simpa [tau0_od] using E.symm (h1 i)
  by_cases hex : ∃ σ₀ : Perm (Fin (2 * m)), ∏ i : Fin m, A (σ₀ (ev i)) (σ₀ (od i)) ≠ 0
  · obtain ⟨σ₀, h0⟩ := hex
    have hpm : pfTerm (signed K E e) σ₀ = 1 ∨ pfTerm (signed K E e) σ₀ = -1 := by
      rw [← mul_self_eq_one_iff, pfTerm, mul_mul_mul_comm, ← Finset.prod_mul_distrib]
      have h1 : ∀ i : Fin m, signed K E e (σ₀ (ev i)) (σ₀ (od i))
          * signed K E e (σ₀ (ev i)) (σ₀ (od i)) = 1 := by
        intro i
        have := hall σ₀ h0 (σ₀ (ev i))
        simp only [Perm.mul_apply, inva, tau0_ev] at this
        rw [signed, if_pos this, chi_sq]
      rw [Finset.prod_congr rfl fun i _ => h1 i, Finset.prod_const_one, mul_one]
      rcases Int.units_eq_one_or (Perm.sign σ₀) with h | h <;> rw [h] <;> simp
    have hs : pfVal (fun u v => signed K E e u v * A u v) = pfTerm (signed K E e) σ₀ * hfVal A := by
      unfold pfVal hfVal
      rw [← mul_div_assoc, Finset.mul_sum]
      congr 1
      refine Finset.sum_congr rfl fun σ _ => ?_
      rw [hterm]
      by_cases h : ∏ i : Fin m, A (σ (ev i)) (σ (od i)) = 0
      · rw [h, mul_zero, mul_zero]
      · rw [fkt_sign hO (hall σ h) (hall σ₀ h0)]
    rcases hpm with h | h <;> rw [hs, h]
    · left; ring
    · right; ring
  · push Not at hex
    left
    unfold pfVal hfVal
    congr 1
    refine Finset.sum_congr rfl fun σ _ => ?_
    rw [hterm, hex σ, mul_zero]

end FF
