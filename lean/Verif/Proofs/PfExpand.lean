import Verif.Proofs.Matching
import Mathlib.GroupTheory.Perm.Fin
import Mathlib.Algebra.BigOperators.Field

/-! # Helper lemmas: expansion of the Pfaffian along its first row -/

namespace FF

open Equiv Matrix

/-- The permutation fixing `0` and acting on the others as `e`. -/
def ext0 {n : ℕ} (e : Perm (Fin n)) : Perm (Fin (n + 1)) := Perm.decomposeFin.symm (0, e)

@[simp] theorem ext0_zero {n : ℕ} (e : Perm (Fin n)) : ext0 e 0 = 0 := by simp [ext0]
@[simp] theorem ext0_succ {n : ℕ} (e : Perm (Fin n)) (x : Fin n) : ext0 e x.succ = (e x).succ := by simp [ext0]
theorem sign_ext0 {n : ℕ} (e : Perm (Fin n)) : Perm.sign (ext0 e) = Perm.sign e := by
  rw [ext0, Perm.decomposeFin.symm_sign]; simp

/-- The permutation sending `0` to `p` and the others in order, after `e`, to the rest. -/
def rowPerm {n : ℕ} (p : Fin (n + 1)) (e : Perm (Fin n)) : Perm (Fin (n + 1)) := p.cycleRange.symm * ext0 e

@[simp] theorem rowPerm_zero {n : ℕ} (p : Fin (n + 1)) (e : Perm (Fin n)) : rowPerm p e 0 = p := by
  simp [rowPerm]
@[simp] theorem rowPerm_succ {n : ℕ} (p : Fin (n + 1)) (e : Perm (Fin n)) (x : Fin n) :
    rowPerm p e x.succ = p.succAbove (e x) := by
  simp [rowPerm]
theorem sign_rowPerm {n : ℕ} (p : Fin (n + 1)) (e : Perm (Fin n)) :
    Perm.sign (rowPerm p e) = (-1) ^ (p : ℕ) * Perm.sign e := by
  rw [rowPerm, Perm.sign_mul, Perm.sign_symm, Fin.sign_cycleRange, sign_ext0]

theorem rowPerm_bijective (n : ℕ) :
    Function.Bijective fun q : Fin (n + 1) × Perm (Fin n) => rowPerm q.1 q.2 := by
  rw [Fintype.bijective_iff_injective_and_card]
  constructor
  · rintro ⟨p, e⟩ ⟨p', e'⟩ h
    simp only at h
    have h0 : p = p' := by
      have := congrArg (fun σ : Perm (Fin (n + 1)) => σ 0) h
      simpa using this
    subst h0
    congr 1
    ext x
    have := congrArg (fun σ : Perm (Fin (n + 1)) => σ x.succ) h
    simp only [rowPerm_succ] at this
    rw [Fin.succAbove_right_injective this]
  · rw [Fintype.card_prod, Fintype.card_perm, Fintype.card_perm, Fintype.card_fin, Fintype.card_fin, Nat.factorial_succ]

theorem sum_perm_row {n : ℕ} {M : Type} [AddCommMonoid M] (F : Perm (Fin (n + 1)) → M) :
    ∑ σ, F σ = ∑ p, ∑ e, F (rowPerm p e) := by
  rw [← Fintype.sum_prod_type', ← (rowPerm_bijective n).sum_comp]

variable {K : Type} [Field K]

/-- Every slot can be moved to the front by a permutation respecting the pairs. -/
theorem exists_front {m : ℕ} (j : Fin (2 * (m + 1))) :
    ∃ c : Perm (Fin (2 * (m + 1))), c * tau0 (m + 1) = tau0 (m + 1) * c ∧ c (ev 0) = j := by
  have hl : ∀ i : Fin (m + 1), lift (swap 0 i) * tau0 (m + 1) = tau0 (m + 1) * lift (swap 0 i) := by
    intro i
    ext v
    rcases ev_or_od v with ⟨k, rfl⟩ | ⟨k, rfl⟩ <;> simp [tau0_ev, tau0_od, lift_ev, lift_od]
  rcases ev_or_od j with ⟨i, rfl⟩ | ⟨i, rfl⟩
  · exact ⟨lift (swap 0 i), hl i, by simp [lift_ev]⟩
  · refine ⟨lift (swap 0 i) * tau0 (m + 1), by rw [hl i, mul_assoc, hl i], ?_⟩
    simp [lift_od, tau0_ev]

theorem pfSum_front {m : ℕ} {A : Matrix (Fin (2 * (m + 1))) (Fin (2 * (m + 1))) K} (hA : ∀ i j, A i j = - A j i) :
    pfSum A = (2 * (m + 1) : ℕ) * ∑ e : Perm (Fin (2 * m + 1)), pfTerm A (ext0 e) := by
  classical
  have h1 : pfSum A = ∑ j, ∑ σ ∈ Finset.univ.filter (fun σ : Perm (Fin (2 * (m + 1))) => σ⁻¹ (ev 0) = j), pfTerm A σ := by
    rw [Finset.sum_fiberwise]; rfl
  have h2 : ∀ j : Fin (2 * (m + 1)),
      ∑ σ ∈ Finset.univ.filter (fun σ : Perm (Fin (2 * (m + 1))) => σ⁻¹ (ev 0) = j), pfTerm A σ =
      ∑ e : Perm (Fin (2 * m + 1)), pfTerm A (ext0 e) := by
    intro j
    obtain ⟨c, hc, hcj⟩ := exists_front j
    symm
    have hc' : c⁻¹ * tau0 (m + 1) = tau0 (m + 1) * c⁻¹ := by
      rw [inv_mul_eq_iff_eq_mul, ← mul_assoc, hc, mul_assoc, mul_inv_cancel, mul_one]
    apply Finset.sum_bij (fun (e : Perm (Fin (2 * m + 1))) _ => (ext0 e * c⁻¹ : Perm (Fin (2 * (m + 1)))))
    · intro e _
      rw [Finset.mem_filter]
      refine ⟨Finset.mem_univ _, ?_⟩
      rw [mul_inv_rev, inv_inv, Perm.mul_apply]
      have : (ext0 e : Perm (Fin (2 * (m + 1))))⁻¹ (ev (0 : Fin (m + 1))) = ev (0 : Fin (m + 1)) := by
        rw [Perm.inv_eq_iff_eq]
        exact (ext0_zero e).symm
      rw [this, hcj]
    · intro e _ e' _ h
      have h' : ext0 e = ext0 e' := mul_right_cancel h
      exact congrArg Prod.snd (Perm.decomposeFin.symm.injective h')
    · intro σ hσ
      rw [Finset.mem_filter] at hσ
      have h0 : (σ * c : Perm (Fin (2 * (m + 1)))) (ev (0 : Fin (m + 1))) = ev (0 : Fin (m + 1)) := by
        rw [Perm.mul_apply, hcj, ← hσ.2]; simp
      refine ⟨(Perm.decomposeFin (n := 2 * m + 1) (σ * c)).2, Finset.mem_univ _, ?_⟩
      have h3 : (Perm.decomposeFin (n := 2 * m + 1) (σ * c)).1 = 0 := by
        have := Perm.decomposeFin_symm_apply_zero (n := 2 * m + 1) (Perm.decomposeFin (n := 2 * m + 1) (σ * c)).1
          (Perm.decomposeFin (n := 2 * m + 1) (σ * c)).2
        rw [Prod.mk.eta, Equiv.symm_apply_apply] at this
        rw [← this]; exact h0
      have h4 : ext0 (Perm.decomposeFin (n := 2 * m + 1) (σ * c)).2 = σ * c := by
        rw [ext0, ← h3, Prod.mk.eta, Equiv.symm_apply_apply]
      rw [h4]; exact mul_inv_cancel_right σ c
    · intro e _
      exact (pfTerm_mul hA (ext0 e) hc').symm
  rw [h1, Finset.sum_congr rfl fun j _ => h2 j, Finset.sum_const, Finset.card_univ, Fintype.card_fin, nsmul_eq_mul]

/-- Expansion along the first row. -/
theorem pfVal_row [CharZero K] {m : ℕ} {A : Matrix (Fin (2 * (m + 1))) (Fin (2 * (m + 1))) K}
    (hA : ∀ i j, A i j = - A j i) :
    pfVal A = ∑ p : Fin (2 * m + 1), (-1) ^ (p : ℕ) * A (ev 0) p.succ *
      pfVal (m := m) (A.submatrix (fun x => (p.succAbove x).succ) fun x => (p.succAbove x).succ) := by
  have h1 : ∀ (p : Fin (2 * m + 1)) (e : Perm (Fin (2 * m))), pfTerm A (ext0 (rowPerm p e)) =
      (-1) ^ (p : ℕ) * A (ev 0) p.succ *
        (((Perm.sign e : ℤ) : K) * ∏ i : Fin m, A (p.succAbove (e (ev i))).succ (p.succAbove (e (od i))).succ) := by
    intro p e
    unfold pfTerm
    rw [Fin.prod_univ_succ]
    have s1 : (Perm.sign (ext0 (rowPerm p e) : Perm (Fin (2 * (m + 1)))) : ℤˣ) = (-1) ^ (p : ℕ) * Perm.sign e :=
      (sign_ext0 _).trans (sign_rowPerm p e)
    have e0 : (ext0 (rowPerm p e) : Perm (Fin (2 * (m + 1)))) (ev (0 : Fin (m + 1))) = ev (0 : Fin (m + 1)) := ext0_zero _
    have o0 : (ext0 (rowPerm p e) : Perm (Fin (2 * (m + 1)))) (od (0 : Fin (m + 1))) = p.succ := by
      have : (od (0 : Fin (m + 1)) : Fin (2 * (m + 1))) = (0 : Fin (2 * m + 1)).succ := rfl
      exact (ext0_succ _ 0).trans (by rw [rowPerm_zero])
    have ei : ∀ i : Fin m, (ext0 (rowPerm p e) : Perm (Fin (2 * (m + 1)))) (ev i.succ) = (p.succAbove (e (ev i))).succ := by
      intro i
      have h : (ev i.succ : Fin (2 * (m + 1))) = (ev i).succ.succ := Fin.ext (by simp [ev]; omega)
      rw [h]
      exact (ext0_succ _ _).trans (by rw [rowPerm_succ])
    have oi : ∀ i : Fin m, (ext0 (rowPerm p e) : Perm (Fin (2 * (m + 1)))) (od i.succ) = (p.succAbove (e (od i))).succ := by
      intro i
      have h : (od i.succ : Fin (2 * (m + 1))) = (od i).succ.succ := Fin.ext (by simp [od]; omega)
      rw [h]
      exact (ext0_succ _ _).trans (by rw [rowPerm_succ])
    rw [s1, e0, o0, Finset.prod_congr rfl fun i _ => by rw [ei i, oi i]]
    push_cast
    ring
  rw [pfVal_eq, pfSum_front hA, sum_perm_row]
  simp only [h1, ← Finset.mul_sum]
  have h2 : ∀ p : Fin (2 * m + 1), (-1) ^ (p : ℕ) * A (ev 0) p.succ *
      pfVal (m := m) (A.submatrix (fun x => (p.succAbove x).succ) fun x => (p.succAbove x).succ) =
      ((-1) ^ (p : ℕ) * A (ev 0) p.succ * ∑ e : Perm (Fin (2 * m)), ((Perm.sign e : ℤ) : K) *
        ∏ i : Fin m, A (p.succAbove (e (ev i))).succ (p.succAbove (e (od i))).succ) / (2 ^ m * (m.factorial : K)) := by
    intro p
    rw [mul_div_assoc]; rfl
  rw [Finset.sum_congr rfl fun p _ => h2 p, ← Finset.sum_div, Nat.factorial_succ]
  have hm : (2 ^ m * (m.factorial : K)) ≠ 0 := fact_ne m
  have h3 : ((2 * (m + 1) : ℕ) : K) ≠ 0 := Nat.cast_ne_zero.2 (by omega)
  rw [div_eq_div_iff (by simpa [Nat.factorial_succ] using fact_ne (K := K) (m + 1)) hm]
  push_cast
  ring

end FF
