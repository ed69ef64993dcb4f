import Verif.Proofs.PfExpand

/-! # Helper lemmas: expansion of Pfaffian, hafnian and permanent along any row -/

namespace FF

open Equiv Matrix

variable {K : Type} [Field K]

/-- Sums of functions that do not depend on the order of the slots. -/
theorem sum_front {m : ℕ} {F : Perm (Fin (2 * (m + 1))) → K}
    (hF : ∀ σ c : Perm (Fin (2 * (m + 1))), c * tau0 (m + 1) = tau0 (m + 1) * c → F (σ * c) = F σ) :
    ∑ σ, F σ = (2 * (m + 1) : ℕ) * ∑ e : Perm (Fin (2 * m + 1)), F (ext0 e) := by
  classical
  have h1 : ∑ σ, F σ = ∑ j, ∑ σ ∈ Finset.univ.filter (fun σ : Perm (Fin (2 * (m + 1))) => σ⁻¹ (ev 0) = j), F σ := by
    rw [Finset.sum_fiberwise]
  have h2 : ∀ j : Fin (2 * (m + 1)),
      ∑ σ ∈ Finset.univ.filter (fun σ : Perm (Fin (2 * (m + 1))) => σ⁻¹ (ev 0) = j), F σ =
      ∑ e : Perm (Fin (2 * m + 1)), F (ext0 e) := by
    intro j
    obtain ⟨c, hc, hcj⟩ := exists_front j
    symm
    have hc' : c⁻¹ * tau0 (m + 1) = tau0 (m + 1) * c⁻¹ := by
      rw [inv_mul_eq_iff_eq_mul, ← mul_assoc, hc, mul_assoc, mul_inv_cancel, mul_one]
    apply Finset.sum_bij (fun (e : Perm (Fin (2 * m + 1))) _ => (ext0 e * c⁻¹ : Perm (Fin (2 * (m + 1)))))
    · intro e _
      rw [Finset.mem_filter]
      refine ⟨Finset.mem_univ _, ?_⟩
      rw [mul_inv_rev, inv_inv, Perm.mul_apply]
      have : (ext0 e : Perm (Fin (2 * (m + 1))))⁻¹ (ev (0 : Fin (m + 1))) = ev (0 : Fin (m + 1)) := by
        rw [Perm.inv_eq_iff_eq]
        exact (ext0_zero e).symm
      rw [this, hcj]
    · intro e _ e' _ h
      have h' : ext0 e = ext0 e' := mul_right_cancel h
      exact congrArg Prod.snd (Perm.decomposeFin.symm.injective h')
    · intro σ hσ
      rw [Finset.mem_filter] at hσ
      have h0 : (σ * c : Perm (Fin (2 * (m + 1)))) (ev (0 : Fin (m + 1))) = ev (0 : Fin (m + 1)) := by
        rw [Perm.mul_apply, hcj, ← hσ.2]; simp
      refine ⟨(Perm.decomposeFin (n := 2 * m + 1) (σ * c)).2, Finset.mem_univ _, ?_⟩
      have h3 : (Perm.decomposeFin (n := 2 * m + 1) (σ * c)).1 = 0 := by
        have := Perm.decomposeFin_symm_apply_zero (n := 2 * m + 1) (Perm.decomposeFin (n := 2 * m + 1) (σ * c)).1
          (Perm.decomposeFin (n := 2 * m + 1) (σ * c)).2
        rw [Prod.mk.eta, Equiv.symm_apply_apply] at this
        rw [← this]; exact h0
      have h4 : ext0 (Perm.decomposeFin (n := 2 * m + 1) (σ * c)).2 = σ * c := by
        rw [ext0, ← h3, Prod.mk.eta, Equiv.symm_apply_apply]
      rw [h4]; exact mul_inv_cancel_right σ c
    · intro e _
      exact (hF (ext0 e) _ hc').symm
  rw [h1, Finset.sum_congr rfl fun j _ => h2 j, Finset.sum_const, Finset.card_univ, Fintype.card_fin, nsmul_eq_mul]

theorem hfTerm_mul {m : ℕ} {A : Matrix (Fin (2 * m)) (Fin (2 * m)) K} (hA : A.IsSymm) (σ c : Perm (Fin (2 * m)))
    (hc : c * tau0 m = tau0 m * c) :
    ∏ i : Fin m, A ((σ * c) (ev i)) ((σ * c) (od i)) = ∏ i : Fin m, A (σ (ev i)) (σ (od i)) := by
  have h : σ * c * tau0 m * (σ * c)⁻¹ = σ * tau0 m * σ⁻¹ := by
    rw [mul_inv_rev, mul_assoc σ c, hc, mul_assoc, mul_assoc (tau0 m), ← mul_assoc c, mul_inv_cancel, one_mul, ← mul_assoc]
  rw [prod_slots (σ * c) A (fun x y => hA.apply y x), prod_slots σ A (fun x y => hA.apply y x), h]

/-- Expansion of the hafnian along the first row. -/
theorem hfVal_row [CharZero K] {m : ℕ} {A : Matrix (Fin (2 * (m + 1))) (Fin (2 * (m + 1))) K} (hA : A.IsSymm) :
    hfVal A = ∑ p : Fin (2 * m + 1), A (ev 0) p.succ *
      hfVal (m := m) (A.submatrix (fun x => (p.succAbove x).succ) fun x => (p.succAbove x).succ) := by
  have h1 : ∀ (p : Fin (2 * m + 1)) (e : Perm (Fin (2 * m))),
      ∏ i : Fin (m + 1), A ((ext0 (rowPerm p e) : Perm (Fin (2 * (m + 1)))) (ev i)) ((ext0 (rowPerm p e) : Perm (Fin (2 * (m + 1)))) (od i)) =
        A (ev 0) p.succ * ∏ i : Fin m, A (p.succAbove (e (ev i))).succ (p.succAbove (e (od i))).succ := by
    intro p e
    rw [Fin.prod_univ_succ]
    have e0 : (ext0 (rowPerm p e) : Perm (Fin (2 * (m + 1)))) (ev (0 : Fin (m + 1))) = ev (0 : Fin (m + 1)) := ext0_zero _
    have o0 : (ext0 (rowPerm p e) : Perm (Fin (2 * (m + 1)))) (od (0 : Fin (m + 1))) = p.succ :=
      (ext0_succ _ 0).trans (by rw [rowPerm_zero])
    have ei : ∀ i : Fin m, (ext0 (rowPerm p e) : Perm (Fin (2 * (m + 1)))) (ev i.succ) = (p.succAbove (e (ev i))).succ := by
      intro i
      have h : (ev i.succ : Fin (2 * (m + 1))) = (ev i).succ.succ := Fin.ext (by simp [ev]; omega)
      rw [h]
      exact (ext0_succ _ _).trans (by rw [rowPerm_succ])
    have oi : ∀ i : Fin m, (ext0 (rowPerm p e) : Perm (Fin (2 * (m + 1)))) (od i.succ) = (p.succAbove (e (od i))).succ := by
      intro i
      have h : (od i.succ : Fin (2 * (m + 1))) = (od i).succ.succ := Fin.ext (by simp [od]; omega)
      rw [h]
      exact (ext0_succ _ _).trans (by rw [rowPerm_succ])
    rw [e0, o0, Finset.prod_congr rfl fun i _ => by rw [ei i, oi i]]
  rw [hfVal, sum_front (F := fun σ => ∏ i : Fin (m + 1), A (σ (ev i)) (σ (od i))) (fun σ c hc => hfTerm_mul hA σ c hc), sum_perm_row]
  simp only [h1, ← Finset.mul_sum]
  have h2 : ∀ p : Fin (2 * m + 1), A (ev 0) p.succ *
      hfVal (m := m) (A.submatrix (fun x => (p.succAbove x).succ) fun x => (p.succAbove x).succ) =
      (A (ev 0) p.succ * ∑ e : Perm (Fin (2 * m)),
        ∏ i : Fin m, A (p.succAbove (e (ev i))).succ (p.succAbove (e (od i))).succ) / (2 ^ m * (m.factorial : K)) := by
    intro p
    rw [mul_div_assoc]; rfl
  rw [Finset.sum_congr rfl fun p _ => h2 p, ← Finset.sum_div, Nat.factorial_succ]
  have hm : (2 ^ m * (m.factorial : K)) ≠ 0 := fact_ne m
  have h3 : ((2 * (m + 1) : ℕ) : K) ≠ 0 := Nat.cast_ne_zero.2 (by omega)
  rw [div_eq_div_iff (by simpa [Nat.factorial_succ] using fact_ne (K := K) (m + 1)) hm]
  push_cast
  ring

theorem hfVal_reorder {m : ℕ} (A : Matrix (Fin (2 * m)) (Fin (2 * m)) K) (c : Perm (Fin (2 * m))) :
    hfVal (A.submatrix c c) = hfVal A := by
  rw [hfVal, hfVal]
  congr 1
  exact Fintype.sum_equiv (Equiv.mulLeft c) _ _ fun σ => rfl

theorem pfVal_reorder {m : ℕ} (A : Matrix (Fin (2 * m)) (Fin (2 * m)) K) (c : Perm (Fin (2 * m))) :
    pfVal (A.submatrix c c) = ((Perm.sign c : ℤ) : K) * pfVal A := by
  rw [pfVal, pfVal, ← mul_div_assoc]
  congr 1
  rw [Finset.mul_sum]
  refine Fintype.sum_equiv (Equiv.mulLeft c) _ _ fun σ => ?_
  simp only [submatrix_apply, Equiv.coe_mulLeft, Perm.sign_mul, Units.val_mul, Int.cast_mul, ← mul_assoc, Perm.mul_apply]
  congr 1
  rw [← Int.cast_mul, ← Units.val_mul, Int.units_mul_self, Units.val_one, Int.cast_one, one_mul]

/-- Expansion of the Pfaffian along row `i`. -/
theorem pfVal_any_row [CharZero K] {m : ℕ} {A : Matrix (Fin (2 * m + 2)) (Fin (2 * m + 2)) K} (hA : ∀ i j, A i j = - A j i)
    (i : Fin (2 * m + 2)) :
    pfVal (m := m + 1) A = ∑ p : Fin (2 * m + 1), (-1) ^ ((i : ℕ) + p) * A i (i.succAbove p) *
      pfVal (m := m) (A.submatrix (fun x => i.succAbove (p.succAbove x)) fun x => i.succAbove (p.succAbove x)) := by
  set c : Perm (Fin (2 * m + 2)) := i.cycleRange.symm with hc
  have h1 := pfVal_row (m := m) (A := A.submatrix c c) (fun a b => hA _ _)
  have h2 := pfVal_reorder (m := m + 1) A c
  have hs : ((Perm.sign c : ℤ) : K) = (-1) ^ (i : ℕ) := by
    rw [hc, Perm.sign_symm, Fin.sign_cycleRange]
    push_cast
    rfl
  have hc0 : c 0 = i := Fin.cycleRange_symm_zero i
  have hcs : ∀ x : Fin (2 * m + 1), c x.succ = i.succAbove x := fun x => Fin.cycleRange_symm_succ i x
  have h3 : pfVal (m := m + 1) A = (-1) ^ (i : ℕ) * pfVal (m := m + 1) (A.submatrix c c) := by
    rw [h2, hs, ← mul_assoc, ← mul_pow]
    norm_num
  rw [h3, h1, Finset.mul_sum]
  refine Finset.sum_congr rfl fun p _ => ?_
  change (-1) ^ (i : ℕ) * ((-1) ^ (p : ℕ) * A (c 0) (c p.succ) *
    pfVal (m := m) (A.submatrix (fun x => c (p.succAbove x).succ) fun x => c (p.succAbove x).succ)) = _
  simp only [hc0, hcs]
  rw [pow_add]
  ring

/-- Expansion of the hafnian along row `i`. -/
theorem hfVal_any_row [CharZero K] {m : ℕ} {A : Matrix (Fin (2 * m + 2)) (Fin (2 * m + 2)) K} (hA : A.IsSymm)
    (i : Fin (2 * m + 2)) :
    hfVal (m := m + 1) A = ∑ p : Fin (2 * m + 1), A i (i.succAbove p) *
      hfVal (m := m) (A.submatrix (fun x => i.succAbove (p.succAbove x)) fun x => i.succAbove (p.succAbove x)) := by
  set c : Perm (Fin (2 * m + 2)) := i.cycleRange.symm with hc
  have h1 := hfVal_row (m := m) (A := A.submatrix c c) (hA.submatrix c)
  have h2 := hfVal_reorder (m := m + 1) A c
  have hc0 : c 0 = i := Fin.cycleRange_symm_zero i
  have hcs : ∀ x : Fin (2 * m + 1), c x.succ = i.succAbove x := fun x => Fin.cycleRange_symm_succ i x
  rw [← h2, h1]
  refine Finset.sum_congr rfl fun p _ => ?_
  change A (c 0) (c p.succ) * hfVal (m := m) (A.submatrix (fun x => c (p.succAbove x).succ) fun x => c (p.succAbove x).succ) = _
  simp only [hc0, hcs]

/-- Expansion of the permanent along row `i`. -/
theorem permanent_row {R : Type} [CommRing R] {n : ℕ} (A : Matrix (Fin (n + 1)) (Fin (n + 1)) R) (i : Fin (n + 1)) :
    A.permanent = ∑ j, A i j * (A.submatrix i.succAbove j.succAbove).permanent := by
  have h1 : A.permanent = ∑ σ : Perm (Fin (n + 1)), ∏ x, A x (σ x) := by
    rw [← permanent_transpose]; rfl
  have h2 : ∀ σ : Perm (Fin (n + 1)), ∏ x, A x (σ x) = A i (σ i) * ∏ x, A (i.succAbove x) (σ (i.succAbove x)) := fun σ =>
    Fin.prod_univ_succAbove _ i
  rw [h1, ← Equiv.sum_comp (Equiv.mulRight i.cycleRange) fun σ : Perm (Fin (n + 1)) => ∏ x, A x (σ x), sum_perm_row]
  refine Finset.sum_congr rfl fun p _ => ?_
  rw [← permanent_transpose, permanent, Finset.mul_sum]
  refine Finset.sum_congr rfl fun e _ => ?_
  rw [h2]
  simp only [Equiv.coe_mulRight, Perm.mul_apply, Fin.cycleRange_self, rowPerm_zero, transpose_apply, submatrix_apply]
  congr 1
  refine Finset.prod_congr rfl fun x _ => ?_
  rw [show i.cycleRange (i.succAbove x) = x.succ from Fin.cycleRange_succAbove i x, rowPerm_succ]

end FF
