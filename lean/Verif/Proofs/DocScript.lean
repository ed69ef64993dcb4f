import Verif.Model.DocScript
import Verif.Proofs.Slater
import Verif.Props.Eigen

/-! # Lemmas on the script of the documentation -/

namespace FF

open Matrix

variable {n : ℕ}

theorem omega_conj_diag (M : Op (n + n)) (x : Fin n) :
    (Complex.I • buildOmega n * M * (buildOmega n)ᴴ) (Fin.castAdd n x) (Fin.castAdd n x) +
      (Complex.I • buildOmega n * M * (buildOmega n)ᴴ) (Fin.natAdd n x) (Fin.natAdd n x) =
      Complex.I * (M (Fin.castAdd n x) (Fin.castAdd n x) + M (Fin.natAdd n x) (Fin.natAdd n x)) := by
  obtain ⟨a, b, c, d, rfl⟩ := exists_blk M
  have h : nu ^ 2 = 1 / 2 := by rw [pow_two, nu_sq]
  have hI := Complex.I_sq
  rw [omega_dag_eq, buildOmega, blk_smul, blk_mul, blk_mul]
  rw [blk_11, blk_22, blk_11, blk_22]
  simp only [Matrix.add_apply, Matrix.smul_mul, Matrix.mul_smul, Matrix.one_mul, Matrix.mul_one, Matrix.smul_apply, smul_eq_mul]
  linear_combination (2 * Complex.I * (a x x + d x x)) * h + (-nu ^ 2 * Complex.I * (a x x - b x x - c x x + d x x)) * hI

theorem inner_al_al (b : Fin n → Fin 2) (i j : Fin (n + n)) :
    Spec.inner (al n i *ᵥ Spec.fock b) (al n j *ᵥ Spec.fock b) =
      if i = j then Fin.addCases (fun k => if b k = 0 then 1 else 0) (fun k => if b k = 1 then 1 else 0) i else (0 : ℂ) := by
  have upd : ∀ (k l : Fin n) (c d : Fin 2), c ≠ b k → (k ≠ l ∨ c ≠ d) → d ≠ b l → Function.update b k c ≠ Function.update b l d := by
    intro k l c d hc hkl hd e
    by_cases h : k = l
    · subst h
      have := congrFun e k
      simp at this
      simp [this] at hkl
    · have := congrFun e k
      rw [Function.update_self, Function.update_of_ne h] at this
      exact hc this
  have z : ∀ b c : Fin n → Fin 2, b ≠ c → Spec.inner (Spec.fock b) (Spec.fock c) = 0 := by
    intro b c h
    rw [inner_fock, fock_eq, Pi.single_apply, if_neg]
    intro e
    apply h
    rw [← (eq_bIdx (bIdx b) b).1 rfl, ← (eq_bIdx (bIdx b) c).1 e]
  have sm : ∀ (u v : ℂ) (x y : Fin (2 ^ n) → ℂ), Spec.inner (u • x) (v • y) = star u * v * Spec.inner x y := by
    intro u v x y
    simp only [Spec.inner, Pi.smul_apply, smul_eq_mul, star_mul', Finset.mul_sum]
    exact Finset.sum_congr rfl fun _ _ => by ring
  have z0 : ∀ x : Fin (2 ^ n) → ℂ, Spec.inner 0 x = 0 := fun x => by simp [Spec.inner]
  have z1 : ∀ x : Fin (2 ^ n) → ℂ, Spec.inner x 0 = 0 := fun x => by simp [Spec.inner]
  have one : ∀ m : ℕ, star ((-1 : ℂ) ^ m) * (-1) ^ m = 1 := fun m => by
    rw [star_pow, star_neg, star_one, ← mul_pow]; norm_num
  induction i using Fin.addCases with
  | left i =>
    induction j using Fin.addCases with
    | left j =>
      rw [al_left, al_left, jwRaise_fock, jwRaise_fock, Fin.addCases_left]
      by_cases hi : b i = 0 <;> by_cases hj : b j = 0
      · rw [if_pos hi, if_pos hj, if_pos hi, sm]
        by_cases hij : i = j
        · subst hij
          rw [one, inner_fock_self, if_pos rfl, one_mul]
        · rw [z _ _ (upd i j 1 1 (by simp [hi]) (Or.inl hij) (by simp [hj])), mul_zero, if_neg]
          intro e; exact hij (Fin.castAdd_injective _ _ e)
      · rw [if_neg hj, z1, if_neg]
        intro e; exact hj ((Fin.castAdd_injective _ _ e) ▸ hi)
      · rw [if_neg hi, z0, if_neg hi, ite_self]
      · rw [if_neg hi, z0, if_neg hi, ite_self]
    | right j =>
      have hne : Fin.castAdd n i ≠ Fin.natAdd n j := by
        intro e
        have := congrArg Fin.val e
        simp at this
        omega
      rw [al_left, al_right, jwRaise_fock, jwLower_fock, if_neg hne]
      by_cases hi : b i = 0 <;> by_cases hj : b j = 1
      · rw [if_pos hi, if_pos hj, sm, z _ _ (upd i j 1 0 (by simp [hi]) (Or.inr (by simp)) (by simp [hj])), mul_zero]
      · rw [if_neg hj, z1]
      · rw [if_neg hi, z0]
      · rw [if_neg hi, z0]
  | right i =>
    induction j using Fin.addCases with
    | left j =>
      have hne : Fin.natAdd n i ≠ Fin.castAdd n j := by
        intro e
        have := congrArg Fin.val e
        simp at this
        omega
      rw [al_left, al_right, jwRaise_fock, jwLower_fock, if_neg hne]
      by_cases hi : b i = 1 <;> by_cases hj : b j = 0
      · rw [if_pos hi, if_pos hj, sm, z _ _ (upd i j 0 1 (by simp [hi]) (Or.inr (by simp)) (by simp [hj])), mul_zero]
      · rw [if_neg hj, z1]
      · rw [if_neg hi, z0]
      · rw [if_neg hi, z0]
    | right j =>
      rw [al_right, al_right, jwLower_fock, jwLower_fock, Fin.addCases_right]
      by_cases hi : b i = 1 <;> by_cases hj : b j = 1
      · rw [if_pos hi, if_pos hj, if_pos hi, sm]
        by_cases hij : i = j
        · subst hij
          rw [one, inner_fock_self, if_pos rfl, one_mul]
        · rw [z _ _ (upd i j 0 0 (by simp [hi]) (Or.inl hij) (by simp [hj])), mul_zero, if_neg]
          intro e; exact hij (Fin.natAdd_injective _ _ e)
      · rw [if_neg hj, z1, if_neg]
        intro e; exact hj ((Fin.natAdd_injective _ _ e) ▸ hi)
      · rw [if_neg hi, z0, if_neg hi, ite_self]
      · rw [if_neg hi, z0, if_neg hi, ite_self]

/-- The diagonal of a quadratic operator. -/
theorem quad_diag (M : Op (n + n)) (b : Fin n → Fin 2) :
    Spec.quad M (al n) (bIdx b) (bIdx b) =
      ∑ i, if b i = 0 then M (Fin.castAdd n i) (Fin.castAdd n i) else M (Fin.natAdd n i) (Fin.natAdd n i) := by
  have e : ∀ X : Op (2 ^ n), X (bIdx b) (bIdx b) = Spec.inner (Spec.fock b) (X *ᵥ Spec.fock b) := fun X => by
    rw [inner_fock, fock_eq, mulVec_single_one]; rfl
  have e2 : ∀ i j, ((al n i)ᴴ * al n j) (bIdx b) (bIdx b) =
      if i = j then Fin.addCases (fun k => if b k = 0 then 1 else 0) (fun k => if b k = 1 then 1 else 0) i else (0 : ℂ) := fun i j => by
    rw [e ((al n i)ᴴ * al n j), ← mulVec_mulVec, ← inner_mulVec, inner_al_al]
  rw [Spec.quad]
  simp only [Matrix.sum_apply, Matrix.smul_apply, e2, smul_eq_mul, mul_ite, mul_zero, Finset.sum_ite_eq, Finset.mem_univ, if_true]
  rw [Fin.sum_univ_add, ← Finset.sum_add_distrib]
  refine Finset.sum_congr rfl fun i _ => ?_
  rw [Fin.addCases_left, Fin.addCases_right]
  by_cases h : b i = 0
  · simp [h]
  · simp [Fin.eq_one_of_ne_zero _ h]

theorem bIdx_cons {k : ℕ} (b : Fin k → Fin 2) (c : Fin 2) :
    (bIdx (Fin.cons c b : Fin (k + 1) → Fin 2) : ℕ) = (c : ℕ) * 2 ^ k + bIdx b := by
  simp only [bIdx, Spec.basisIndex, Fin.sum_univ_succ, Fin.cons_zero, Fin.cons_succ, Fin.val_zero, Fin.val_succ]
  congr 1
  refine Finset.sum_congr rfl fun i _ => ?_
  congr 2
  omega

/-- What `eigh_sp` accepts has opposite numbers on the two halves of the diagonal. -/
theorem eighSp_diag {H : Op (n + n)} {schur : RMat (n + n) → RMat (n + n) × RMat (n + n)} {argsort : (Fin n → ℝ) → Fin n → ℕ}
    (h : eighSp schur argsort H ≠ .error .assertionError) (x : Fin n) :
    ‖H (Fin.castAdd n x) (Fin.castAdd n x) + H (Fin.natAdd n x) (Fin.natAdd n x)‖ ≤ 1.1e-8 := by
  set ih := Complex.I • buildOmega n * H * (buildOmega n)ᴴ with hih
  have ha : allclose 0 (ih + ihᵀ) := by
    by_contra hc
    exact h (Props.C45_rejects H schur argsort hc)
  have hx : ∀ y, ‖ih y y‖ ≤ 0.55e-8 := fun y => by
    have := ha y y
    rw [isclose, Matrix.zero_apply, zero_sub, norm_neg, Matrix.add_apply, Matrix.transpose_apply, ← two_mul, norm_mul] at this
    simp at this
    norm_num at this ⊢
    linarith
  have e := omega_conj_diag H x
  rw [← hih] at e
  have e2 : ‖H (Fin.castAdd n x) (Fin.castAdd n x) + H (Fin.natAdd n x) (Fin.natAdd n x)‖ = ‖Complex.I * (H (Fin.castAdd n x) (Fin.castAdd n x) + H (Fin.natAdd n x) (Fin.natAdd n x))‖ := by
    rw [norm_mul, Complex.norm_I, one_mul]
  rw [e2, ← e]
  refine (norm_add_le _ _).trans ?_
  have := hx (Fin.castAdd n x)
  have := hx (Fin.natAdd n x)
  norm_num at *
  linarith

end FF
