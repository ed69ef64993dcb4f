import Verif.Proofs.Evolve
import Verif.Proofs.GaussRot
import Verif.Proofs.Span

/-! # Helper lemmas: which rotated distributions are free-fermion states -/

namespace FF

open Matrix

variable {n : ℕ}

/-- The diagonal operator of a distribution. -/
def dgl (p : Fin (2 ^ n) → ℝ) : Op (2 ^ n) := diagonal fun x => (p x : ℂ)

theorem fl_ne (x : Fin (n + n)) : x ≠ fl x := by
  refine Fin.addCases (fun i => ?_) (fun i => ?_) x
  · rw [fl_left]; exact fun h => absurd (congrArg Fin.val h) (by simp only [Fin.val_castAdd, Fin.val_natAdd]; omega)
  · rw [fl_right]; exact fun h => absurd (congrArg Fin.val h) (by simp only [Fin.val_castAdd, Fin.val_natAdd]; omega)

theorem al_square (x : Fin (n + n)) : al n x * al n x = 0 := by
  have := al_anticomm x x
  rw [← two_smul ℂ, swapS_apply, if_neg (fl_ne x), zero_smul] at this
  exact (smul_eq_zero.1 this).resolve_left two_ne_zero

theorem al_pair (x : Fin (n + n)) : al n x * al n (fl x) + al n (fl x) * al n x = 1 := by
  rw [al_anticomm, swapS_apply, if_pos rfl, one_smul]

theorem pair_diag (x : Fin (n + n)) : ∃ v : Fin (2 ^ n) → ℂ, al n (fl x) * al n x = diagonal v := by
  refine Fin.addCases (fun i => ?_) (fun i => ?_) x
  · refine ⟨fun y => 1 - ((Spec.digit 2 n y i : ℕ) : ℂ), ?_⟩
    have h := al_pair (Fin.castAdd n i)
    rw [fl_left, al_left, al_right, number_diag] at h
    rw [fl_left, al_left, al_right, ← diagonal_sub, diagonal_one, ← h, add_sub_cancel_left]
  · rw [fl_right, al_left, al_right]
    exact ⟨_, number_diag i⟩

theorem gam_diag_zero (p : Fin (2 ^ n) → ℝ) {x y : Fin (n + n)} (h : y ≠ fl x) : (dgl p * al n x * al n y).trace = 0 := by
  by_cases hxy : y = x
  · rw [hxy, Matrix.mul_assoc, al_square, Matrix.mul_zero, trace_zero]
  obtain ⟨v, hv⟩ := pair_diag x
  set m := al n (fl x) * al n x with hm
  have h1 : al n x * m = al n x := by
    rw [hm, ← Matrix.mul_assoc, eq_sub_of_add_eq (al_pair x), Matrix.sub_mul, one_mul, Matrix.mul_assoc, al_square,
      Matrix.mul_zero, sub_zero]
  have h2 : m * al n x = 0 := by rw [hm, Matrix.mul_assoc, al_square, Matrix.mul_zero]
  have a1 : al n x * al n y = -(al n y * al n x) := by
    rw [eq_neg_iff_add_eq_zero, al_anticomm, swapS_apply, if_neg h, zero_smul]
  have a2 : al n (fl x) * al n y = -(al n y * al n (fl x)) := by
    rw [eq_neg_iff_add_eq_zero, al_anticomm, swapS_apply, if_neg (by rw [fl_fl]; exact hxy), zero_smul]
  have h3 : m * al n y = al n y * m := by
    rw [hm, Matrix.mul_assoc, a1, Matrix.mul_neg, ← Matrix.mul_assoc, a2, Matrix.neg_mul, neg_neg, Matrix.mul_assoc]
  have h4 : m * dgl p = dgl p * m := by
    rw [hv, dgl, diagonal_mul_diagonal, diagonal_mul_diagonal]
    congr 1; funext i; ring
  calc (dgl p * al n x * al n y).trace = (dgl p * (al n x * m) * al n y).trace := by rw [h1]
    _ = (dgl p * al n x * al n y * m).trace := by
      rw [← Matrix.mul_assoc, Matrix.mul_assoc _ m, h3, ← Matrix.mul_assoc]
    _ = (m * dgl p * (al n x * al n y)).trace := by rw [trace_mul_comm, Matrix.mul_assoc (dgl p), ← Matrix.mul_assoc]
    _ = (dgl p * (m * al n x) * al n y).trace := by rw [h4]; simp only [Matrix.mul_assoc]
    _ = 0 := by rw [h2, Matrix.mul_zero, Matrix.zero_mul, trace_zero]

/-- The probability that a site is filled. -/
def marg (p : Fin (2 ^ n) → ℝ) (i : Fin n) : ℝ :=
  ∑ x : Fin (2 ^ n), if Spec.digit 2 n x i = 1 then p x else 0

theorem number_trace (p : Fin (2 ^ n) → ℝ) (i : Fin n) :
    (dgl p * ((jwLower n i)ᴴ * jwLower n i)).trace = (marg p i : ℂ) := by
  rw [number_diag, dgl, diagonal_mul_diagonal, trace_diagonal, marg]
  push_cast
  refine Finset.sum_congr rfl fun x _ => ?_
  have : ∀ y : Fin 2, (p x : ℂ) * ((y : ℕ) : ℂ) = ((if y = 1 then p x else 0 : ℝ) : ℂ) :=
    Fin.forall_fin_two.2 ⟨by simp, by simp⟩
  exact this _

theorem gam_diag_eq {p p' : Fin (2 ^ n) → ℝ} (h : ∑ x, p x = ∑ x, p' x) (hm : ∀ i, marg p i = marg p' i) :
    gam (al n) (dgl p) = gam (al n) (dgl p') := by
  ext x y
  rw [gam, gam, of_apply, of_apply]
  by_cases hy : y = fl x
  · subst hy
    revert x
    have htr : (dgl p).trace = (dgl p').trace := by
      rw [dgl, dgl, trace_diagonal, trace_diagonal]; exact_mod_cast h
    refine fun x => Fin.addCases (fun i => ?_) (fun i => ?_) x
    · rw [fl_left, al_left, al_right, Matrix.mul_assoc, Matrix.mul_assoc, number_trace, number_trace, hm]
    · have h := al_pair (Fin.natAdd n i)
      rw [fl_right, al_left, al_right] at h
      rw [fl_right, al_left, al_right, Matrix.mul_assoc, Matrix.mul_assoc, eq_sub_of_add_eq h, Matrix.mul_sub, Matrix.mul_sub,
        trace_sub, trace_sub, mul_one, mul_one, number_trace, number_trace, hm, htr]
  · rw [gam_diag_zero p hy, gam_diag_zero p' hy]

theorem sum_digits (f : (Fin n → Fin 2) → ℝ) : ∑ x : Fin (2 ^ n), f (Spec.digit 2 n x) = ∑ b, f b := by
  refine Fintype.sum_bijective (fun x : Fin (2 ^ n) => Spec.digit 2 n x) ?_ _ _ fun _ => rfl
  exact ⟨fun a b h => Fin.ext (digit_inj a.2 b.2 h), fun b => ⟨bIdx b, (eq_bIdx _ _).1 rfl⟩⟩

/-- The distribution with independent sites. -/
noncomputable def indep (q : Fin n → ℝ) (x : Fin (2 ^ n)) : ℝ := ∏ i, if Spec.digit 2 n x i = 1 then q i else 1 - q i

theorem indep_sum (q : Fin n → ℝ) : ∑ x, indep q x = 1 := by
  have h := Finset.prod_univ_sum (fun _ : Fin n => (Finset.univ : Finset (Fin 2)))
    (fun i a => if a = 1 then q i else 1 - q i)
  rw [Fintype.piFinset_univ] at h
  rw [show ∑ x, indep q x = ∑ b : Fin n → Fin 2, ∏ i, (if b i = 1 then q i else 1 - q i) from
    sum_digits fun b => ∏ i, if b i = 1 then q i else 1 - q i, ← h]
  refine Finset.prod_eq_one fun i _ => ?_
  rw [Fin.sum_univ_two, if_neg (by decide), if_pos rfl, sub_add_cancel]

theorem indep_marg (q : Fin n → ℝ) (i : Fin n) : marg (indep q) i = q i := by
  have h := product_kms (q := q) (p := indep q) (fun _ => rfl) i
  have h1 := congrArg (fun M => (M * (jwLower n i)ᴴ).trace) h
  simp only [Matrix.smul_mul, trace_smul, smul_eq_mul] at h1
  change _ * (dgl (indep q) * jwLower n i * (jwLower n i)ᴴ).trace = _ * (jwLower n i * dgl (indep q) * (jwLower n i)ᴴ).trace at h1
  have h2 : (jwLower n i * dgl (indep q) * (jwLower n i)ᴴ).trace = (marg (indep q) i : ℂ) := by
    rw [← number_trace, Matrix.mul_assoc, trace_mul_comm, Matrix.mul_assoc]
  have h3 : (dgl (indep q) * jwLower n i * (jwLower n i)ᴴ).trace = ((1 - marg (indep q) i : ℝ) : ℂ) := by
    have := car_mixed i i
    rw [if_pos rfl] at this
    rw [Matrix.mul_assoc, eq_sub_of_add_eq this, Matrix.mul_sub, mul_one, trace_sub, number_trace, dgl, trace_diagonal]
    push_cast
    rw [← Complex.ofReal_sum, indep_sum, Complex.ofReal_one]
  rw [h2, h3] at h1
  have h4 : q i * (1 - marg (indep q) i) = (1 - q i) * marg (indep q) i := by exact_mod_cast h1
  linarith

/-- A rotated distribution obeys Wick's theorem only if its sites are independent. -/
theorem wick_indep {p : Fin (2 ^ n) → ℝ} (hs : ∑ x, p x = 1) {R : Op (n + n)} (hR : R.IsHermitian) {W : Op (2 ^ n)}
    (hW : W = expm ((-Complex.I) • Spec.quad R (al n))) (h : Spec.ObeysWick (al n) (W * dgl p * Wᴴ))
    (h' : Spec.ObeysWick (al n) (W * dgl (indep (marg p)) * Wᴴ)) : p = indep (marg p) := by
  have hW1 : W = expm ((-Complex.I * (1 : ℝ)) • Spec.quad R (al n)) := by rw [hW]; simp
  have hU : W * Wᴴ = 1 := hW ▸ expm_unitary (skewHerm_I (quad_herm hR (al n)))
  have hU' : Wᴴ * W = 1 := mul_eq_one_comm.1 hU
  have hg : gam (al n) (dgl p) = gam (al n) (dgl (indep (marg p))) :=
    gam_diag_eq (by rw [hs, indep_sum]) fun i => (indep_marg _ i).symm
  have he := wick_unique h h' (by rw [evolve_G hR 1 _ hW1, evolve_G hR 1 _ hW1, hg])
  have hd : dgl p = dgl (indep (marg p)) := by
    have key : ∀ D : Op (2 ^ n), Wᴴ * (W * D * Wᴴ) * W = D := fun D => by
      calc Wᴴ * (W * D * Wᴴ) * W = (Wᴴ * W) * D * (Wᴴ * W) := by simp only [Matrix.mul_assoc]
        _ = D := by rw [hU', one_mul, mul_one]
    rw [← key (dgl p), he, key]
  funext x
  have := congrFun (congrFun hd x) x
  rw [dgl, dgl, diagonal_apply_eq, diagonal_apply_eq] at this
  exact_mod_cast this

end FF
