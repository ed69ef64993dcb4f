import Verif.Proofs.Eigen2
import Verif.Proofs.DirectSum
import Mathlib.Algebra.Polynomial.Expand
import Mathlib.Order.Fin.Basic
import Mathlib.Data.Multiset.Sort

/-! # Helper lemmas for the eigensolvers, part 3 -/

namespace FF

open Matrix
open scoped ComplexConjugate

/-- What `eigh_sp` computes, as one orthogonal matrix `O` and one skew-symmetric array `R` in blocks. -/
theorem eighSp_ok {n : ℕ} (schur : RMat (n + n) → RMat (n + n) × RMat (n + n))
    (argsort : (Fin n → ℝ) → Fin n → ℕ) {H : Op (n + n)} (hH : H.IsHermitian)
    (hP : swapS n * Hᵀ * swapS n = -H)
    (hschur : ∀ M : RMat (n + n), Complex.I • buildOmega n * H * (buildOmega n)ᴴ = toC M →
      Spec.IsSortedSchur 1e-10 M (schur M).1 (schur M).2)
    (hsort : ∀ v, Spec.IsArgsort v (argsort v)) :
    ∃ (M O R : RMat (n + n)) (σ : Fin (n + n) → Fin (n + n)), Mᵀ = -M ∧
      Complex.I • buildOmega n * H * (buildOmega n)ᴴ = toC M ∧
      eighSp schur argsort H = .ok (eighFinish H O) ∧ O * Oᵀ = 1 ∧ O * R * Oᵀ = M ∧ Rᵀ = -R ∧
      (∀ x y : Fin (n + n), (x : ℕ) / 2 ≠ (y : ℕ) / 2 → |R x y| ≤ 1e-10) ∧
      (∀ x y, R x y = (schur M).1 (σ x) (σ y)) ∧
      (¬ allclose (blk22 H) 0 → ∃ (pA pL : Fin n → Fin n), Function.Injective pA ∧ Function.Injective pL ∧
        (∀ i, (pA i : ℕ) = argsort (fun i => |eigvalsh (blk22 H) i|) i) ∧
        (∀ i, (pL i : ℕ) = argsort (fun i => |(schur M).1 ⟨2 * i, by omega⟩ ⟨2 * i + 1, by omega⟩|) i) ∧
        ∀ i : Fin n, R ⟨2 * i, by omega⟩ ⟨2 * i + 1, by omega⟩ = open Classical in
          if npSign ((schur M).1 ⟨2 * (pL (pA i)), by omega⟩ ⟨2 * (pL (pA i)) + 1, by omega⟩) =
            npSign (eigvalsh (blk22 H) i)
          then - (schur M).1 ⟨2 * (pL (pA i)), by omega⟩ ⟨2 * (pL (pA i)) + 1, by omega⟩
          else (schur M).1 ⟨2 * (pL (pA i)), by omega⟩ ⟨2 * (pL (pA i)) + 1, by omega⟩) := by
  classical
  obtain ⟨M, hM, hih⟩ := ih_facts hH hP
  have hS := hschur M hih
  set T := (schur M).1 with hT
  set Z := (schur M).2 with hZ
  have hTs : Tᵀ = -T := schur_skew hS.toIsRealSchur hM
  have hTal : ∀ x y : Fin (n + n), (x : ℕ) / 2 ≠ (y : ℕ) / 2 → |T x y| ≤ 1e-10 := fun x y h =>
    schur_aligned (by norm_num) hS hM x y h
  have hTal' : ∀ x y : Fin (n + n), (x : ℕ) / 2 ≠ (y : ℕ) / 2 → |T x y| ≤ 1e-8 := fun x y h =>
    (hTal x y h).trans (by norm_num)
  have hZT : Zᵀ * M * Z = T := by
    have h1 : Zᵀ * Z = 1 := mul_eq_one_comm.1 hS.orth
    rw [← hS.decomp]
    calc Zᵀ * (Z * T * Zᵀ) * Z = (Zᵀ * Z) * T * (Zᵀ * Z) := by simp only [mul_assoc]
      _ = T := by rw [h1, one_mul, mul_one]
  have a1 : allclose 0 (toC M + (toC M)ᵀ) := allclose_of_eq (by
    rw [toC_transpose, hM, toC_neg, add_neg_cancel])
  have a2 : allclose (toC M) (toC (reArr (toC M))) := allclose_of_eq (by rw [reArr_toC])
  have a3 : checkCanonicalForm (toC T) = true := checkCanonical_ok hTs hTal'
  have a4 : allclose (toC (Z * Zᵀ)) 1 := allclose_of_eq (by rw [hS.orth, toC_one])
  have a5 : checkCanonicalForm (toC (Zᵀ * M * Z)) = true := by rw [hZT]; exact a3
  have a6 : allclose (toC Z) (toC (reArr (toC Z))) := allclose_of_eq (by rw [reArr_toC])
  have a7 : allclose (toC (Z * T * Zᵀ)) (toC M) := allclose_of_eq (by rw [hS.decomp])
  have hrun : eighSp schur argsort H = (if allclose (blk22 H) 0 then pure (eighFinish H Z)
      else (sortMatrix argsort T (blk22 H)).bind fun P => pure (eighFinish H (Z * P))) := by
    rw [eighSp]
    simp only [hih, reArr_toC]
    rw [pyAssert_ok a1, pyAssert_ok (by simpa only [reArr_toC] using a2), pyAssert_ok a3, pyAssert_ok a4,
      pyAssert_ok a5, pyAssert_ok (by simpa only [reArr_toC] using a6), pyAssert_ok a7]
    rfl
  by_cases hA : allclose (blk22 H) 0
  · refine ⟨M, Z, T, id, hM, hih, ?_, hS.orth, hS.decomp, hTs, hTal, fun x y => rfl, fun h => absurd hA h⟩
    rw [hrun, if_pos hA]; rfl
  · obtain ⟨pA, pL, hpA, hpL, epA, epL, hQ⟩ := sortMatrix_ok argsort T (blk22 H) (hsort _) (hsort _)
    set f : Fin n → Prop := fun i => npSign (T ⟨2 * (pL (pA i)), by omega⟩ ⟨2 * (pL (pA i)) + 1, by omega⟩) =
            npSign (eigvalsh (blk22 H) i) with hf
    set σ := sortIdx (fun i => pL (pA i)) f with hσ
    set Q : RMat (n + n) := Matrix.of fun x y => if x = σ y then 1 else 0 with hQdef
    have hσi : Function.Injective σ := sortIdx_injective (hpL.comp hpA) f
    have hQQ : Q * Qᵀ = 1 := sortPerm_orth hσi
    have hR : ∀ x y, (Qᵀ * T * Q) x y = T (σ x) (σ y) := sortPerm_conj σ T
    refine ⟨M, Z * Q, Qᵀ * T * Q, σ, hM, hih, ?_, ?_, ?_, ?_, ?_, hR, fun _ =>
      ⟨pA, pL, hpA, hpL, epA, epL, ?_⟩⟩
    · rw [hrun, if_neg hA, hQ]; rfl
    · rw [transpose_mul]
      calc Z * Q * (Qᵀ * Zᵀ) = Z * (Q * Qᵀ) * Zᵀ := by simp only [mul_assoc]
        _ = 1 := by rw [hQQ, mul_one, hS.orth]
    · rw [transpose_mul]
      calc Z * Q * (Qᵀ * T * Q) * (Qᵀ * Zᵀ) = Z * (Q * Qᵀ) * T * (Q * Qᵀ) * Zᵀ := by simp only [mul_assoc]
        _ = M := by rw [hQQ, mul_one, mul_one, hS.decomp]
    · simp only [transpose_mul, transpose_transpose, hTs, Matrix.neg_mul, Matrix.mul_neg, mul_assoc]
    · intro x y hxy
      rw [hR]
      refine hTal _ _ ?_
      rw [hσ, sortIdx_div _ f x ⟨(x : ℕ) / 2, by omega⟩ rfl, sortIdx_div _ f y ⟨(y : ℕ) / 2, by omega⟩ rfl]
      intro h
      have h2 := (hpL.comp hpA) (Fin.ext h : (pL ∘ pA) _ = (pL ∘ pA) _)
      simp only [Fin.mk.injEq] at h2
      exact hxy h2
    · intro i
      rw [hR]
      have e1 := sortIdx_val (fun i => pL (pA i)) f ⟨2 * i, by omega⟩ i (by simp only; omega)
      have e2 := sortIdx_val (fun i => pL (pA i)) f ⟨2 * i + 1, by omega⟩ i (by simp only; omega)
      simp only at e1 e2
      rw [show 2 * (i : ℕ) % 2 = 0 by omega] at e1
      rw [show (2 * (i : ℕ) + 1) % 2 = 1 by omega] at e2
      by_cases hfi : f i
      · rw [if_pos hfi] at e1 e2
        rw [if_pos hfi, skew_apply hTs]
        congr 2
        · exact Fin.ext (by rw [hσ, e2]; simp)
        · exact Fin.ext (by rw [hσ, e1])
      · rw [if_neg hfi] at e1 e2
        rw [if_neg hfi]
        congr 1
        · exact Fin.ext (by rw [hσ, e1]; simp)
        · exact Fin.ext (by rw [hσ, e2])

/-- With a spectral gap the small entries vanish. -/
theorem gap_zero {n : ℕ} {H : Op (n + n)} {M T Z : RMat (n + n)}
    (hih : Complex.I • buildOmega n * H * (buildOmega n)ᴴ = toC M) (hM : Mᵀ = -M)
    (h : Spec.IsRealSchur M T Z)
    (hgap : ∀ (μ : ℂ) (v : Fin (n + n) → ℂ), v ≠ 0 → H.mulVec v = μ • v → μ = 0 ∨ 1e-10 < ‖μ‖)
    (x y : Fin (n + n)) (hxy : |T x y| ≤ 1e-10) : T x y = 0 := by
  by_contra hne
  obtain ⟨v, hv, hMv⟩ := schur_eigen h hM x y hne
  set W := buildOmega n with hW
  have hWW : Wᴴ * W = 1 := omega_unitary n
  have hWW' : W * Wᴴ = 1 := omega_unitary' n
  have hH : H = (-Complex.I) • (Wᴴ * toC M * W) := by
    rw [← hih, Matrix.smul_mul, Matrix.smul_mul, Matrix.mul_smul, Matrix.smul_mul, smul_smul]
    have : Wᴴ * (W * H * Wᴴ) * W = (Wᴴ * W) * H * (Wᴴ * W) := by simp only [mul_assoc]
    rw [this, hWW, one_mul, mul_one]
    simp
  have hHv : H.mulVec (Wᴴ.mulVec v) = (T x y : ℂ) • (Wᴴ.mulVec v) := by
    have e : H * Wᴴ = (-Complex.I) • (Wᴴ * toC M) := by
      rw [hH, Matrix.smul_mul, mul_assoc, hWW', mul_one]
    rw [mulVec_mulVec, e, smul_mulVec, ← mulVec_mulVec, hMv, mulVec_smul, smul_smul]
    congr 1
    linear_combination (-(T x y : ℂ)) * Complex.I_sq
  have hv' : Wᴴ.mulVec v ≠ 0 := by
    intro h0
    have : W.mulVec (Wᴴ.mulVec v) = v := by rw [mulVec_mulVec, hWW', one_mulVec]
    rw [h0, mulVec_zero] at this
    exact hv this.symm
  rcases hgap _ _ hv' hHv with h1 | h1
  · exact hne (by exact_mod_cast h1)
  · rw [Complex.norm_real, Real.norm_eq_abs] at h1
    linarith

/-! ## sorted spectra -/

/-- Two ascending tuples with the same entries agree. -/
theorem mono_unique {n : ℕ} {a b : Fin n → ℝ} (ha : Monotone a) (hb : Monotone b)
    (h : Finset.univ.val.map a = Finset.univ.val.map b) : a = b := by
  have h1 : (List.ofFn a).Perm (List.ofFn b) := by
    rw [← Multiset.coe_eq_coe]
    have e : ∀ f : Fin n → ℝ, Finset.univ.val.map f = (List.ofFn f : Multiset ℝ) := fun f => by
      rw [List.ofFn_eq_map]
      rfl
    rw [← e, ← e, h]
  have h2 := List.Perm.eq_of_pairwise (le := fun x y : ℝ => x ≤ y) (fun x y _ _ hxy hyx => le_antisymm hxy hyx)
    (List.pairwise_ofFn.2 fun i j hij => ha hij.le) (List.pairwise_ofFn.2 fun i j hij => hb hij.le) h1
  exact List.ofFn_injective h2

theorem eigvalsh_mono {n : ℕ} (A : Op n) : Monotone (eigvalsh A) := by
  intro i j hij
  rw [eigvalsh, eigvalsh]
  refine (lowerHerm_isHermitian A).eigenvalues₀_antitone ?_
  rw [Fin.le_def]
  simp only [Fin.val_cast, Fin.val_rev]
  have := Fin.le_def.1 hij
  omega

theorem eigvalsh_charpoly {n : ℕ} {A : Op n} (hA : A.IsHermitian) :
    A.charpoly = ∏ i, (Polynomial.X - Polynomial.C ((eigvalsh A i : ℝ) : ℂ)) := by
  have h := (lowerHerm_isHermitian A).charpoly_eq
  conv_lhs => rw [← lowerHerm_eq hA]
  rw [h]
  have e : ∀ i : Fin n, eigvalsh A i = (lowerHerm_isHermitian A).eigenvalues
      ((Fintype.equivOfCardEq (Fintype.card_fin _)) (Fin.cast (by simp) i.rev)) := by
    intro i
    rw [IsHermitian.eigenvalues, Equiv.symm_apply_apply]
    rfl
  simp only [e]
  let g : Fin n ≃ Fin n := Fin.revPerm.trans ((finCongr (by simp : n = Fintype.card (Fin n))).trans
    (Fintype.equivOfCardEq (Fintype.card_fin _)))
  exact (Equiv.prod_comp g fun k => (Polynomial.X - Polynomial.C
    (((lowerHerm_isHermitian A).eigenvalues k : ℝ) : ℂ))).symm

theorem roots_prod_fin {n : ℕ} (a : Fin n → ℂ) :
    (∏ i, (Polynomial.X - Polynomial.C (a i))).roots = Finset.univ.val.map a := by
  have : ∏ i, (Polynomial.X - Polynomial.C (a i)) =
      ((Finset.univ.val.map a).map fun z => Polynomial.X - Polynomial.C z).prod := by
    rw [Multiset.map_map]; rfl
  rw [this, Polynomial.roots_multiset_prod_X_sub_C]

/-- Equal characteristic products have equal entries. -/
theorem prod_roots {n : ℕ} {a b : Fin n → ℝ}
    (h : ∏ i, (Polynomial.X - Polynomial.C ((a i : ℝ) : ℂ)) = ∏ i, (Polynomial.X - Polynomial.C ((b i : ℝ) : ℂ))) :
    Finset.univ.val.map a = Finset.univ.val.map b := by
  have h1 := congrArg Polynomial.roots h
  rw [roots_prod_fin, roots_prod_fin] at h1
  have h2 := congrArg (Multiset.map Complex.re) h1
  simp only [Multiset.map_map, Function.comp_def, Complex.ofReal_re] at h2
  exact h2

theorem eigvalsh_unique {n : ℕ} {A : Op n} (hA : A.IsHermitian) {a : Fin n → ℝ} (ha : Monotone a)
    (h : A.charpoly = ∏ i, (Polynomial.X - Polynomial.C ((a i : ℝ) : ℂ))) : eigvalsh A = a :=
  mono_unique (eigvalsh_mono A) ha (prod_roots ((eigvalsh_charpoly hA).symm.trans h))

theorem charpoly_conj {m : ℕ} {U H : Op m} (hU : U * Uᴴ = 1) : (Uᴴ * H * U).charpoly = H.charpoly := by
  rw [charpoly_mul_comm, ← mul_assoc, hU, one_mul]

theorem charpoly_neg_herm {n : ℕ} {A : Op n} (hA : A.IsHermitian) :
    (-A).charpoly = ∏ i, (Polynomial.X - Polynomial.C ((-(eigvalsh A i) : ℝ) : ℂ)) := by
  have h1 : A.charpoly.comp (-Polynomial.X) = (-1) ^ n * (-A).charpoly := by
    rw [charpoly, charpoly]
    have e : ((charmatrix A).det).comp (-Polynomial.X) =
        ((charmatrix A).map (Polynomial.compRingHom (-Polynomial.X : Polynomial ℂ))).det := by
      rw [← RingHom.mapMatrix_apply, ← RingHom.map_det]; rfl
    rw [e]
    have e2 : (charmatrix A).map (Polynomial.compRingHom (-Polynomial.X : Polynomial ℂ)) = - charmatrix (-A) := by
      refine Matrix.ext fun i j => ?_
      rw [map_apply, Matrix.neg_apply, charmatrix_apply, charmatrix_apply, Matrix.neg_apply]
      by_cases hij : i = j
      · subst hij
        simp [Polynomial.coe_compRingHom_apply]; ring
      · simp [Polynomial.coe_compRingHom_apply, hij]
    rw [e2, det_neg, Fintype.card_fin]
  rw [eigvalsh_charpoly hA, Polynomial.prod_comp] at h1
  have h2 : ∏ i, (Polynomial.X - Polynomial.C ((eigvalsh A i : ℝ) : ℂ)).comp (-Polynomial.X) =
      (-1) ^ n * ∏ i, (Polynomial.X - Polynomial.C ((-(eigvalsh A i) : ℝ) : ℂ)) := by
    have : ((-1 : Polynomial ℂ)) ^ n = ∏ _i : Fin n, (-1) := by simp
    rw [this, ← Finset.prod_mul_distrib]
    refine Finset.prod_congr rfl fun i _ => ?_
    simp; ring
  rw [h2] at h1
  have h3 : ((-1 : Polynomial ℂ)) ^ n ≠ 0 := pow_ne_zero _ (by simp)
  exact (mul_left_cancel₀ h3 h1).symm

theorem charpoly_blk_diag {n : ℕ} (A D : Op n) : (blk A 0 0 D).charpoly = A.charpoly * D.charpoly := by
  have : blk A 0 0 D = reindex finSumFinEquiv finSumFinEquiv (fromBlocks A 0 0 D) := rfl
  rw [this, charpoly_reindex, charpoly_fromBlocks_zero₁₂]

theorem prod_pm {n : ℕ} (a : Fin n → ℝ) :
    (∏ i, (Polynomial.X - Polynomial.C ((-(a i) : ℝ) : ℂ))) * ∏ i, (Polynomial.X - Polynomial.C ((a i : ℝ) : ℂ)) =
      Polynomial.expand ℂ 2 (∏ i, (Polynomial.X - Polynomial.C (((a i) ^ 2 : ℝ) : ℂ))) := by
  rw [map_prod, ← Finset.prod_mul_distrib]
  refine Finset.prod_congr rfl fun i _ => ?_
  simp; ring

theorem standardForm_charpoly {n : ℕ} (s : Fin n → ℝ) : (Spec.standardForm s).charpoly =
    Polynomial.expand ℂ 2 (∏ i, (Polynomial.X - Polynomial.C (((s i) ^ 2 : ℝ) : ℂ))) := by
  rw [Spec.standardForm, charpoly_diagonal, Fin.prod_univ_add, ← prod_pm]
  simp only [Fin.append_left, Fin.append_right]

/-- The spectrum found is that of `A` up to signs. -/
theorem spectrum_match {n : ℕ} {A : Op n} (hA : A.IsHermitian) {U : Op (n + n)} (hU : U * Uᴴ = 1)
    {s : Fin n → ℝ} (h : Uᴴ * blk (-(cj A)) 0 0 A * U = Spec.standardForm s) :
    Finset.univ.val.map (fun i => |s i|) = Finset.univ.val.map (fun i => |eigvalsh A i|) := by
  have hcA : -(cj A) = (-A)ᵀ := by
    have : cj A = Aᴴᵀ := by ext; rfl
    rw [this, hA.eq, transpose_neg]
  have h1 := congrArg charpoly h
  rw [charpoly_conj hU, charpoly_blk_diag, hcA, charpoly_transpose, charpoly_neg_herm hA, eigvalsh_charpoly hA, prod_pm,
    standardForm_charpoly] at h1
  have h2 := prod_roots (Polynomial.expand_injective (by norm_num) h1)
  have h3 := congrArg (Multiset.map Real.sqrt) h2
  simp only [Multiset.map_map, Function.comp_def, Real.sqrt_sq_eq_abs] at h3
  exact h3.symm

/-- Sorting by an injective index map keeps the entries. -/
theorem map_inj_perm {n : ℕ} {p : Fin n → Fin n} (hp : Function.Injective p) (a : Fin n → ℝ) :
    Finset.univ.val.map (fun i => a (p i)) = Finset.univ.val.map a := by
  let e : Fin n ≃ Fin n := Equiv.ofBijective p (Finite.injective_iff_bijective.1 hp)
  have : Finset.univ.val.map (fun i => a (p i)) = (Finset.univ.val.map e).map a := by
    rw [Multiset.map_map]; rfl
  rw [this]
  congr 1
  have h := Finset.map_univ_equiv e
  exact congrArg Finset.val h

/-- No eigenvalue of `H` is small but non-zero. -/
def Gap {m : ℕ} (H : Op m) : Prop :=
  ∀ (μ : ℂ) (v : Fin m → ℂ), v ≠ 0 → H.mulVec v = μ • v → μ = 0 ∨ 1e-10 < ‖μ‖

theorem exact_of_gap {n : ℕ} {H : Op (n + n)} {M O R T Z : RMat (n + n)} {σ : Fin (n + n) → Fin (n + n)}
    (hM : Mᵀ = -M) (hih : Complex.I • buildOmega n * H * (buildOmega n)ᴴ = toC M)
    (hS : Spec.IsRealSchur M T Z) (hO : O * Oᵀ = 1) (hR : O * R * Oᵀ = M) (hRs : Rᵀ = -R)
    (hal : ∀ x y : Fin (n + n), (x : ℕ) / 2 ≠ (y : ℕ) / 2 → |R x y| ≤ 1e-10)
    (hσ : ∀ x y, R x y = T (σ x) (σ y)) (hgap : Gap H) :
    (eighFinish H O).1 =
      Spec.standardForm (fun i : Fin n => - R ⟨2 * i, by omega⟩ ⟨2 * i + 1, by omega⟩) := by
  ext x y
  have h0 : ∀ x y : Fin (n + n), (x : ℕ) / 2 ≠ (y : ℕ) / 2 → |R x y| ≤ 0 := by
    intro x y hxy
    have h := hal x y hxy
    rw [hσ] at h ⊢
    rw [gap_zero hih hM hS hgap _ _ h, abs_zero]
  have := finish_form hO hih hR hRs 0 h0 x y le_rfl
  rw [mul_zero, norm_le_zero_iff, sub_eq_zero] at this
  exact this

theorem eigh_main {n : ℕ} (schur : RMat (n + n) → RMat (n + n) × RMat (n + n))
    (argsort : (Fin n → ℝ) → Fin n → ℕ) {H : Op (n + n)} (hH : H.IsHermitian)
    (hP : swapS n * Hᵀ * swapS n = -H)
    (hschur : ∀ M : RMat (n + n), Complex.I • buildOmega n * H * (buildOmega n)ᴴ = toC M →
      Spec.IsSortedSchur 1e-10 M (schur M).1 (schur M).2)
    (hsort : ∀ v, Spec.IsArgsort v (argsort v)) :
    ∃ (L U : Op (n + n)) (s : Fin n → ℝ), eighSp schur argsort H = .ok (L, U) ∧ U * Uᴴ = 1 ∧ IsCanonicalU U ∧
      Uᴴ * H * U = L ∧ (∀ x y, ‖L x y - Spec.standardForm s x y‖ ≤ 2e-10) ∧ (Gap H → L = Spec.standardForm s) := by
  obtain ⟨M, O, R, σ, hM, hih, hrun, hO, hR, hRs, hal, hσ, -⟩ := eighSp_ok schur argsort hH hP hschur hsort
  obtain ⟨d, -, hU, hc, hL, -⟩ := finish_eq hO hih hR
  refine ⟨_, _, _, hrun, hU, hc, hL.symm, fun x y => ?_, fun hgap =>
    exact_of_gap hM hih (hschur M hih).toIsRealSchur hO hR hRs hal hσ hgap⟩
  have := finish_form hO hih hR hRs 1e-10 hal x y (by norm_num)
  refine this.trans (by norm_num)

theorem argsort_unique {n : ℕ} {v : Fin n → ℝ} (hv : Function.Injective v) {p : Fin n → ℕ}
    (hp : Spec.IsArgsort v p) (q : Fin n → Fin n) (hq : Function.Injective q) (hm : Monotone (fun i => v (q i)))
    (i : Fin n) : p i = q i := by
  have hpi : Function.Injective (fun i => (⟨p i, hp.lt i⟩ : Fin n)) := fun i j h => hp.inj (by simpa using h)
  have h := mono_unique (a := fun i => v ⟨p i, hp.lt i⟩) (b := fun i => v (q i))
    (fun i j hij => hp.sorted i j hij) hm ((map_inj_perm hpi v).trans (map_inj_perm hq v).symm)
  have := hv (congrFun h i)
  exact congrArg Fin.val this

theorem argsort_exists {n : ℕ} : ∃ argsort : (Fin n → ℝ) → Fin n → ℕ, ∀ v, Spec.IsArgsort v (argsort v) :=
  ⟨fun v i => Tuple.sort v i, fun v => ⟨fun i => (Tuple.sort v i).2,
    fun i j h => (Tuple.sort v).injective (Fin.ext h), fun i j h => Tuple.monotone_sort v h⟩⟩

/-- `Ω diag(-D, D) Ω†`. -/
theorem omega_diag {n : ℕ} (D : Op n) :
    buildOmega n * blk (-D) 0 0 D * (buildOmega n)ᴴ = Complex.I • blk 0 D (-D) 0 := by
  have h : nu ^ 2 = 1 / 2 := by rw [pow_two, nu_sq]
  rw [omega_dag_eq, buildOmega]
  simp only [blk_mul, blk_smul]
  apply blk_congr <;> ext i j <;>
    simp only [Matrix.smul_mul, Matrix.mul_smul, Matrix.one_mul, Matrix.mul_one, Matrix.smul_apply,
      Matrix.add_apply, Matrix.sub_apply, Matrix.neg_apply, smul_eq_mul, Matrix.mul_zero, Matrix.zero_mul,
      Matrix.zero_apply, Matrix.mul_neg, Matrix.neg_mul] <;>
    ring_nf <;> simp only [h, Complex.I_sq] <;> ring

theorem standardForm_blk {n : ℕ} (s : Fin n → ℝ) : Spec.standardForm s =
    blk (-(diagonal fun i => (s i : ℂ))) 0 0 (diagonal fun i => (s i : ℂ)) := by
  apply ext_halves <;> intro i j <;> simp only [blk_11, blk_12, blk_21, blk_22, Spec.standardForm]
  · by_cases h : i = j
    · subst h; simp only [diagonal_apply_eq, Fin.append_left, Matrix.neg_apply]; simp
    · have : Fin.castAdd n i ≠ Fin.castAdd n j := fun e => h (Fin.castAdd_injective _ _ e)
      rw [diagonal_apply_ne _ this, Matrix.neg_apply, diagonal_apply_ne _ h, neg_zero]
  · rw [diagonal_apply_ne _ (castAdd_ne_natAdd i j)]; rfl
  · rw [diagonal_apply_ne _ (castAdd_ne_natAdd j i).symm]; rfl
  · by_cases h : i = j
    · subst h; simp only [diagonal_apply_eq, Fin.append_right]
    · have : Fin.natAdd n i ≠ Fin.natAdd n j := fun e => h (Fin.natAdd_injective _ _ e)
      rw [diagonal_apply_ne _ this, diagonal_apply_ne _ h]

theorem yForm_blk {n : ℕ} (s : Fin n → ℝ) : Spec.yForm s =
    blk 0 (diagonal fun i => (s i : ℂ)) (-(diagonal fun i => (s i : ℂ))) 0 := by
  apply ext_halves <;> intro i j <;> simp only [blk_11, blk_12, blk_21, blk_22, Spec.yForm, of_apply,
    Fin.addCases_left, Fin.addCases_right, Matrix.zero_apply, Matrix.neg_apply, diagonal_apply]
  split_ifs <;> simp

theorem swap_standardForm {n : ℕ} (s : Fin n → ℝ) : swapS n * Spec.standardForm s = Spec.yForm s := by
  rw [standardForm_blk, yForm_blk, swapS, blk_mul]
  apply blk_congr <;> simp

theorem omega_row_bound {n : ℕ} (E : Op (n + n)) (ε : ℝ) (hE : ∀ x y, ‖E x y‖ ≤ ε) (x y : Fin (n + n)) :
    ‖(buildOmega n * E * (buildOmega n)ᴴ) x y‖ ≤ 2 * ε := by
  have hnu : ‖nu‖ * ‖nu‖ = 1 / 2 := by rw [← norm_mul, nu_sq]; norm_num
  obtain ⟨a, b, c, d, rfl⟩ := exists_blk E
  have ha : ∀ i j, ‖a i j‖ ≤ ε := fun i j => by
    have := hE (Fin.castAdd n i) (Fin.castAdd n j); rwa [blk_11] at this
  have hb : ∀ i j, ‖b i j‖ ≤ ε := fun i j => by
    have := hE (Fin.castAdd n i) (Fin.natAdd n j); rwa [blk_12] at this
  have hc : ∀ i j, ‖c i j‖ ≤ ε := fun i j => by
    have := hE (Fin.natAdd n i) (Fin.castAdd n j); rwa [blk_21] at this
  have hd : ∀ i j, ‖d i j‖ ≤ ε := fun i j => by
    have := hE (Fin.natAdd n i) (Fin.natAdd n j); rwa [blk_22] at this
  have key : ∀ (p q r s e1 e2 e3 e4 : ℂ), ‖p‖ ≤ ε → ‖q‖ ≤ ε → ‖r‖ ≤ ε → ‖s‖ ≤ ε → ‖e1‖ = 1 → ‖e2‖ = 1 →
      ‖e3‖ = 1 → ‖e4‖ = 1 → ‖nu * nu * (e1 * p + e2 * q + e3 * r + e4 * s)‖ ≤ 2 * ε := by
    intro p q r s e1 e2 e3 e4 hp hq hr hs h1 h2 h3 h4
    rw [norm_mul, norm_mul, hnu]
    have : ‖e1 * p + e2 * q + e3 * r + e4 * s‖ ≤ ‖p‖ + ‖q‖ + ‖r‖ + ‖s‖ := by
      refine (norm_add_le _ _).trans (add_le_add ((norm_add_le _ _).trans (add_le_add ((norm_add_le _ _).trans
        (add_le_add ?_ ?_)) ?_)) ?_) <;> rw [norm_mul]
      · rw [h1, one_mul]
      · rw [h2, one_mul]
      · rw [h3, one_mul]
      · rw [h4, one_mul]
    linarith
  rw [omega_dag_eq, buildOmega, blk_mul, blk_mul]
  have n1 : ‖(1 : ℂ)‖ = 1 := norm_one
  have n2 : ‖Complex.I‖ = 1 := Complex.norm_I
  have n3 : ‖-Complex.I‖ = 1 := by rw [norm_neg, n2]
  have n4 : ‖Complex.I * -Complex.I‖ = 1 := by rw [norm_mul, n2, n3, one_mul]
  have n5 : ‖-Complex.I * Complex.I‖ = 1 := by rw [norm_mul, n2, n3, one_mul]
  have n6 : ‖Complex.I * Complex.I‖ = 1 := by rw [norm_mul, n2, one_mul]
  have n7 : ‖-Complex.I * -Complex.I‖ = 1 := by rw [norm_mul, n3, one_mul]
  refine Fin.addCases (fun i => ?_) (fun i => ?_) x <;>
    refine Fin.addCases (fun j => ?_) (fun j => ?_) y <;>
    simp only [blk_11, blk_12, blk_21, blk_22, Matrix.smul_mul, Matrix.mul_smul, Matrix.one_mul, Matrix.mul_one,
      Matrix.smul_apply, Matrix.add_apply, smul_eq_mul]
  · convert key _ _ _ _ 1 1 1 1 (ha i j) (hc i j) (hb i j) (hd i j) n1 n1 n1 n1 using 2; ring
  · convert key _ _ _ _ (-Complex.I) (-Complex.I) Complex.I Complex.I (ha i j) (hc i j) (hb i j) (hd i j) n3 n3 n2 n2
      using 2
    ring
  · convert key _ _ _ _ Complex.I (-Complex.I) Complex.I (-Complex.I) (ha i j) (hc i j) (hb i j) (hd i j) n2 n3 n2 n3
      using 2
    ring
  · convert key _ _ _ _ (Complex.I * -Complex.I) (-Complex.I * -Complex.I) (Complex.I * Complex.I)
      (-Complex.I * Complex.I) (ha i j) (hc i j) (hb i j) (hd i j) n4 n7 n6 n5 using 2
    ring

/-! ## the canonical-form solver -/

/-- Swap the two members of the blocks whose flag is set. -/
noncomputable def blockFlip (f : ℕ → Prop) (y : ℕ) : ℕ :=
  open Classical in 2 * (y / 2) + (if f (y / 2) then 1 - y % 2 else y % 2)

theorem blockFlip_div (f : ℕ → Prop) (y : ℕ) : blockFlip f y / 2 = y / 2 := by
  unfold blockFlip; split_ifs <;> omega

theorem pMat_ok (evs : ℕ → ℝ) (k : ℕ) : ∃ P : RMat (2 * k + 2), pMat evs k = .ok P ∧
    ∀ x y, P x y = open Classical in if (x : ℕ) = blockFlip (fun i => evs i > 0) y then 1 else 0 := by
  classical
  have hblock : ∀ (c : Prop) (x y : Fin 2), (if c then !![0, 1; 1, 0] else 1 : RMat 2) x y =
      if (x : ℕ) = (if c then 1 - (y : ℕ) else y) then 1 else 0 := by
    intro c x y
    by_cases hc : c
    · rw [if_pos hc, if_pos hc]; fin_cases x <;> fin_cases y <;> simp
    · rw [if_neg hc, if_neg hc]; fin_cases x <;> fin_cases y <;> simp
  induction k with
  | zero =>
    refine ⟨_, rfl, fun x y => ?_⟩
    have hy : (y : ℕ) / 2 = 0 := by omega
    have hm : (y : ℕ) % 2 = y := by omega
    have e : blockFlip (fun i => evs i > 0) y = if evs 0 > 0 then 1 - (y : ℕ) else y := by
      rw [blockFlip, hy, hm]
      simp
    rw [e]
    exact hblock (evs 0 > 0) x y
  | succ k ih =>
    obtain ⟨P, hP, hPe⟩ := ih
    refine ⟨dsum P (if evs (k + 1) > 0 then !![0, 1; 1, 0] else 1 : RMat 2), ?_, ?_⟩
    · rw [pMat, hP]
      simp only [bind, Except.bind]
      rw [show (if evs (k + 1) > 0 then !![0, 1; 1, 0] else 1 : RMat 2) =
        (if evs (k + 1) > 0 then !![0, 1; 1, 0] else 1 : RMat 2) from rfl, kronPlus_ok]
    · intro x y
      have key : ∀ x y : Fin (2 * k + 2 + 2), dsum P (if evs (k + 1) > 0 then !![0, 1; 1, 0] else 1 : RMat 2) x y =
          if (x : ℕ) = blockFlip (fun i => evs i > 0) y then 1 else 0 := by
        intro x y
        refine Fin.addCases (fun i => ?_) (fun i => ?_) x <;> refine Fin.addCases (fun j => ?_) (fun j => ?_) y
        · simp only [dsum, reindex_apply, submatrix_apply, finSumFinEquiv_symm_apply_castAdd, fromBlocks_apply₁₁, hPe,
            Fin.val_castAdd]
        · simp only [dsum, reindex_apply, submatrix_apply, finSumFinEquiv_symm_apply_castAdd,
            finSumFinEquiv_symm_apply_natAdd, fromBlocks_apply₁₂, Fin.val_castAdd, Fin.val_natAdd, Matrix.zero_apply]
          rw [if_neg]
          have := blockFlip_div (fun i => evs i > 0) (2 * k + 2 + j)
          omega
        · simp only [dsum, reindex_apply, submatrix_apply, finSumFinEquiv_symm_apply_castAdd,
            finSumFinEquiv_symm_apply_natAdd, fromBlocks_apply₂₁, Fin.val_castAdd, Fin.val_natAdd, Matrix.zero_apply]
          rw [if_neg]
          have := blockFlip_div (fun i => evs i > 0) j
          omega
        · simp only [dsum, reindex_apply, submatrix_apply, finSumFinEquiv_symm_apply_natAdd, fromBlocks_apply₂₂,
            Fin.val_natAdd]
          rw [hblock]
          refine if_congr ?_ rfl rfl
          have h1 : (2 * k + 2 + (j : ℕ)) / 2 = k + 1 := by omega
          have h2 : (2 * k + 2 + (j : ℕ)) % 2 = j := by omega
          rw [blockFlip, h1, h2]
          split_ifs <;> omega
      exact key x y

theorem eigmSpCan_ok {n : ℕ} (schur : RMat (n + n) → RMat (n + n) × RMat (n + n))
    (argsort : (Fin n → ℝ) → Fin n → ℕ) {G : Op (n + n)} {M : RMat (n + n)} (hM : Mᵀ = -M)
    (hG : Complex.I • G = toC M) (hschur : Spec.IsRealSchur M (schur M).1 (schur M).2)
    (hsort : ∀ v, Spec.IsArgsort v (argsort v)) :
    ∃ (O : RMat (n + n)) (φ : Fin (n + n) → Fin (n + n)), Function.Injective φ ∧
      (∀ x, (φ x : ℕ) / 2 = (x : ℕ) / 2) ∧ O * Oᵀ = 1 ∧
      eigmSpCan schur argsort G = .ok ((toC O)ᵀ * G * toC O, O) ∧
      (toC O)ᵀ * G * toC O = (-Complex.I) • toC (Matrix.of fun x y => (schur M).1 (φ x) (φ y)) := by
  classical
  have hGM : G = (-Complex.I) • toC M := by
    rw [← hG, smul_smul]; simp
  have him : imArr G = -M := by
    ext i j
    rw [hGM]
    simp [imArr, toC]
  have a1 : allclose G (Complex.I • toC (imArr G)) := allclose_of_eq (by
    rw [him, toC_neg, hGM, smul_neg, neg_smul])
  have hiG : - imArr G = M := by rw [him, neg_neg]
  set T := (schur M).1 with hT
  set Z := (schur M).2 with hZ
  have hZT : Zᵀ * M * Z = T := by
    have h1 : Zᵀ * Z = 1 := mul_eq_one_comm.1 hschur.orth
    rw [← hschur.decomp]
    calc Zᵀ * (Z * T * Zᵀ) * Z = (Zᵀ * Z) * T * (Zᵀ * Z) := by simp only [mul_assoc]
      _ = T := by rw [h1, one_mul, mul_one]
  have hform : ∀ O : RMat (n + n), (toC O)ᵀ * G * toC O = (-Complex.I) • toC (Oᵀ * M * O) := by
    intro O
    rw [hGM, Matrix.mul_smul, Matrix.smul_mul, toC_transpose, toC_mul, toC_mul]
  by_cases hA : allclose (blk22 ((buildOmega n)ᴴ * G * buildOmega n)) 0
  · refine ⟨Z, id, Function.injective_id, fun x => rfl, hschur.orth, ?_, ?_⟩
    · rw [eigmSpCan, pyAssert_ok a1]
      simp only [hiG]
      change (if allclose (blk22 ((buildOmega n)ᴴ * G * buildOmega n)) 0 then _ else _) = _
      rw [if_pos hA]; rfl
    · rw [hform, hZT]; rfl
  · have hn : n ≠ 0 := by
      rintro rfl
      exact hA fun i => i.elim0
    set A := blk22 ((buildOmega n)ᴴ * G * buildOmega n) with hAdef
    set p : List ℕ := (List.ofFn (argsort fun i => |eigvalsh A i|)).reverse with hp
    have hplt : ∀ k ∈ p, k < n := by
      intro k hk
      rw [hp, List.mem_reverse, List.mem_ofFn] at hk
      obtain ⟨i, rfl⟩ := hk
      exact (hsort _).lt i
    set evp := p.map (fun k => if h : k < n then eigvalsh A ⟨k, h⟩ else 0) with hevp
    have hmap : p.mapM (fun k => listGet (List.ofFn (eigvalsh A)) k) = .ok evp := by
      refine mapM_ok fun k hk => ?_
      rw [listGet_ofFn _ _ (hplt k hk), dif_pos (hplt k hk)]
    obtain ⟨P, hP, hPe⟩ := pMat_ok (fun k => evp.getD k 0) (n - 1)
    have hsz : 2 * (n - 1) + 2 = n + n := by omega
    set f : ℕ → Prop := fun i => evp.getD i 0 > 0 with hf
    have hlt : ∀ y : Fin (n + n), blockFlip f y < n + n := fun y => by
      have := blockFlip_div f y; omega
    set φ : Fin (n + n) → Fin (n + n) := fun y => ⟨blockFlip f y, hlt y⟩ with hφ
    have hφi : Function.Injective φ := by
      intro x y h
      have h1 : blockFlip f x = blockFlip f y := by simpa [hφ] using h
      have h2 := blockFlip_div f x
      have h3 := blockFlip_div f y
      have h4 : (x : ℕ) / 2 = (y : ℕ) / 2 := by rw [← h2, ← h3, h1]
      rw [blockFlip, blockFlip, h4] at h1
      apply Fin.ext
      split_ifs at h1 <;> omega
    set Q : RMat (n + n) := Matrix.of fun x y => if x = φ y then 1 else 0 with hQ
    have hPQ : P.submatrix (Fin.cast (by omega : n + n = 2 * (n - 1) + 2))
        (Fin.cast (by omega : n + n = 2 * (n - 1) + 2)) = Q := by
      ext x y
      rw [submatrix_apply, hPe, hQ, of_apply]
      refine if_congr ?_ rfl rfl
      rw [Fin.ext_iff]; rfl
    refine ⟨Z * Q, φ, hφi, fun x => blockFlip_div f x, ?_, ?_, ?_⟩
    · rw [transpose_mul]
      have hQQ : Q * Qᵀ = 1 := sortPerm_orth hφi
      calc Z * Q * (Qᵀ * Zᵀ) = Z * (Q * Qᵀ) * Zᵀ := by simp only [mul_assoc]
        _ = 1 := by rw [hQQ, mul_one, hschur.orth]
    · rw [eigmSpCan, pyAssert_ok a1]
      simp only [hiG]
      change (if allclose A 0 then _ else _) = _
      rw [if_neg hA, hmap]
      simp only [bind, Except.bind]
      rw [dif_neg hn, hP]
      simp only [hPQ]
      rfl
    · rw [hform, transpose_mul]
      have : Qᵀ * Zᵀ * M * (Z * Q) = Qᵀ * T * Q := by
        rw [← hZT]; simp only [mul_assoc]
      rw [this]
      congr 2
      ext x y
      exact sortPerm_conj φ T x y

end FF
