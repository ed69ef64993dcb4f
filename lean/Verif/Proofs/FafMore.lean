import Verif.Proofs.Faf
import Verif.Proofs.SreProduct
import Verif.Proofs.Gauss
import Verif.Props.Faf

/-! # Helper lemmas: the Majorana covariance matrix of a product of two states -/

namespace FF

open Matrix
open scoped ComplexOrder

variable {a b n : ℕ}

/-- The Majorana operators of `n` sites. -/
noncomputable def mj (n : ℕ) (j : Fin (n + n)) : Op (2 ^ n) := ∑ i, buildOmega n j i • al n i

theorem mj_left (i : Fin n) : mj n (Fin.castAdd n i) =
    buildOmega n (Fin.castAdd n i) (Fin.castAdd n i) • al n (Fin.castAdd n i) +
      buildOmega n (Fin.castAdd n i) (Fin.natAdd n i) • al n (Fin.natAdd n i) := by
  simp only [mj, Fin.sum_univ_add, buildOmega, blk_11, blk_12, Matrix.smul_apply, one_apply,
      smul_eq_mul, mul_ite, mul_one, mul_zero, ite_smul, zero_smul, Finset.sum_ite_eq, Finset.mem_univ, if_true]

theorem mj_right (i : Fin n) : mj n (Fin.natAdd n i) =
    buildOmega n (Fin.natAdd n i) (Fin.castAdd n i) • al n (Fin.castAdd n i) +
      buildOmega n (Fin.natAdd n i) (Fin.natAdd n i) • al n (Fin.natAdd n i) := by
  simp only [mj, Fin.sum_univ_add, buildOmega, blk_21, blk_22, Matrix.smul_apply, one_apply,
      smul_eq_mul, mul_ite, mul_one, mul_zero, ite_smul, zero_smul, Finset.sum_ite_eq, Finset.mem_univ, if_true]

theorem omega_blocks (i : Fin n) (j : Fin a) :
    buildOmega n (Fin.castAdd n i) (Fin.castAdd n i) = buildOmega a (Fin.castAdd a j) (Fin.castAdd a j) ∧
    buildOmega n (Fin.castAdd n i) (Fin.natAdd n i) = buildOmega a (Fin.castAdd a j) (Fin.natAdd a j) ∧
    buildOmega n (Fin.natAdd n i) (Fin.castAdd n i) = buildOmega a (Fin.natAdd a j) (Fin.castAdd a j) ∧
    buildOmega n (Fin.natAdd n i) (Fin.natAdd n i) = buildOmega a (Fin.natAdd a j) (Fin.natAdd a j) := by
  simp only [buildOmega, blk_11, blk_12, blk_21, blk_22, Matrix.smul_apply, Matrix.neg_apply, one_apply_eq, and_self]

theorem kr_add_left (A B : Op (2 ^ a)) (C : Op (2 ^ b)) : kr (A + B) C = kr A C + kr B C := by
  ext u v
  simp only [kr, Matrix.add_apply, submatrix_apply, kroneckerMap_apply, add_mul]

theorem kr_add_right (A : Op (2 ^ a)) (B C : Op (2 ^ b)) : kr A (B + C) = kr A B + kr A C := by
  ext u v
  simp only [kr, Matrix.add_apply, submatrix_apply, kroneckerMap_apply, mul_add]

theorem kr_smul_left (c : ℂ) (A : Op (2 ^ a)) (C : Op (2 ^ b)) : kr (c • A) C = c • kr A C := by
  ext u v
  simp only [kr, Matrix.smul_apply, submatrix_apply, kroneckerMap_apply, smul_eq_mul, mul_assoc]

theorem kr_smul_right (c : ℂ) (A : Op (2 ^ a)) (C : Op (2 ^ b)) : kr A (c • C) = c • kr A C := by
  ext u v
  simp only [kr, Matrix.smul_apply, submatrix_apply, kroneckerMap_apply, smul_eq_mul]
  ring

theorem mj_first (x : Fin (a + a)) : mj (a + b) (Spec.firstSites a b x) = kr (mj a x) 1 := by
  refine Fin.addCases (fun i => ?_) (fun i => ?_) x
  · obtain ⟨h1, h2, -, -⟩ := omega_blocks (Fin.castAdd b i : Fin (a + b)) i
    have e1 := al_first (b := b) (Fin.castAdd a i)
    have e2 := al_first (b := b) (Fin.natAdd a i)
    simp only [Spec.firstSites, Fin.addCases_left, Fin.addCases_right] at e1 e2 ⊢
    rw [mj_left, mj_left, h1, h2, e1, e2, kr_add_left, kr_smul_left, kr_smul_left]
  · obtain ⟨-, -, h1, h2⟩ := omega_blocks (Fin.castAdd b i : Fin (a + b)) i
    have e1 := al_first (b := b) (Fin.castAdd a i)
    have e2 := al_first (b := b) (Fin.natAdd a i)
    simp only [Spec.firstSites, Fin.addCases_left, Fin.addCases_right] at e1 e2 ⊢
    rw [mj_right, mj_right, h1, h2, e1, e2, kr_add_left, kr_smul_left, kr_smul_left]

theorem mj_last (x : Fin (b + b)) : mj (a + b) (Spec.lastSites a b x) = kr (zAll a) (mj b x) := by
  refine Fin.addCases (fun i => ?_) (fun i => ?_) x
  · obtain ⟨h1, h2, -, -⟩ := omega_blocks (Fin.natAdd a i : Fin (a + b)) i
    have e1 := al_last (a := a) (Fin.castAdd b i)
    have e2 := al_last (a := a) (Fin.natAdd b i)
    simp only [Spec.lastSites, Fin.addCases_left, Fin.addCases_right] at e1 e2 ⊢
    rw [mj_left, mj_left, h1, h2, e1, e2, kr_add_right, kr_smul_right, kr_smul_right]
  · obtain ⟨-, -, h1, h2⟩ := omega_blocks (Fin.natAdd a i : Fin (a + b)) i
    have e1 := al_last (a := a) (Fin.castAdd b i)
    have e2 := al_last (a := a) (Fin.natAdd b i)
    simp only [Spec.lastSites, Fin.addCases_left, Fin.addCases_right] at e1 e2 ⊢
    rw [mj_right, mj_right, h1, h2, e1, e2, kr_add_right, kr_smul_right, kr_smul_right]

theorem mj_of {g : Fin (n + n) → Op (2 ^ n)} (hg : jordanWignerMajoranas n = List.ofFn g) : g = mj n := by
  rw [jordanWignerMajoranas_eq] at hg
  exact (List.ofFn_injective hg).symm

theorem parity_mj (i : Fin (n + n)) : Spec.parity n * mj n i = -(mj n i * Spec.parity n) := by
  simp only [mj, Matrix.mul_sum, Matrix.sum_mul, Matrix.mul_smul, Matrix.smul_mul, parity_al, smul_neg,
    Finset.sum_neg_distrib]

theorem zAll_eq : zAll n = Spec.parity n := (parity_eq n).symm

theorem even_one {ρ : Op (2 ^ n)} (h : Spec.parity n * ρ = ρ * Spec.parity n) (i : Fin (n + n)) :
    (ρ * mj n i).trace = 0 := by
  have h1 : (ρ * mj n i).trace = -(ρ * mj n i).trace := by
    calc _ = (ρ * (Spec.parity n * Spec.parity n) * mj n i).trace := by rw [parity_sq, Matrix.mul_one]
      _ = (Spec.parity n * ρ * (Spec.parity n * mj n i)).trace := by rw [h]; simp only [Matrix.mul_assoc]
      _ = -(Spec.parity n * (ρ * mj n i * Spec.parity n)).trace := by
          rw [parity_mj, Matrix.mul_neg, trace_neg]; simp only [Matrix.mul_assoc]
      _ = -(ρ * mj n i).trace := by
          rw [trace_mul_comm, Matrix.mul_assoc, parity_sq, Matrix.mul_one]
  exact self_eq_neg.1 h1

theorem even_par {ρ : Op (2 ^ n)} (h : Spec.parity n * ρ = ρ * Spec.parity n) (i : Fin (n + n)) :
    (ρ * (mj n i * Spec.parity n)).trace = 0 ∧ (ρ * (Spec.parity n * mj n i)).trace = 0 := by
  have h2 : (ρ * (Spec.parity n * mj n i)).trace = -(ρ * (mj n i * Spec.parity n)).trace := by
    rw [parity_mj, Matrix.mul_neg, trace_neg]
  have h3 : (ρ * (mj n i * Spec.parity n)).trace = (ρ * (Spec.parity n * mj n i)).trace := by
    rw [← Matrix.mul_assoc, trace_mul_comm, ← Matrix.mul_assoc, h, Matrix.mul_assoc]
  have h4 := self_eq_neg.1 (h3.trans h2)
  exact ⟨h4, h3 ▸ h4⟩

/-- The operators of the first and of the last sites. -/
noncomputable def siteEquiv (a b : ℕ) : Fin (a + a) ⊕ Fin (b + b) ≃ Fin ((a + b) + (a + b)) :=
  Equiv.ofBijective (Sum.elim (Spec.firstSites a b) (Spec.lastSites a b)) <| by
    rw [Fintype.bijective_iff_injective_and_card]
    refine ⟨?_, by simp only [Fintype.card_sum, Fintype.card_fin]; ring⟩
    have hf : ∀ x : Fin (a + a), ((Spec.firstSites a b x : Fin _) : ℕ) = if (x : ℕ) < a then (x : ℕ) else x + b := by
      refine Fin.addCases (fun i => ?_) fun i => ?_
      · simp [Spec.firstSites]
      · simp only [Spec.firstSites, Fin.addCases_right, Fin.val_natAdd, Fin.val_castAdd]; rw [if_neg (by omega)]; omega
    have hl : ∀ x : Fin (b + b), ((Spec.lastSites a b x : Fin _) : ℕ) = if (x : ℕ) < b then a + (x : ℕ) else a + a + x := by
      refine Fin.addCases (fun i => ?_) fun i => ?_
      · simp [Spec.lastSites]
      · simp only [Spec.lastSites, Fin.addCases_right, Fin.val_natAdd, Fin.val_castAdd]; rw [if_neg (by omega)]; omega
    rintro (x | x) (y | y) h <;> have h := congrArg Fin.val h <;> simp only [Sum.elim_inl, Sum.elim_inr, hf, hl] at h <;>
      have hx := x.2 <;> have hy := y.2
    · congr 1; apply Fin.ext; split_ifs at h <;> omega
    · exfalso; split_ifs at h <;> omega
    · exfalso; split_ifs at h <;> omega
    · congr 1; apply Fin.ext; split_ifs at h <;> omega

theorem majCov_first {ρ : Op (2 ^ a)} {σ : Op (2 ^ b)} (hσ : σ.trace = 1) (x y : Fin (a + a)) :
    majCov (mj (a + b)) (kr ρ σ) (Spec.firstSites a b x) (Spec.firstSites a b y) = majCov (mj a) ρ x y := by
  simp only [majCov, of_apply, mj_first, kr_mul, Matrix.mul_sub, Matrix.one_mul, trace_sub, kr_trace, Matrix.mul_one, hσ,
    mul_one]

theorem majCov_last {ρ : Op (2 ^ a)} {σ : Op (2 ^ b)} (hρ : ρ.trace = 1) (x y : Fin (b + b)) :
    majCov (mj (a + b)) (kr ρ σ) (Spec.lastSites a b x) (Spec.lastSites a b y) = majCov (mj b) σ x y := by
  simp only [majCov, of_apply, mj_last, kr_mul, Matrix.mul_sub, zAll_sq, trace_sub, kr_trace, Matrix.mul_one, hρ,
    one_mul]

theorem majCov_cross (ρ : Op (2 ^ a)) (σ : Op (2 ^ b)) (x : Fin (a + a)) (y : Fin (b + b)) :
    majCov (mj (a + b)) (kr ρ σ) (Spec.firstSites a b x) (Spec.lastSites a b y) =
      ((-Complex.I) * (((ρ * (mj a x * Spec.parity a)).trace - (ρ * (Spec.parity a * mj a x)).trace) *
        (σ * mj b y).trace)).re := by
  simp only [majCov, of_apply, mj_last, mj_first, kr_mul, Matrix.mul_sub, zAll_eq, trace_sub, kr_trace, Matrix.mul_one,
    Matrix.one_mul, sub_mul]

theorem majCov_blocks {ρ : Op (2 ^ a)} {σ : Op (2 ^ b)} (hρ : ρ.trace = 1) (hσ : σ.trace = 1)
    (he : Spec.parity a * ρ = ρ * Spec.parity a ∨ Spec.parity b * σ = σ * Spec.parity b) :
    majCov (mj (a + b)) (kr ρ σ) =
      (fromBlocks (majCov (mj a) ρ) 0 0 (majCov (mj b) σ)).submatrix (siteEquiv a b).symm (siteEquiv a b).symm := by
  have hc : ∀ x y, majCov (mj (a + b)) (kr ρ σ) (Spec.firstSites a b x) (Spec.lastSites a b y) = 0 := by
    intro x y
    rw [majCov_cross]
    rcases he with h | h
    · rw [(even_par h x).1, (even_par h x).2]; simp
    · rw [even_one h y]; simp
  ext u v
  obtain ⟨u, rfl⟩ := (siteEquiv a b).surjective u
  obtain ⟨v, rfl⟩ := (siteEquiv a b).surjective v
  rw [submatrix_apply, Equiv.symm_apply_apply, Equiv.symm_apply_apply]
  rcases u with x | x <;> rcases v with y | y
  · exact majCov_first hσ x y
  · exact hc x y
  · have h := congrFun (congrFun (majCov_skew (g := mj (a + b)) (ρ := kr ρ σ)) (Spec.firstSites a b y)) (Spec.lastSites a b x)
    rw [transpose_apply, Matrix.neg_apply, hc, neg_zero] at h
    exact h
  · exact majCov_last hρ x y

end FF
