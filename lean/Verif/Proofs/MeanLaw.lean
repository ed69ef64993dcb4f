import Verif.Proofs.FFLaw
import Verif.Spec.MeanLaw
import Verif.Proofs.RotPdf
import Verif.Proofs.MatchgateId
import Mathlib.MeasureTheory.Integral.Bochner.Set

/-! # Proofs: operators that commute with the free-fermion rotations -/

namespace FF

open Matrix MeasureTheory

variable {n : ℕ}

/-! ## site parities -/

/-- `1 - 2 a_j† a_j`. -/
noncomputable def site (j : Fin n) : Op (2 ^ n) := 1 - (2 : ℂ) • (al n (Fin.castAdd n j) * al n (Fin.natAdd n j))

/-- The signs by which `site j` multiplies the creation and annihilation operators. -/
def siteSign (j : Fin n) (k : Fin (n + n)) : ℂ := if k = Fin.castAdd n j ∨ k = Fin.natAdd n j then -1 else 1

theorem site_herm (j : Fin n) : (site j)ᴴ = site j := by
  rw [site, conjTranspose_sub, conjTranspose_one, conjTranspose_smul, conjTranspose_mul, al_conjTranspose, al_conjTranspose, fl_left, fl_right]
  simp

theorem site_fock (j : Fin n) (b : Fin n → Fin 2) : site j *ᵥ Spec.fock b = ((-1 : ℂ) ^ (b j : ℕ)) • Spec.fock b := by
  rw [site, sub_mulVec, one_mulVec, smul_mulVec, ← mulVec_mulVec, al_left, al_right, jwLower_fock]
  rcases Fin.exists_fin_two.1 ⟨b j, rfl⟩ with h | h
  · rw [if_neg (by rw [h]; decide), mulVec_zero, smul_zero, sub_zero, h]; simp
  · rw [if_pos h, mulVec_smul, jwRaise_fock, if_pos (by simp), smul_smul, Function.update_idem, show Function.update b j 1 = b by rw [← h, Function.update_eq_self]]
    have e : (∑ k : Fin n, if k < j then ((Function.update b j 0 k : Fin 2) : ℕ) else 0) = ∑ k : Fin n, if k < j then (b k : ℕ) else 0 := by
      refine Finset.sum_congr rfl fun k _ => ?_
      split_ifs with hk
      · rw [Function.update_of_ne hk.ne]
      · rfl
    rw [e, smul_smul, mul_assoc, ← mul_pow, h]
    simp only [mul_neg, mul_one, neg_neg, one_pow, Fin.val_one, pow_one]
    rw [two_smul, neg_smul, one_smul]; abel

theorem ext_fock {A B : Op (2 ^ n)} (h : ∀ b : Fin n → Fin 2, A *ᵥ Spec.fock b = B *ᵥ Spec.fock b) : A = B := by
  ext x y
  have := congrFun (h (Spec.digit 2 n y)) x
  rw [fock_eq, ← (eq_bIdx y _).2 rfl, mulVec_single_one, mulVec_single_one] at this
  exact this

theorem site_sq (j : Fin n) : site j * site j = 1 := by
  refine ext_fock fun b => ?_
  rw [← mulVec_mulVec, site_fock, mulVec_smul, site_fock, smul_smul, ← mul_pow, one_mulVec]
  simp

theorem site_al (j : Fin n) (k : Fin (n + n)) : site j * al n k * site j = siteSign j k • al n k := by
  have hpair := al_pair (Fin.castAdd n j)
  rw [fl_left] at hpair
  have s1 := al_square (Fin.castAdd n j)
  have s2 := al_square (Fin.natAdd n j)
  have hc : site j * al n k = siteSign j k • (al n k * site j) := by
    by_cases h1 : k = Fin.castAdd n j
    · subst h1
      have e : al n (Fin.castAdd n j) * al n (Fin.natAdd n j) * al n (Fin.castAdd n j) = al n (Fin.castAdd n j) := by
        calc _ = al n (Fin.castAdd n j) * (al n (Fin.castAdd n j) * al n (Fin.natAdd n j) + al n (Fin.natAdd n j) * al n (Fin.castAdd n j)) -
              al n (Fin.castAdd n j) * al n (Fin.castAdd n j) * al n (Fin.natAdd n j) := by noncomm_ring
          _ = _ := by rw [hpair, s1]; simp
      rw [siteSign, if_pos (Or.inl rfl), site, sub_mul, mul_sub, Matrix.smul_mul, Matrix.mul_smul, e, ← mul_assoc, s1, zero_mul, smul_zero, one_mul, mul_one, sub_zero, two_smul]
      simp
    · by_cases h2 : k = Fin.natAdd n j
      · subst h2
        have e : al n (Fin.natAdd n j) * (al n (Fin.castAdd n j) * al n (Fin.natAdd n j)) = al n (Fin.natAdd n j) := by
          calc _ = (al n (Fin.castAdd n j) * al n (Fin.natAdd n j) + al n (Fin.natAdd n j) * al n (Fin.castAdd n j)) * al n (Fin.natAdd n j) -
                al n (Fin.castAdd n j) * (al n (Fin.natAdd n j) * al n (Fin.natAdd n j)) := by noncomm_ring
            _ = _ := by rw [hpair, s2]; simp
        rw [siteSign, if_pos (Or.inr rfl), site, sub_mul, mul_sub, Matrix.smul_mul, Matrix.mul_smul, e, mul_assoc, s2, mul_zero, smul_zero, one_mul, mul_one, sub_zero, two_smul]
        simp
      · have a1 := al_anticomm k (Fin.castAdd n j)
        have a2 := al_anticomm k (Fin.natAdd n j)
        rw [swapS_apply, if_neg (fun h => h2 (by rw [← fl_fl k, ← h, fl_left])), zero_smul] at a1
        rw [swapS_apply, if_neg (fun h => h1 (by rw [← fl_fl k, ← h, fl_right])), zero_smul] at a2
        have e : al n (Fin.castAdd n j) * al n (Fin.natAdd n j) * al n k = al n k * (al n (Fin.castAdd n j) * al n (Fin.natAdd n j)) := by
          calc _ = al n k * (al n (Fin.castAdd n j) * al n (Fin.natAdd n j)) +
                (al n (Fin.castAdd n j) * (al n k * al n (Fin.natAdd n j) + al n (Fin.natAdd n j) * al n k) -
                  (al n k * al n (Fin.castAdd n j) + al n (Fin.castAdd n j) * al n k) * al n (Fin.natAdd n j)) := by noncomm_ring
            _ = _ := by rw [a1, a2]; simp
        rw [siteSign, if_neg (not_or.2 ⟨h1, h2⟩), one_smul, site, sub_mul, mul_sub, Matrix.smul_mul, Matrix.mul_smul, e, one_mul, mul_one]
  rw [hc, Matrix.smul_mul, mul_assoc, site_sq, mul_one]

theorem siteSign_star (j : Fin n) (k : Fin (n + n)) : siteSign j k * star (siteSign j k) = 1 := by
  rw [siteSign]; split_ifs <;> simp

theorem site_performs (j : Fin n) : Performs (site j) (diagonal (siteSign j)) := by
  refine ⟨by rw [site_herm, site_sq], ?_, fun k => ?_⟩
  · rw [diagonal_conjTranspose, diagonal_mul_diagonal, ← diagonal_one]
    congr 1
    funext k
    exact siteSign_star j k
  · rw [site_herm, site_al, Finset.sum_eq_single k]
    · rw [diagonal_apply_eq]
    · intro l _ hl
      rw [diagonal_apply_ne _ hl.symm, zero_smul]
    · simp

theorem siteSign_fl (j : Fin n) (k : Fin (n + n)) : siteSign j (fl k) = siteSign j k := by
  have ha : fl k = Fin.castAdd n j ↔ k = Fin.natAdd n j :=
    ⟨fun h => by rw [← fl_fl k, h, fl_left], fun h => by rw [h, fl_right]⟩
  have hb : fl k = Fin.natAdd n j ↔ k = Fin.castAdd n j :=
    ⟨fun h => by rw [← fl_fl k, h, fl_right], fun h => by rw [h, fl_left]⟩
  simp only [siteSign, ha, hb, or_comm]

theorem site_symp (j : Fin n) : Spec.IsSymplectic (diagonal (siteSign j)) := by
  rw [symp_iff, diagonal_transpose]
  ext a b
  rw [mul_diagonal, diagonal_mul, swapS_apply]
  split_ifs with h
  · rw [h, siteSign_fl, mul_one, siteSign]; split_ifs <;> simp
  · simp

theorem site_det (j : Fin n) : (diagonal (siteSign j)).det = 1 := by
  rw [det_diagonal, ← Finset.prod_subset (Finset.subset_univ {Fin.castAdd n j, Fin.natAdd n j}), Finset.prod_pair (castAdd_ne_natAdd j j)]
  · simp [siteSign]
  · intro x _ hx
    rw [siteSign, if_neg (by simpa using hx)]

theorem maj_toggle (j : Fin n) (b : Fin n → Fin 2) :
    ∃ c : ℂ, c * star c = 1 ∧ maj j *ᵥ Spec.fock b = c • Spec.fock (Spec.toggle b j) := by
  rcases Fin.exists_fin_two.1 ⟨b j, rfl⟩ with h | h
  · rw [toggle_zero h]; exact maj_fock j b h
  · obtain ⟨c, hc, hm⟩ := maj_fock j (Function.update b j 0) (by simp)
    rw [Function.update_idem, show Function.update b j 1 = b by rw [← h, Function.update_eq_self]] at hm
    refine ⟨star c, by rw [star_star, mul_comm]; exact hc, ?_⟩
    rw [toggle_one h]
    have h2 := congrArg (maj j *ᵥ ·) hm
    simp only [mulVec_mulVec, maj_sq, one_mulVec, mulVec_smul] at h2
    rw [h2, smul_smul, mul_comm, hc, one_smul]

/-! ## the commutant -/

/-- The diagonal entry of `M` at the occupations `b`. -/
def dg (M : Op (2 ^ n)) (b : Fin n → Fin 2) : ℂ := M (bIdx b) (bIdx b)

theorem diag_of_sites {M : Op (2 ^ n)} (h : ∀ j : Fin n, site j * M = M * site j) (b : Fin n → Fin 2) :
    M *ᵥ Spec.fock b = dg M b • Spec.fock b := by
  have hz : ∀ b', b' ≠ b → (M *ᵥ Spec.fock b) (bIdx b') = 0 := by
    intro b' hb
    obtain ⟨j, hj⟩ := Function.ne_iff.1 hb
    have h1 := congrArg (fun A => (A *ᵥ Spec.fock b) (bIdx b')) (h j)
    simp only [← mulVec_mulVec, site_fock, mulVec_smul, Pi.smul_apply, smul_eq_mul] at h1
    rw [← inner_fock b' (site j *ᵥ _)] at h1
    have h2 : Spec.inner (Spec.fock b') (site j *ᵥ (M *ᵥ Spec.fock b)) = (-1) ^ (b' j : ℕ) * (M *ᵥ Spec.fock b) (bIdx b') := by
      have := inner_mulVec (site j) (Spec.fock b') (M *ᵥ Spec.fock b)
      rw [site_herm] at this
      rw [← this, site_fock, ← inner_fock b' (M *ᵥ _)]
      simp [Spec.inner, Finset.mul_sum, mul_assoc]
    rw [h2] at h1
    by_contra hne
    have h3 := mul_right_cancel₀ hne h1
    revert h3 hj
    generalize b' j = p
    generalize b j = q
    fin_cases p <;> fin_cases q <;> simp <;> norm_num
  funext x
  obtain ⟨b', rfl⟩ : ∃ b', x = bIdx b' := ⟨_, (eq_bIdx x _).2 rfl⟩
  by_cases hb : b' = b
  · subst hb
    rw [fock_eq, mulVec_single_one, dg]
    simp
  · rw [hz b' hb, fock_eq, Pi.smul_apply, Pi.single_apply, if_neg, smul_zero]
    intro hh
    exact hb (by rw [← (eq_bIdx (bIdx b') b').1 rfl, (eq_bIdx _ _).1 hh])

theorem toggle_twice (b : Fin n → Fin 2) (i : Fin n) : Spec.toggle (Spec.toggle b i) i = b := by
  rw [Spec.toggle, Spec.toggle, Function.update_idem, Function.update_self, sub_sub_cancel, Function.update_eq_self]

theorem dg_toggle {M : Op (2 ^ n)} (h : ∀ j : Fin n, site j * M = M * site j) {i j : Fin n} (hm : maj i * maj j * M = M * (maj i * maj j))
    (b : Fin n → Fin 2) : dg M (Spec.toggle b j) = dg M (Spec.toggle b i) := by
  obtain ⟨c, hc, h1⟩ := maj_toggle j (Spec.toggle b j)
  rw [toggle_twice] at h1
  obtain ⟨c', hc', h2⟩ := maj_toggle i b
  have e := congrArg (· *ᵥ Spec.fock (Spec.toggle b j)) hm
  simp only [← mulVec_mulVec, diag_of_sites h, mulVec_smul, h1, h2, smul_smul] at e
  have e' := congrFun e (bIdx (Spec.toggle b i))
  simp only [fock_eq, Pi.smul_apply, Pi.single_eq_same, smul_eq_mul, mul_one] at e'
  have hcc : c * c' ≠ 0 := fun h0 => by
    rcases mul_eq_zero.1 h0 with rfl | rfl
    · simp at hc
    · simp at hc'
  exact mul_right_cancel₀ hcc (by linear_combination e')

/-- The occupations that fill the sites of `S`. -/
def occOf (S : Finset (Fin n)) : Fin n → Fin 2 := fun i => if i ∈ S then 1 else 0

theorem occOf_insert {S : Finset (Fin n)} {a : Fin n} (h : a ∉ S) : occOf (insert a S) = Spec.toggle (occOf S) a := by
  rw [toggle_zero (by simp [occOf, h])]
  funext i
  by_cases hi : i = a
  · subst hi; simp [occOf]
  · simp [occOf, hi]

theorem occOf_sum (S : Finset (Fin n)) : ∑ i, ((occOf S i : Fin 2) : ℕ) = S.card := by
  have : ∀ i, ((occOf S i : Fin 2) : ℕ) = if i ∈ S then 1 else 0 := fun i => by
    rw [occOf]; split_ifs <;> rfl
  simp [this]

theorem occOf_surj (b : Fin n → Fin 2) : ∃ S, occOf S = b := by
  refine ⟨Finset.univ.filter fun i => b i = 1, ?_⟩
  funext i
  rw [occOf]
  rcases Fin.exists_fin_two.1 ⟨b i, rfl⟩ with h | h <;> simp [h]

/-- An operator that commutes with the site parities and with the products of two Majorana operators is a combination of the identity and the parity. -/
theorem commutant (z : Fin n) {M : Op (2 ^ n)} (h : ∀ j : Fin n, site j * M = M * site j) (hm : ∀ i j : Fin n, i ≠ j → maj i * maj j * M = M * (maj i * maj j)) :
    ∃ a b : ℂ, M = a • 1 + b • Spec.parity n := by
  have ht : ∀ (i : Fin n) b, dg M (Spec.toggle b i) = dg M (Spec.toggle b z) := by
    intro i b
    by_cases hi : z = i
    · rw [hi]
    · exact dg_toggle h (hm z i hi) b
  have key : ∀ S : Finset (Fin n), dg M (occOf S) = (if Even S.card then dg M (occOf ∅) else dg M (Spec.toggle (occOf ∅) z)) ∧
      dg M (Spec.toggle (occOf S) z) = if Even S.card then dg M (Spec.toggle (occOf ∅) z) else dg M (occOf ∅) := by
    intro S
    induction S using Finset.induction_on with
    | empty => simp
    | insert a S ha ih =>
      have e1 : dg M (occOf (insert a S)) = dg M (Spec.toggle (occOf S) z) := by rw [occOf_insert ha, ht]
      have e2 : dg M (Spec.toggle (occOf (insert a S)) z) = dg M (occOf S) := by
        rw [← ht a, occOf_insert ha, toggle_twice]
      rw [e1, e2, ih.1, ih.2, Finset.card_insert_of_notMem ha]
      by_cases he : Even S.card <;> simp [he, Nat.even_add_one]
  refine ⟨(dg M (occOf ∅) + dg M (Spec.toggle (occOf ∅) z)) / 2, (dg M (occOf ∅) - dg M (Spec.toggle (occOf ∅) z)) / 2, ext_fock fun b => ?_⟩
  obtain ⟨S, rfl⟩ := occOf_surj b
  rw [diag_of_sites h, add_mulVec, smul_mulVec, smul_mulVec, one_mulVec, parity_fock, occOf_sum, smul_smul, ← add_smul, (key S).1]
  congr 1
  split_ifs with he
  · rw [he.neg_one_pow]; ring
  · rw [(Nat.not_even_iff_odd.1 he).neg_one_pow]; ring

theorem trace_fock (A : Op (2 ^ n)) : A.trace = ∑ b : Fin n → Fin 2, dg A b := (sum_occ fun x => A x x).symm

theorem parity_trace (z : Fin n) : (Spec.parity n).trace = 0 := by
  have h1 : maj z * Spec.parity n * maj z = -Spec.parity n := by
    have : Spec.parity n * maj z = -(maj z * Spec.parity n) := by
      rw [maj, mul_add, add_mul, parity_al, parity_al]; abel
    rw [mul_assoc, this, mul_neg, ← mul_assoc, maj_sq, one_mul]
  have h2 := congrArg trace h1
  rw [trace_mul_comm, ← mul_assoc, maj_sq, one_mul, trace_neg] at h2
  exact CharZero.eq_neg_self_iff.1 h2

/-! ## means -/

section
variable {d : ℕ} {ν : Measure (Op d)}

/-- The matrix of the means of the entries. -/
noncomputable def meanOf (ν : Measure (Op d)) : Op d := Matrix.of fun i j => ∫ ρ, ρ i j ∂ν

theorem entry_measurable (i j : Fin d) : Measurable fun ρ : Op d => ρ i j := (measurable_pi_apply j).comp (measurable_pi_apply i)

theorem integrable_entry [IsProbabilityMeasure ν] (h : ∀ᵐ ρ ∂ν, ∀ i j, ‖ρ i j‖ ≤ 1) (i j : Fin d) : Integrable (fun ρ : Op d => ρ i j) ν :=
  Integrable.of_bound (entry_measurable i j).aestronglyMeasurable 1 (h.mono fun _ h => h i j)

theorem hasMean_iff {M : Op d} (h : ∀ i j, Integrable (fun ρ : Op d => ρ i j) ν) : Spec.HasMean ν M ↔ meanOf ν = M :=
  ⟨fun hM => Matrix.ext hM.mean, fun e => ⟨h, fun i j => by rw [← e]; rfl⟩⟩

theorem integrable_trace (h : ∀ i j, Integrable (fun ρ : Op d => ρ i j) ν) (A : Op d) : Integrable (fun ρ : Op d => (ρ * A).trace) ν := by
  simp only [trace, diag_apply, mul_apply]
  exact integrable_finset_sum _ fun i _ => integrable_finset_sum _ fun j _ => (h i j).mul_const _

theorem mean_trace (h : ∀ i j, Integrable (fun ρ : Op d => ρ i j) ν) (A : Op d) : ∫ ρ, (ρ * A).trace ∂ν = (meanOf ν * A).trace := by
  simp only [trace, diag_apply, mul_apply]
  rw [integral_finset_sum _ fun i _ => integrable_finset_sum _ fun j _ => (h i j).mul_const _]
  refine Finset.sum_congr rfl fun i _ => ?_
  rw [integral_finset_sum _ fun j _ => (h i j).mul_const _]
  exact Finset.sum_congr rfl fun j _ => integral_mul_const _ _

theorem trace_single (A : Op d) (i j : Fin d) : (A * Matrix.single j i (1 : ℂ)).trace = A i j := by
  rw [trace_mul_single]
  simp

theorem mean_conj (h : ∀ i j, Integrable (fun ρ : Op d => ρ i j) ν) {V : Op d} (hV : ν.map (fun ρ => V * ρ * Vᴴ) = ν) :
    V * meanOf ν * Vᴴ = meanOf ν := by
  have hm : Measurable fun ρ : Op d => V * ρ * Vᴴ := ((continuous_const.matrix_mul continuous_id).matrix_mul continuous_const).measurable
  ext i j
  have h1 : meanOf ν i j = ∫ ρ, (V * ρ * Vᴴ) i j ∂ν := by
    have : ∫ ρ, ρ i j ∂(ν.map fun ρ => V * ρ * Vᴴ) = ∫ ρ, (V * ρ * Vᴴ) i j ∂ν :=
      integral_map hm.aemeasurable (entry_measurable i j).aestronglyMeasurable
    rw [hV] at this
    exact this
  have h2 : ∀ A : Op d, (V * A * Vᴴ) i j = (A * (Vᴴ * Matrix.single j i (1 : ℂ) * V)).trace := by
    intro A
    rw [← trace_single (V * A * Vᴴ), mul_assoc, mul_assoc, trace_mul_comm]
    simp only [mul_assoc]
  rw [h1, h2]
  simp only [h2]
  rw [mean_trace h]

theorem mean_commutes (h : ∀ i j, Integrable (fun ρ : Op d => ρ i j) ν) {V : Op d} (hu : Vᴴ * V = 1) (hV : ν.map (fun ρ => V * ρ * Vᴴ) = ν) :
    V * meanOf ν = meanOf ν * V := by
  conv_rhs => rw [← mean_conj h hV, mul_assoc, hu, mul_one]

end

end FF
