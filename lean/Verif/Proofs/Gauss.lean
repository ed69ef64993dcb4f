import Verif.Proofs.Wick

/-! # Helper lemmas: the Gaussian states of the code -/

namespace FF

open Matrix
open scoped ComplexOrder

variable {n : ℕ}

/-- The coefficients of the commutator with a quadratic form. -/
noncomputable def adM (R : Op (n + n)) : Op (n + n) := R - swapS n * Rᵀ * swapS n

theorem adM_herm {R : Op (n + n)} (hR : R.IsHermitian) : (adM R).IsHermitian := by
  have h1 : (Rᵀ)ᴴ = Rᵀ := by
    ext i j
    simpa using congrFun (congrFun hR.eq j) i
  rw [IsHermitian, adM, conjTranspose_sub, conjTranspose_mul, conjTranspose_mul, swapS_conjTranspose, h1, hR.eq,
    Matrix.mul_assoc]

theorem adM_ph {R : Op (n + n)} (h : swapS n * Rᵀ * swapS n = -R) : adM R = (2 : ℂ) • R := by
  rw [adM, h, sub_neg_eq_add, two_smul]

/-- The Heisenberg picture of the exponential of a quadratic form. -/
theorem heis_quad (R : Op (n + n)) (z : ℂ) (k : Fin (n + n)) :
    al n k * expm (z • Spec.quad R (al n)) =
      expm (z • Spec.quad R (al n)) * ∑ l, expm (z • adM R) k l • al n l := by
  refine heisenberg _ _ (al n) (fun k => ?_) k
  have h1 : Spec.quad R (al n) * al n k - al n k * Spec.quad R (al n) = _ := lift_comm R k
  have h2 := congrArg (fun X => z • X) h1
  simp only [Finset.smul_sum, smul_smul, smul_sub] at h2
  have h3 : ∑ l, (z • adM R) k l • al n l = - ∑ l, (z * (swapS n * Rᵀ * swapS n - R) k l) • al n l := by
    rw [← Finset.sum_neg_distrib]
    refine Finset.sum_congr rfl fun l _ => ?_
    rw [← neg_smul]
    congr 1
    simp only [adM, Matrix.smul_apply, Matrix.sub_apply, smul_eq_mul]
    ring
  rw [h3, ← h2, Matrix.mul_smul, Matrix.smul_mul]
  module

theorem parity_sq (n : ℕ) : Spec.parity n * Spec.parity n = 1 := by
  rw [Spec.parity, Matrix.diagonal_mul_diagonal, ← Matrix.diagonal_one]
  congr 1
  funext x
  rw [← mul_pow]; simp

theorem quad_parity (R : Op (n + n)) (z : ℂ) :
    Spec.parity n * expm (z • Spec.quad R (al n)) = expm (z • Spec.quad R (al n)) * Spec.parity n := by
  symm
  apply expm_comm
  rw [Matrix.smul_mul, Matrix.mul_smul, quad_commute R (al n) (Spec.parity n) parity_al
    (fun i => by rw [al_conjTranspose]; exact parity_al _)]

/-- The equation of the thermal states. -/
theorem thermal_kms (R : Op (n + n)) (c z : ℂ) (k : Fin (n + n)) :
    ∑ l, expm (z • adM R) k l • (c • expm (z • Spec.quad R (al n)) * al n l) =
      al n k * (c • expm (z • Spec.quad R (al n))) := by
  rw [Matrix.mul_smul, heis_quad, Matrix.mul_sum, Finset.smul_sum]
  refine Finset.sum_congr rfl fun l _ => ?_
  rw [Matrix.smul_mul, Matrix.mul_smul, smul_comm]

theorem unit_one_add {m : ℕ} {K : Op m} (hK : K.IsHermitian) : IsUnit (expm K + 1) :=
  ((expm_posDef hK).add PosDef.one).isUnit

theorem gauss_thermal {R : Op (n + n)} (hR : R.IsHermitian) (c : ℂ) (β : ℝ) :
    IsGauss (al n) (c • expm ((-(β : ℂ)) • Spec.quad R (al n))) := by
  refine ⟨expm ((-(β : ℂ)) • adM R), 1, unit_one_add ?_, fun k => ?_, .inr ⟨Spec.parity n, parity_sq n, parity_al, ?_⟩⟩
  · rw [IsHermitian, conjTranspose_smul, (adM_herm hR).eq]
    congr 1
    simp
  · rw [thermal_kms]
    simp [one_apply]
  · rw [Matrix.mul_smul, quad_parity, Matrix.smul_mul]

/-- States in which each of the modes is filled or empty. -/
def HasModes (ρ : Op (2 ^ n)) : Prop := ∃ (E E' : Op (n + n)) (p : Fin (n + n) → Bool), E * E' = 1 ∧
    ∀ k, if p k then ρ * (∑ l, E k l • al n l) = 0 else (∑ l, E k l • al n l) * ρ = 0

theorem HasModes.gauss {ρ : Op (2 ^ n)} (hm : HasModes ρ) : IsGauss (al n) ρ := by
  obtain ⟨E, E', p, h, hp⟩ := hm
  have h' : E' * E = 1 := mul_eq_one_comm.1 h
  refine ⟨Matrix.of fun k l => if p k then E k l else 0, Matrix.of fun k l => if p k then 0 else E k l, ?_, fun k => ?_,
    .inl ?_⟩
  · have : (Matrix.of fun k l => if p k then E k l else 0) + (Matrix.of fun k l => if p k then 0 else E k l) = E := by
      ext k l
      simp only [Matrix.add_apply, of_apply]
      split_ifs <;> simp
    rw [this]
    exact ⟨⟨E, E', h, h'⟩, rfl⟩
  · have := hp k
    simp only [of_apply]
    cases hpk : p k with
    | true =>
      simp only [hpk, if_true, Matrix.mul_sum, Matrix.mul_smul] at this
      simp [this]
    | false =>
      simp only [hpk, Bool.false_eq_true, if_false, Matrix.sum_mul, Matrix.smul_mul] at this
      simp [this]
  · have : (Matrix.of fun k l => if p k then E k l else 0) - (Matrix.of fun k l => if p k then 0 else E k l) =
        diagonal (fun k => if p k then 1 else -1) * E := by
      ext k l
      simp only [Matrix.sub_apply, of_apply, diagonal_mul]
      split_ifs <;> simp
    rw [this]
    refine IsUnit.mul ?_ ⟨⟨E, E', h, h'⟩, rfl⟩
    have hd : diagonal (fun k => if p k then (1 : ℂ) else -1) * diagonal (fun k => if p k then (1 : ℂ) else -1) = 1 := by
      rw [diagonal_mul_diagonal, ← diagonal_one]
      congr 1
      funext k
      split_ifs <;> norm_num
    exact ⟨⟨_, _, hd, hd⟩, rfl⟩

theorem mul_proj_zero {d : ℕ} {M : Op d} {ψ : Fin d → ℂ} (h : M *ᵥ ψ = 0) : M * Spec.proj ψ = 0 := by
  ext i j
  have h1 := congrFun h i
  simp only [mulVec, dotProduct, Pi.zero_apply] at h1
  simp only [mul_apply, Spec.proj, of_apply, ← mul_assoc, ← Finset.sum_mul, h1, zero_mul, Matrix.zero_apply]

theorem proj_herm {d : ℕ} (ψ : Fin d → ℂ) : (Spec.proj ψ)ᴴ = Spec.proj ψ := by
  ext i j; simp [Spec.proj, mul_comm]

theorem proj_mul_zero {d : ℕ} {M : Op d} {ψ : Fin d → ℂ} (h : Mᴴ *ᵥ ψ = 0) : Spec.proj ψ * M = 0 := by
  have := congrArg conjTranspose (mul_proj_zero h)
  rwa [conjTranspose_mul, conjTranspose_conjTranspose, proj_herm, conjTranspose_zero] at this

/-- Rotated computational basis states. -/
theorem modes_pure {R : Op (n + n)} (hR : R.IsHermitian) (b : Fin n → Fin 2) :
    HasModes (Spec.proj (expm ((-Complex.I) • Spec.quad R (al n)) *ᵥ Spec.fock b)) := by
  set Q := Spec.quad R (al n) with hQ
  have hU := expm_unitary (skewHerm_I (quad_herm hR (al n)))
  rw [← hQ] at hU
  have hdag : (expm ((-Complex.I) • Q))ᴴ = expm (Complex.I • Q) := by
    have h0 : expm (-((-Complex.I) • Q)) = expm (Complex.I • Q) := by rw [neg_smul, neg_neg]
    have h1 : expm ((-Complex.I) • Q) * expm (Complex.I • Q) = 1 := by
      rw [expm, expm, ← Matrix.exp_add_of_commute, neg_smul, neg_add_cancel, NormedSpace.exp_zero]
      exact ((Commute.refl Q).smul_left _).smul_right _
    calc (expm ((-Complex.I) • Q))ᴴ = (expm ((-Complex.I) • Q))ᴴ * (expm ((-Complex.I) • Q) * expm (Complex.I • Q)) := by
          rw [h1, Matrix.mul_one]
      _ = expm (Complex.I • Q) := by
          rw [← Matrix.mul_assoc, mul_eq_one_comm.1 hU, Matrix.one_mul]
  set W := expm ((-Complex.I) • Q) with hW
  have hWW : Wᴴ * W = 1 := mul_eq_one_comm.1 hU
  have hg : ∀ k, W * al n k * Wᴴ = ∑ l, expm (Complex.I • adM R) k l • al n l := by
    intro k
    have := heis_quad R Complex.I k
    rw [← hQ, ← hdag] at this
    rw [Matrix.mul_assoc, this, ← Matrix.mul_assoc, hU, Matrix.one_mul]
  have hE : expm (Complex.I • adM R) * expm ((-Complex.I) • adM R) = 1 := by
    rw [expm, expm, ← Matrix.exp_add_of_commute, neg_smul, add_neg_cancel, NormedSpace.exp_zero]
    exact ((Commute.refl (adM R)).smul_left _).smul_right _
  refine ⟨_, _, Fin.addCases (fun i => decide (b i = 0)) (fun i => decide (b i = 1)), hE, fun k => ?_⟩
  rw [← hg]
  have h1 : al n k *ᵥ Spec.fock b = 0 → W * al n k * Wᴴ * Spec.proj (W *ᵥ Spec.fock b) = 0 := by
    intro h
    apply mul_proj_zero
    rw [mulVec_mulVec, Matrix.mul_assoc, hWW, Matrix.mul_one, ← mulVec_mulVec, h, mulVec_zero]
  have h2 : (al n k)ᴴ *ᵥ Spec.fock b = 0 → Spec.proj (W *ᵥ Spec.fock b) * (W * al n k * Wᴴ) = 0 := by
    intro h
    apply proj_mul_zero
    rw [conjTranspose_mul, conjTranspose_mul, conjTranspose_conjTranspose, mulVec_mulVec, Matrix.mul_assoc,
      Matrix.mul_assoc, hWW, Matrix.mul_one, ← mulVec_mulVec, h, mulVec_zero]
  revert h1 h2
  refine Fin.addCases (fun i => ?_) (fun i => ?_) k
  · intro h1 h2
    beta_reduce
    rw [Fin.addCases_left]
    by_cases hb : b i = 0
    · rw [if_pos (by simpa using hb)]
      apply h2
      rw [al_left, conjTranspose_conjTranspose, jwLower_fock, if_neg (by rw [hb]; decide)]
    · rw [if_neg (by simpa using hb)]
      apply h1
      rw [al_left, jwRaise_fock, if_neg hb]
  · intro h1 h2
    beta_reduce
    rw [Fin.addCases_right]
    by_cases hb : b i = 1
    · rw [if_pos (by simpa using hb)]
      apply h2
      rw [al_right, jwRaise_fock, if_neg (by rw [hb]; decide)]
    · rw [if_neg (by simpa using hb)]
      apply h1
      rw [al_right, jwLower_fock, if_neg hb]

/-- States with definite occupation numbers of rotated modes. -/
theorem modes_occupations {C : Op (n + n)} (hC : C * Cᴴ = 1) {ψ : Fin (2 ^ n) → ℂ} {b : Fin n → Bool}
    (h : ∀ i : Fin n, ((∑ l, C (Fin.castAdd n i) l • al n l) * (∑ l, C (Fin.castAdd n i) l • al n l)ᴴ) *ᵥ ψ =
      (if b i then (1 : ℂ) else 0) • ψ) (hcar : ∀ i, (∑ l, C (Fin.castAdd n i) l • al n l) * (∑ l, C (Fin.castAdd n i) l • al n l) = 0)
    (hconj : ∀ i, (∑ l, C (Fin.castAdd n i) l • al n l)ᴴ = ∑ l, C (Fin.natAdd n i) l • al n l) :
    HasModes (Spec.proj ψ) := by
  refine ⟨_, _, Fin.addCases (fun i => !b i) (fun i => b i), hC, fun k => ?_⟩
  have hfull : ∀ i, b i = true → (∑ l, C (Fin.castAdd n i) l • al n l) *ᵥ ψ = 0 := by
    intro i hb
    have h1 := h i
    rw [if_pos hb, one_smul] at h1
    rw [← h1, mulVec_mulVec, ← Matrix.mul_assoc, hcar, Matrix.zero_mul, zero_mulVec]
  have hempty : ∀ i, ¬ b i = true → (∑ l, C (Fin.castAdd n i) l • al n l)ᴴ *ᵥ ψ = 0 := by
    intro i hb
    have h1 := h i
    rw [if_neg hb, zero_smul] at h1
    set c := ∑ l, C (Fin.castAdd n i) l • al n l
    have h2 : star (cᴴ *ᵥ ψ) ⬝ᵥ (cᴴ *ᵥ ψ) = 0 := by
      rw [star_mulVec, conjTranspose_conjTranspose, ← dotProduct_mulVec, mulVec_mulVec, h1, dotProduct_zero]
    exact dotProduct_star_self_eq_zero.1 h2
  refine Fin.addCases (fun i => ?_) (fun i => ?_) k
  · beta_reduce
    rw [Fin.addCases_left]
    cases hb : b i with
    | true => simpa using mul_proj_zero (hfull i hb)
    | false => simpa using proj_mul_zero (hempty i (by simp [hb]))
  · beta_reduce
    rw [Fin.addCases_right, ← hconj]
    cases hb : b i with
    | true =>
      simp only [if_true]
      exact proj_mul_zero (by rw [conjTranspose_conjTranspose]; exact hfull i hb)
    | false => simpa using mul_proj_zero (hempty i (by simp [hb]))

/-- The equation for the correlations `P_ij = Tr(ρ α_i α_j†)`. -/
theorem kms_corr {ρ : Op (2 ^ n)} (hρ : ρ.trace = 1) {A B : Op (n + n)}
    (h : ∀ k, ∑ l, A k l • (ρ * al n l) = ∑ l, B k l • (al n l * ρ)) :
    (A + B) * (Matrix.of fun i j => (ρ * al n i * (al n j)ᴴ).trace) = B := by
  ext k j
  have h1 := kms_trace h (al n j)ᴴ k
  have h2 : ∀ l, (ρ * ((al n j)ᴴ * al n l)).trace = (1 : Op (n + n)) l j - (ρ * (al n l * (al n j)ᴴ)).trace := by
    intro l
    have := al_anticomm (n := n) l (fl j)
    rw [← al_conjTranspose] at this
    rw [← sub_eq_iff_eq_add'.2 this.symm, Matrix.mul_sub, trace_sub, Matrix.mul_smul, trace_smul, mul_one, hρ]
    congr 1
    have h3 : swapS n l (fl j) = (swapS n * swapS n) l j := (mul_swapS _ _ _).symm
    rw [smul_eq_mul, mul_one, h3, swapS_sq]
  simp only [h2, mul_sub, Finset.sum_sub_distrib] at h1
  rw [Matrix.add_mul, Matrix.add_apply, mul_apply, mul_apply]
  simp only [of_apply, Matrix.mul_assoc]
  rw [h1]
  have h4 : ∑ l, B k l * (1 : Op (n + n)) l j = B k j := by
    rw [← mul_apply, mul_one]
  rw [h4]
  ring

/-- The correlations of a state with filled and empty modes form a projection. -/
theorem HasModes.proj {ρ : Op (2 ^ n)} (hm : HasModes ρ) (hρ : ρ.trace = 1) :
    (Matrix.of fun i j => (ρ * al n i * (al n j)ᴴ).trace) * (Matrix.of fun i j => (ρ * al n i * (al n j)ᴴ).trace) =
      (Matrix.of fun i j => (ρ * al n i * (al n j)ᴴ).trace : Op (n + n)) := by
  obtain ⟨E, E', p, h, hp⟩ := hm
  have h' : E' * E = 1 := mul_eq_one_comm.1 h
  have hk : ∀ k, ∑ l, (diagonal (fun k => if p k then (1 : ℂ) else 0) * E) k l • (ρ * al n l) =
      ∑ l, (diagonal (fun k => if p k then (0 : ℂ) else 1) * E) k l • (al n l * ρ) := by
    intro k
    have := hp k
    simp only [diagonal_mul]
    cases hpk : p k with
    | true =>
      simp only [hpk, if_true, Matrix.mul_sum, Matrix.mul_smul] at this
      simp [this]
    | false =>
      simp only [hpk, Bool.false_eq_true, if_false, Matrix.sum_mul, Matrix.smul_mul] at this
      simp [this]
  have hc := kms_corr hρ hk
  set P : Op (n + n) := Matrix.of fun i j => (ρ * al n i * (al n j)ᴴ).trace
  set D := diagonal (fun k => if p k then (0 : ℂ) else 1) with hD
  have hsum : diagonal (fun k => if p k then (1 : ℂ) else 0) + D = 1 := by
    rw [hD, diagonal_add, ← diagonal_one]
    congr 1
    funext k
    split_ifs <;> simp
  have hDD : D * D = D := by
    rw [hD, diagonal_mul_diagonal]
    congr 1
    funext k
    split_ifs <;> simp
  rw [← Matrix.add_mul, hsum, Matrix.one_mul] at hc
  have hP : P = E' * D * E := by
    rw [Matrix.mul_assoc, ← hc, ← Matrix.mul_assoc, h', Matrix.one_mul]
  rw [hP]
  calc E' * D * E * (E' * D * E) = E' * (D * (E * E') * D) * E := by simp only [Matrix.mul_assoc]
    _ = E' * D * E := by rw [h, Matrix.mul_one, hDD]

end FF
