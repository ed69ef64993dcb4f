import Verif.Proofs.GaussSpectrum2
import Verif.Proofs.GibbsInj

/-! # Proofs: the trace of a product of two exponentials of quadratic forms -/

namespace FF

open Matrix
open scoped ComplexOrder

variable {n : ℕ}

/-- An operator that commutes with all the `α` is a multiple of the identity. -/
theorem scalar_of_commute {M : Op (2 ^ n)} (h : ∀ k, al n k * M = M * al n k) : ∃ c : ℂ, M = c • 1 := by
  have hX : ∀ X ∈ alProds n, X * M = M * X := by
    intro X hX
    induction hX using Submonoid.closure_induction with
    | mem x hx => obtain ⟨k, rfl⟩ := hx; exact h k
    | one => rw [one_mul, mul_one]
    | mul x y _ _ hx hy => rw [mul_assoc, hy, ← mul_assoc, hx, mul_assoc]
  set φ := Spec.fock fun _ : Fin n => 0 with hφ
  have hproj : Spec.proj φ = vecMulVec φ (star φ) := rfl
  have hu : Spec.proj φ *ᵥ φ = φ := by
    rw [hproj, vecMulVec_mulVec, hφ, fock_eq]
    simp
  have h0 : M *ᵥ φ = (star φ ⬝ᵥ (M *ᵥ φ)) • φ := by
    conv_lhs => rw [← hu, mulVec_mulVec, ← hX _ (vacuum_mem n), ← mulVec_mulVec, ← hφ, hproj, vecMulVec_mulVec]
    funext x
    simp [mul_comm]
  obtain ⟨c, hc⟩ : ∃ c, c = star φ ⬝ᵥ (M *ᵥ φ) := ⟨_, rfl⟩
  rw [← hc] at h0
  refine ⟨c, ?_⟩
  have hb : ∀ b : Fin n → Fin 2, M *ᵥ Spec.fock b = c • Spec.fock b := by
    intro b
    obtain ⟨X, hXm, a, ha, h1⟩ := create_fock b
    have h2 : a • (M *ᵥ Spec.fock b) = a • (c • Spec.fock b) := by
      rw [← mulVec_smul, ← h1, mulVec_mulVec, ← hX X hXm, ← mulVec_mulVec, ← hφ, h0, mulVec_smul, hφ, h1, smul_comm]
    exact smul_right_injective _ ha h2
  ext x y
  have := congrFun (hb (Spec.digit 2 n y)) x
  rw [fock_eq, ← (eq_bIdx y _).2 rfl] at this
  simpa [Matrix.one_apply, Pi.single_apply] using this

/-- `X` takes the `α` to their combinations with the coefficients `M`. -/
def Acts (X : Op (2 ^ n)) (M : Op (n + n)) : Prop := ∀ k, al n k * X = X * comb (M k)

theorem Acts.mul {X Y : Op (2 ^ n)} {M N : Op (n + n)} (hX : Acts X M) (hY : Acts Y N) : Acts (X * Y) (M * N) := by
  intro k
  have h1 : comb (M k) * Y = Y * comb ((M * N) k) := by
    rw [comb, comb, Matrix.sum_mul]
    have : ∀ l, (M k l • al n l) * Y = ∑ m, Y * ((M k l * N l m) • al n m) := fun l => by
      rw [Matrix.smul_mul, hY l, comb, Matrix.mul_sum, Finset.smul_sum]
      exact Finset.sum_congr rfl fun m _ => by rw [Matrix.mul_smul, Matrix.mul_smul, smul_smul]
    simp only [this]
    rw [Finset.sum_comm, Matrix.mul_sum]
    refine Finset.sum_congr rfl fun m _ => ?_
    rw [← Matrix.mul_sum, ← Finset.sum_smul, Matrix.mul_apply]
  rw [← mul_assoc, hX k, mul_assoc, h1, mul_assoc]

theorem acts_exp {R : Op (n + n)} (hp : swapS n * Rᵀ * swapS n = -R) : Acts (expm (Spec.quad R (al n))) (expm ((2 : ℂ) • R)) := by
  intro k
  have := heis_quad R 1 k
  rw [one_smul, one_smul, adM_ph hp] at this
  exact this

/-- Two operators that act in the same way, one of them invertible. -/
theorem acts_unique {X Y Z : Op (2 ^ n)} {M : Op (n + n)} (hX : Acts X M) (hY : Acts Y M) (hYZ : Y * Z = 1) : ∃ c : ℂ, X = c • Y := by
  have hZY : Z * Y = 1 := mul_eq_one_comm.1 hYZ
  have h1 : ∀ k, Z * al n k = comb (M k) * Z := fun k => by
    calc Z * al n k = Z * (al n k * Y) * Z := by rw [← mul_assoc, mul_assoc _ Y Z, hYZ, mul_one]
      _ = _ := by rw [hY k, ← mul_assoc, hZY, one_mul]
  obtain ⟨c, hc⟩ := scalar_of_commute (M := X * Z) fun k => by
    rw [← mul_assoc, hX k, mul_assoc, ← h1 k, mul_assoc]
  refine ⟨c, ?_⟩
  calc X = X * Z * Y := by rw [mul_assoc, hZY, mul_one]
    _ = _ := by rw [hc, Matrix.smul_mul, one_mul]

theorem energies_sum (s : Fin n → ℝ) : ∑ c : Fin n → Bool, ∑ k, (if c k then s k else -s k) = 0 := by
  have h : ∑ c : Fin n → Bool, ∑ k, (if c k then s k else -s k) = ∑ c : Fin n → Bool, -∑ k, (if c k then s k else -s k) := by
    refine Fintype.sum_equiv ⟨fun c k => !c k, fun c k => !c k, fun c => by simp, fun c => by simp⟩ _ _ fun c => ?_
    rw [← Finset.sum_neg_distrib]
    refine Finset.sum_congr rfl fun k _ => ?_
    simp only [Equiv.coe_fn_mk]
    by_cases h : c k = true
    · simp [h]
    · simp [h]
  rw [Finset.sum_neg_distrib] at h
  linarith

/-- The exponential of a quadratic form with particle-hole symmetric coefficients has determinant one. -/
theorem quad_det {R : Op (n + n)} (hR : R.IsHermitian) (hp : swapS n * Rᵀ * swapS n = -R) : (expm (Spec.quad R (al n))).det = 1 := by
  obtain ⟨U, s, hc, hU, hL⟩ := exists_canonical hR hp
  obtain ⟨V, e, hV, -, hQ⟩ := quad_spectrum hc hU hL
  rw [hQ, expm_unitary_conj hV (mul_eq_one_comm.1 hV), expm_diagonal, det_mul, det_mul, det_diagonal, mul_right_comm, ← det_mul, hV,
    det_one, one_mul, ← Complex.exp_sum, ← Complex.ofReal_sum, e.symm.sum_comp fun c => ∑ k, if c k then s k else -s k, energies_sum]
  simp

/-- The partition function, squared. -/
theorem quad_trace_sq {R : Op (n + n)} (hR : R.IsHermitian) (hp : swapS n * Rᵀ * swapS n = -R) :
    (expm (Spec.quad R (al n))).trace ^ 2 = (1 + expm ((2 : ℂ) • R)).det := by
  obtain ⟨U, s, hc, hU, hL⟩ := exists_canonical hR hp
  have hU' : Uᴴ * U = 1 := mul_eq_one_comm.1 hU
  obtain ⟨V, e, hV, -, hQ⟩ := quad_spectrum hc hU hL
  have h1 : (expm (Spec.quad R (al n))).trace = ((∏ k, 2 * Real.cosh (s k) : ℝ) : ℂ) := by
    rw [hQ, expm_unitary_conj hV (mul_eq_one_comm.1 hV), expm_diagonal, trace_mul_comm, ← mul_assoc, mul_eq_one_comm.1 hV, one_mul,
      trace_diagonal]
    simp only [← Complex.ofReal_exp]
    rw [← Complex.ofReal_sum, e.symm.sum_comp fun c => Real.exp (∑ k, if c k then s k else -s k)]
    have := sum_patterns fun k => -s k
    simp only [Real.cosh_neg] at this
    rw [← this]
    congr 1
    refine Finset.sum_congr rfl fun c _ => ?_
    rw [← Finset.sum_neg_distrib]
    congr 1
    refine Finset.sum_congr rfl fun k _ => ?_
    split_ifs <;> simp
  have h2 : (2 : ℂ) • R = U * ((2 : ℂ) • Spec.standardForm s) * Uᴴ := by
    rw [← hL, Matrix.mul_smul, Matrix.smul_mul]
    congr 1
    calc R = (U * Uᴴ) * R * (U * Uᴴ) := by rw [hU, one_mul, mul_one]
      _ = _ := by simp only [Matrix.mul_assoc]
  have h3 : (2 : ℂ) • Spec.standardForm s = diagonal fun k => (2 : ℂ) * Fin.append (fun i => ((-s i : ℝ) : ℂ)) (fun i => ((s i : ℝ) : ℂ)) k := by
    rw [Spec.standardForm]
    ext i j
    by_cases h : i = j
    · subst h; simp
    · simp [h]
  have h4 : (1 : Op (n + n)) = U * 1 * Uᴴ := by rw [mul_one, hU]
  rw [h2, expm_unitary_conj hU hU', h3, expm_diagonal]
  rw [show (1 : Op (n + n)) + U * diagonal (fun i => Complex.exp (2 * Fin.append (fun i => ((-s i : ℝ) : ℂ)) (fun i => ((s i : ℝ) : ℂ)) i)) * Uᴴ =
    U * (diagonal fun i => 1 + Complex.exp (2 * Fin.append (fun i => ((-s i : ℝ) : ℂ)) (fun i => ((s i : ℝ) : ℂ)) i)) * Uᴴ by
      conv_lhs => rw [h4]
      rw [← Matrix.add_mul, ← Matrix.mul_add, ← diagonal_one, diagonal_add], det_mul, det_mul, det_diagonal, mul_right_comm, ← det_mul, hU,
    det_one, one_mul, Fin.prod_univ_add, ← Finset.prod_mul_distrib, h1, ← Complex.ofReal_pow, ← Finset.prod_pow, Complex.ofReal_prod]
  refine Finset.prod_congr rfl fun k _ => ?_
  rw [Fin.append_left, Fin.append_right]
  have h5 : (1 + Real.exp (2 * -s k)) * (1 + Real.exp (2 * s k)) = (2 * Real.cosh (s k)) ^ 2 := by
    rw [Real.cosh_eq]
    have a1 : Real.exp (2 * -s k) = Real.exp (-s k) ^ 2 := by rw [← Real.exp_nat_mul]; norm_num
    have a2 : Real.exp (2 * s k) = Real.exp (s k) ^ 2 := by rw [← Real.exp_nat_mul]; norm_num
    have a3 : Real.exp (s k) * Real.exp (-s k) = 1 := by rw [← Real.exp_add]; simp
    rw [a1, a2]
    linear_combination (Real.exp (s k) * Real.exp (-s k) - 1) * a3
  rw [← h5]
  push_cast
  rfl

theorem ph_smul {R : Op (n + n)} (hp : swapS n * Rᵀ * swapS n = -R) (c : ℂ) : swapS n * (c • R)ᵀ * swapS n = -(c • R) := by
  rw [transpose_smul, Matrix.mul_smul, Matrix.smul_mul, hp, smul_neg]

theorem herm_smul {d : ℕ} {R : Op d} (hR : R.IsHermitian) (c : ℝ) : ((c : ℂ) • R).IsHermitian := by
  rw [IsHermitian, conjTranspose_smul, hR.eq]; simp

theorem expm_swap {K : Op (n + n)} (hp : swapS n * Kᵀ * swapS n = -K) : swapS n * (expm K)ᵀ * swapS n = expm (-K) := by
  have hS : swapS n * swapS n = 1 := swapS_sq
  have := expm_intertwine (swapS n * Kᵀ * swapS n) Kᵀ (swapS n) (by rw [mul_assoc, hS, mul_one])
  have ht : expm Kᵀ = (expm K)ᵀ := by rw [expm, expm, Matrix.exp_transpose]
  rw [ht, hp] at this
  rw [← this, mul_assoc (expm _), hS, mul_one]

theorem quad_smul' (R : Op (n + n)) (c : ℂ) : Spec.quad (c • R) (al n) = c • Spec.quad R (al n) := by
  simp only [Spec.quad, Finset.smul_sum, Matrix.smul_apply, smul_smul, smul_eq_mul]

theorem expm_double {d : ℕ} (K : Op d) : expm K * expm K = expm ((2 : ℂ) • K) := by
  rw [expm, expm, ← Matrix.exp_add_of_commute _ _ (Commute.refl _), two_smul]

/-- The trace of the product of two exponentials, squared. -/
theorem product_trace {R T : Op (n + n)} (hR : R.IsHermitian) (hRp : swapS n * Rᵀ * swapS n = -R) (hT : T.IsHermitian)
    (hTp : swapS n * Tᵀ * swapS n = -T) :
    (expm (Spec.quad R (al n)) * expm (Spec.quad T (al n))).trace ^ 2 = (1 + expm ((2 : ℂ) • R) * expm ((2 : ℂ) • T)).det := by
  have hS : swapS n * swapS n = 1 := swapS_sq
  set R' : Op (n + n) := (1 / 2 : ℂ) • R with hR'
  have hR'2 : (2 : ℂ) • R' = R := by rw [hR', smul_smul]; norm_num
  have hR'h : R'.IsHermitian := by have := herm_smul hR (1 / 2); push_cast at this; exact this
  have hR'p : swapS n * R'ᵀ * swapS n = -R' := ph_smul hRp _
  set E := expm (Spec.quad R' (al n)) with hE
  have hEE : E * E = expm (Spec.quad R (al n)) := by rw [hE, expm_double, ← quad_smul', hR'2]
  set F := expm (Spec.quad T (al n)) with hF
  set X := E * F * E with hXdef
  have htr : (expm (Spec.quad R (al n)) * F).trace = X.trace := by
    rw [← hEE, hXdef, mul_assoc, trace_mul_comm]
  set M := expm R * expm ((2 : ℂ) • T) * expm R with hM
  have hXM : Acts X M := by
    have h1 := acts_exp hR'p
    rw [hR'2] at h1
    exact (h1.mul (acts_exp hTp)).mul h1
  have hpd : ∀ {d : ℕ} {A B : Op d}, A.IsHermitian → B.IsHermitian → (expm A * expm ((2 : ℂ) • B) * expm A).PosDef := by
    intro d A B hA hB
    have : expm A * expm ((2 : ℂ) • B) * expm A = (expm B * expm A)ᴴ * (expm B * expm A) := by
      rw [conjTranspose_mul, (expm_herm hA).eq, (expm_herm hB).eq, ← expm_double]
      simp only [mul_assoc]
    rw [this]
    apply Matrix.PosDef.conjTranspose_mul_self
    exact Matrix.mulVec_injective_of_isUnit ((Matrix.isUnit_exp _).mul (Matrix.isUnit_exp _))
  have hMpd : M.PosDef := hpd hR hT
  have hXpd : X.PosDef := by
    have h1 : F = expm ((2 : ℂ) • Spec.quad ((1 / 2 : ℂ) • T) (al n)) := by
      rw [quad_smul', smul_smul]; norm_num [hF]
    have hT2 : ((1 / 2 : ℂ) • T).IsHermitian := by have := herm_smul hT (1 / 2); push_cast at this; exact this
    rw [hXdef, h1]
    exact hpd (quad_herm hR'h _) (quad_herm hT2 _)
  obtain ⟨L, hL, hLM⟩ := herm_log_exists hMpd
  have hLp : swapS n * Lᵀ * swapS n = -L := by
    have ht : Lᵀᴴ = Lᵀ := hL.transpose.eq
    have hh : (swapS n * Lᵀ * swapS n).IsHermitian := by
      rw [IsHermitian, conjTranspose_mul, conjTranspose_mul, swapS_conjTranspose, ht, mul_assoc]
    refine expm_herm_inj hh hL.neg ?_
    have h1 : expm (swapS n * Lᵀ * swapS n) = swapS n * Mᵀ * swapS n := by
      have := expm_intertwine (swapS n * Lᵀ * swapS n) Lᵀ (swapS n) (by rw [mul_assoc, hS, mul_one])
      have ht : expm Lᵀ = (expm L)ᵀ := by rw [expm, expm, Matrix.exp_transpose]
      rw [ht, hLM] at this
      rw [← this, mul_assoc (expm _), hS, mul_one]
    have h2 : swapS n * Mᵀ * swapS n = expm (-R) * expm (-((2 : ℂ) • T)) * expm (-R) := by
      rw [← expm_swap hRp, ← expm_swap (ph_smul hTp 2), hM, transpose_mul, transpose_mul]
      calc swapS n * ((expm R)ᵀ * ((expm ((2 : ℂ) • T))ᵀ * (expm R)ᵀ)) * swapS n =
          swapS n * ((expm R)ᵀ * (1 * (expm ((2 : ℂ) • T))ᵀ * (1 * (expm R)ᵀ))) * swapS n := by rw [one_mul, one_mul]
        _ = _ := by rw [← hS]; simp only [mul_assoc]
    have h3 : (swapS n * Mᵀ * swapS n) * M = 1 := by
      have i1 : expm (-R) * expm R = 1 := mul_eq_one_comm.1 (expm_neg_mul R)
      have i2 : expm (-((2 : ℂ) • T)) * expm ((2 : ℂ) • T) = 1 := mul_eq_one_comm.1 (expm_neg_mul _)
      rw [h2, hM]
      calc _ = expm (-R) * (expm (-((2 : ℂ) • T)) * (expm (-R) * expm R) * expm ((2 : ℂ) • T)) * expm R := by simp only [mul_assoc]
        _ = 1 := by rw [i1, mul_one, i2, mul_one, i1]
    have h4 : M * expm (-L) = 1 := by rw [← hLM]; exact expm_neg_mul L
    rw [h1]
    calc swapS n * Mᵀ * swapS n = (swapS n * Mᵀ * swapS n) * (M * expm (-L)) := by rw [h4, mul_one]
      _ = _ := by rw [← mul_assoc, h3, one_mul]
  set L' : Op (n + n) := (1 / 2 : ℂ) • L with hL'
  have hL'2 : (2 : ℂ) • L' = L := by rw [hL', smul_smul]; norm_num
  have hL'h : L'.IsHermitian := by have := herm_smul hL (1 / 2); push_cast at this; exact this
  have hL'p : swapS n * L'ᵀ * swapS n = -L' := ph_smul hLp _
  set Y := expm (Spec.quad L' (al n)) with hY
  have hYM : Acts Y M := by
    have := acts_exp hL'p
    rwa [hL'2, hLM] at this
  obtain ⟨c, hc⟩ := acts_unique hXM hYM (expm_neg_mul _)
  have hdX : X.det = 1 := by
    rw [hXdef, det_mul, det_mul, hE, quad_det hR'h hR'p, hF, quad_det hT hTp]; norm_num
  have hdY : Y.det = 1 := quad_det hL'h hL'p
  have hcN : c ^ (2 ^ n) = 1 := by
    have := congrArg det hc
    rw [hdX, det_smul, hdY, mul_one, Fintype.card_fin] at this
    exact this.symm
  have : Nonempty (Fin (2 ^ n)) := ⟨⟨0, by positivity⟩⟩
  have hY0 : 0 < Y.trace := (expm_posDef (quad_herm hL'h _)).trace_pos
  have hX0 : 0 < X.trace := hXpd.trace_pos
  have hc0 : 0 < c := by
    have h1 : X.trace = c * Y.trace := by rw [hc, trace_smul, smul_eq_mul]
    have h2 : c = X.trace * Y.trace⁻¹ := by rw [h1, mul_assoc, mul_inv_cancel₀ hY0.ne', mul_one]
    rw [h2]
    exact mul_pos hX0 (inv_pos.2 hY0)
  have hc1 : c = 1 := by
    obtain ⟨r1, r2⟩ := Complex.pos_iff.1 hc0
    have hcr : c = ((c.re : ℝ) : ℂ) := Complex.ext rfl (by simp [← r2])
    have h1 : c.re ^ (2 ^ n) = 1 := by
      rw [hcr] at hcN
      exact_mod_cast hcN
    have h2 : c.re = 1 := (pow_eq_one_iff_of_nonneg r1.le (by positivity)).1 h1
    rw [hcr, h2]; simp
  rw [htr, hc, hc1, one_smul, hY, quad_trace_sq hL'h hL'p, hL'2, hLM, hM, det_one_add_mul_comm, ← mul_assoc, expm_double]

end FF
