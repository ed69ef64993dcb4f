import Verif.Props.Random

/-! # Properties C51-C58: random generators and states. Conventions as in `Props/Random.lean`. -/

namespace FF.Props

open Matrix
open scoped ComplexConjugate ComplexOrder

section
variable {σ : Type} (rng : Rng σ) (logm : (d : ℕ) → Op d → Op d)

/-! ## C51 -/

/-- The random blocks: `A` from two draws, `Z` from two more. -/
theorem exec_genH {n : ℕ} {fixedN : Bool} {seed : Option ℤ} {s s0 : σ} (h : Spec.StartState rng seed s s0) :
    ∃ A B : Op n, ∃ s', (randomHGenerator rng n fixedN seed).exec s = (.ok (buildH n A (some B)), s') ∧
      A.IsHermitian ∧ Bᵀ = -B ∧ (fixedN = true → B = 0) := by
  rw [randomHGenerator, exec_bind_ok (exec_seed rng h), exec_bind_ok (exec_draw _ _), exec_bind_ok (exec_draw _ _),
    exec_bind_ok (exec_draw _ _), exec_bind_ok (exec_draw _ _), exec_pure]
  refine ⟨_, _, _, rfl, ?_, ?_, ?_⟩
  · rw [IsHermitian, conjTranspose_add, conjTranspose_conjTranspose, add_comm]
  · cases fixedN
    · simp only [Bool.false_eq_true, if_false, transpose_sub, transpose_transpose, neg_sub]
    · simp
  · rintro rfl
    simp

/-- C51. `random_H_generator` returns a Hermitian, particle-hole symmetric matrix; with `fixedN` the off-diagonal
blocks vanish. -/
theorem C51_generator (n : ℕ) (fixedN : Bool) (seed : Option ℤ) (s s0 : σ) (h : Spec.StartState rng seed s s0) :
    ∃ H s', (randomHGenerator rng n fixedN seed).exec s = (.ok H, s') ∧ H.IsHermitian ∧
      Spec.swap n * Hᵀ * Spec.swap n = -H ∧
      (fixedN = true → Spec.block H 0 1 = 0 ∧ Spec.block H 1 0 = 0) := by
  obtain ⟨A, B, s', he, hA, hB, hN⟩ := exec_genH rng (fixedN := fixedN) (n := n) h
  refine ⟨_, _, he, buildH_herm A B hA hB, ?_, ?_⟩
  · rw [← swapS_eq]; exact buildH_ph A B hA hB
  · intro hf
    have hB0 := hN hf
    subst hB0
    have h01 : ∀ i j, buildH n A (some 0) (Fin.castAdd n i) (Fin.natAdd n j) = 0 := by
      intro i j; simp [buildH, cj, -Fin.natAdd_eq_addNat]
    have h10 : ∀ i j, buildH n A (some 0) (Fin.natAdd n i) (Fin.castAdd n j) = 0 := by
      intro i j; simp [buildH, cj, -Fin.natAdd_eq_addNat]
    constructor
    · ext i j
      simpa [Spec.block, Fin.natAdd, Fin.castAdd, Fin.castLE] using h01 i j
    · ext i j
      simpa [Spec.block, Fin.natAdd, Fin.castAdd, Fin.castLE] using h10 i j

/-! ## C52 -/

theorem gibbs_beta {d : ℕ} (hd : 0 < d) {G : Op d} (hG : G.IsHermitian) (β : ℝ) :
    ((npTrace (expm ((-(β : ℂ)) • G)))⁻¹ • expm ((-(β : ℂ)) • G)).PosDef ∧
      ((npTrace (expm ((-(β : ℂ)) • G)))⁻¹ • expm ((-(β : ℂ)) • G)).trace = 1 := by
  rw [neg_smul]
  apply gibbs_ok hd
  rw [IsHermitian, conjTranspose_smul, hG.eq]
  congr 1
  exact Complex.conj_ofReal β

/-- C52. `random_FF_state(pure=False)` returns `ρ = exp(-βG) / tr exp(-βG)` with `β ≥ 0` and `G` Hermitian, so `ρ`
is positive definite with trace one. With `returnH` this `G` is returned too, without it the same state is returned.
With `fixedN` the state commutes with the particle number. -/
theorem C52_mixed (hd : Spec.DrawsOk rng) (hl : Spec.LogmOk logm) (n : ℕ) (hn : 1 ≤ n) (fixedN : Bool)
    (seed : Option ℤ) (s s0 : σ) (h : Spec.StartState rng seed s s0) (a : Fin n → Op (2 ^ n))
    (ha : jordanWignerLowering n = List.ofFn a) :
    ∃ (ρ G : Op (2 ^ n)) (β : ℝ) (s' : σ),
      (randomFFStateMixed rng logm n fixedN seed true).exec s = (.ok (ρ, some G), s') ∧
      (randomFFStateMixed rng logm n fixedN seed false).exec s = (.ok (ρ, none), s') ∧
      G.IsHermitian ∧ 0 ≤ β ∧
      ρ = (NormedSpace.exp ((-(β : ℂ)) • G)).trace⁻¹ • NormedSpace.exp ((-(β : ℂ)) • G) ∧
      ρ.PosDef ∧ ρ.trace = 1 ∧
      (fixedN = true → ρ * (∑ i, (a i)ᴴ * a i) = (∑ i, (a i)ᴴ * a i) * ρ) := by
  have hst := starts_again rng h
  cases fixedN with
  | false =>
    obtain ⟨C, G, W, s1, -, hG, -, hGh, -⟩ := C50_unitary rng logm hd hl n hn seed s0 s0 hst
    have hb := gibbs_beta (d := 2 ^ n) (by positivity) hGh (rng.exponential s1).1
    refine ⟨_, G, (rng.exponential s1).1, (rng.exponential s1).2, ?_, ?_, hGh, hd.exponential _, rfl, hb.1, hb.2, by simp⟩
    · rw [randomFFStateMixed, exec_bind_ok (exec_seed rng h)]
      simp only [Bool.false_eq_true, if_false]
      rw [exec_bind_ok hG, exec_bind_ok (exec_draw _ _)]
      rfl
    · rw [randomFFStateMixed, exec_bind_ok (exec_seed rng h)]
      simp only [Bool.false_eq_true, if_false]
      rw [exec_bind_ok hG, exec_bind_ok (exec_draw _ _)]
      rfl
  | true =>
    obtain ⟨A, B, s1, he, hA, hB, hN⟩ := exec_genH rng (fixedN := true) (n := n) hst
    have hB0 := hN rfl
    subst hB0
    obtain ⟨G, hG, hGc⟩ := C35_number n hn A a ha
    have hGh : G.IsHermitian := by
      rw [jordanWignerAlphas_eq, buildOp_square _ _ hn] at hG
      rw [← Except.ok.inj hG]
      apply quad_herm
      rw [show buildH n A none = buildH n A (some 0) from rfl]
      exact drop_herm (buildH_herm A 0 hA (by simp)) _
    have hG' : buildOp n (buildH n A (some 0)) (jordanWignerAlphas n) false = .ok G := hG
    have hb := gibbs_beta (d := 2 ^ n) (by positivity) hGh (rng.exponential s1).1
    refine ⟨_, G, (rng.exponential s1).1, (rng.exponential s1).2, ?_, ?_, hGh, hd.exponential _, rfl, hb.1, hb.2, fun _ => ?_⟩
    · rw [randomFFStateMixed, exec_bind_ok (exec_seed rng h)]
      simp only [if_true]
      rw [exec_bind_ok he, exec_bind_ok (exec_noDraw_ok hG' _), exec_bind_ok (exec_draw _ _)]
      rfl
    · rw [randomFFStateMixed, exec_bind_ok (exec_seed rng h)]
      simp only [if_true]
      rw [exec_bind_ok he, exec_bind_ok (exec_noDraw_ok hG' _), exec_bind_ok (exec_draw _ _)]
      rfl
    · rw [Matrix.smul_mul, Matrix.mul_smul]
      congr 1
      apply expm_comm
      rw [Matrix.smul_mul, Matrix.mul_smul, hGc]

/-- The run of the pure-state branch. -/
theorem exec_pureState (hd : Spec.DrawsOk rng) (hl : Spec.LogmOk logm) {n : ℕ} (hn : 1 ≤ n) {seed : Option ℤ}
    {s s0 s1 : σ} (h : Spec.StartState rng seed s s0) {W : Op (2 ^ n)}
    (hW : (randomFFRotation rng logm n seed).exec s0 = (.ok W, s1)) :
    Spec.IsUnitVec (W *ᵥ zeroState (2 ^ n)) ∧
    (∀ {G : Op (2 ^ n)} {s2 : σ}, (randomFFRotationH rng logm n seed).exec s1 = (.ok G, s2) →
      (randomFFStatePure rng logm n seed true).exec s = (.ok (W *ᵥ zeroState (2 ^ n), some G), s2)) ∧
    (randomFFStatePure rng logm n seed false).exec s = (.ok (W *ᵥ zeroState (2 ^ n), none), s1) := by
  obtain ⟨C, G', W', s1', -, -, hW', -, -, hWu⟩ := C50_unitary rng logm hd hl n hn seed s0 s0 (starts_again rng h)
  have hWW : W' = W := Except.ok.inj (Prod.mk.inj (hW'.symm.trans hW)).1
  subst hWW
  have hunit : Spec.IsUnitVec (W' *ᵥ zeroState (2 ^ n)) :=
    unit_mulVec (mem_unitaryGroup_iff.1 hWu) (unit_zeroState (by positivity))
  have hassert : pyAssert (isclose 1 (vnorm (W' *ᵥ zeroState (2 ^ n)) : ℝ)) = .ok () := pyAssert_ok (isclose_one_unit hunit)
  refine ⟨hunit, ?_, ?_⟩
  · intro G s2 hG
    rw [randomFFStatePure, exec_bind_ok (exec_seed rng h), exec_bind_ok hW]
    simp only [if_true]
    rw [exec_bind_ok (exec_noDraw_ok hassert _), exec_bind_ok hG, exec_pure]
  · rw [randomFFStatePure, exec_bind_ok (exec_seed rng h), exec_bind_ok hW]
    simp only [Bool.false_eq_true, if_false]
    rw [exec_bind_ok (exec_noDraw_ok hassert _), exec_pure]

/-- C52. `random_FF_state(pure=True)` returns a unit vector, with and without `returnH`, and its assertion never
fires. -/
theorem C52_pure (hd : Spec.DrawsOk rng) (hl : Spec.LogmOk logm) (n : ℕ) (hn : 1 ≤ n) (seed : Option ℤ) (s s0 : σ)
    (h : Spec.StartState rng seed s s0) :
    ∃ (ψ : Fin (2 ^ n) → ℂ) (G : Op (2 ^ n)) (s1 s2 : σ),
      (randomFFStatePure rng logm n seed true).exec s = (.ok (ψ, some G), s2) ∧
      (randomFFStatePure rng logm n seed false).exec s = (.ok (ψ, none), s1) ∧
      Spec.IsUnitVec ψ ∧ G.IsHermitian := by
  obtain ⟨C, G, W, s1, -, -, hW, -⟩ := C50_unitary rng logm hd hl n hn seed s0 s0 (starts_again rng h)
  have hs1 : ∃ s0', Spec.StartState rng seed s1 s0' := by
    rcases h with ⟨rfl, rfl⟩ | ⟨k, hk, rfl, rfl⟩
    · exact ⟨s1, Or.inl ⟨rfl, rfl⟩⟩
    · exact ⟨_, Or.inr ⟨k, hk, rfl, rfl⟩⟩
  obtain ⟨s0', hs0'⟩ := hs1
  obtain ⟨C', G', W', s2, -, hG', -, hGh', -⟩ := C50_unitary rng logm hd hl n hn seed s1 s0' hs0'
  obtain ⟨hu, h1, h2⟩ := exec_pureState rng logm hd hl hn h hW
  exact ⟨_, G', s1, s2, h1 hG', h2, hu, hGh'⟩

/-- C52, with an integer seed: the returned generator is the one that produced the state, `ψ = exp(-iG) |0>`.
Missing: `seed=None`, where this is false (`C52_violation`). -/
theorem C52_returnH_partial (hd : Spec.DrawsOk rng) (hl : Spec.LogmOk logm) (n : ℕ) (hn : 1 ≤ n) (k : ℕ)
    (hk : k < 2 ^ 32) (s : σ) :
    ∃ (ψ : Fin (2 ^ n) → ℂ) (G : Op (2 ^ n)) (s2 : σ),
      (randomFFStatePure rng logm n (some (k : ℤ)) true).exec s = (.ok (ψ, some G), s2) ∧
      ψ = NormedSpace.exp ((-Complex.I) • G) *ᵥ Spec.fock (fun _ : Fin n => 0) := by
  have h := starts_some rng hk s
  obtain ⟨C, G, W, s1, -, hG, hW, -, hWe, -⟩ := C50_unitary rng logm hd hl n hn (some (k : ℤ)) _ _ (starts_again rng h)
  obtain ⟨C', G', W', s2, -, hG', hW', -⟩ := C50_unitary rng logm hd hl n hn (some (k : ℤ)) s1 _ (starts_some rng hk s1)
  have e1 := hG'
  rw [exec_rotH rng hd logm hn (starts_some rng hk s1)] at e1
  rw [exec_rotH rng hd logm hn (starts_again rng h)] at hG
  have hGG : G' = G := Except.ok.inj (Prod.mk.inj (e1.symm.trans hG)).1
  subst hGG
  obtain ⟨hu, h1, -⟩ := exec_pureState rng logm hd hl hn h hW
  exact ⟨_, G', s2, h1 hG', by rw [hWe, fock_zero]⟩

end

/-! ### the generator returned without a seed -/

/-- A rotation that fills pairs: `[[0, J], [J, 0]]` with `J = [[0, 1], [-1, 0]]`. -/
noncomputable def pairRot : Op (2 + 2) := blk 0 !![0, 1; -1, 0] !![0, 1; -1, 0] 0

theorem J_sq : (!![0, 1; -1, 0] : Op 2) * !![0, 1; -1, 0] = -1 := by
  ext i j; fin_cases i <;> fin_cases j <;> simp [mul_apply, Fin.sum_univ_two]

theorem pairRot_sq : pairRot * pairRot = -1 := by
  rw [pairRot, blk_mul, J_sq]
  simp only [mul_zero, zero_mul, zero_add, add_zero]
  rw [← blk_one]
  apply ext_halves <;> intro i j <;>
    simp only [blk_11, blk_12, blk_21, blk_22, Matrix.neg_apply, Matrix.zero_apply, neg_zero]

theorem pairRot_skew : pairRotᴴ = -pairRot := by
  have hJ : (!![0, 1; -1, 0] : Op 2)ᴴ = -!![0, 1; -1, 0] := by
    ext i j; fin_cases i <;> fin_cases j <;> simp
  have hJ' : ∀ i j, conj ((!![0, 1; -1, 0] : Op 2) j i) = -(!![0, 1; -1, 0] : Op 2) i j := by
    intro i j; exact congrFun (congrFun hJ i) j
  rw [pairRot]
  apply ext_halves <;> intro i j <;>
    simp only [conjTranspose_apply, Matrix.neg_apply, blk_11, blk_12, blk_21, blk_22, Matrix.zero_apply, star_zero,
      neg_zero, RCLike.star_def, hJ']

theorem pairRot_unitary : pairRot * pairRotᴴ = 1 := by
  rw [pairRot_skew, mul_neg, pairRot_sq, neg_neg]

theorem pairRot_canonical : IsCanonicalU pairRot := by
  have hJ : cj (!![0, 1; -1, 0] : Op 2) = !![0, 1; -1, 0] := by
    ext i j; fin_cases i <;> fin_cases j <;> simp [cj]
  have hcj : cj pairRot = pairRot := by
    have hJ' : ∀ i j, conj ((!![0, 1; -1, 0] : Op 2) i j) = (!![0, 1; -1, 0] : Op 2) i j := by
      intro i j; exact congrFun (congrFun hJ i) j
    rw [pairRot]
    apply ext_halves <;> intro i j <;> simp only [cj, map_apply, blk_11, blk_12, blk_21, blk_22, hJ',
      Matrix.zero_apply, map_zero]
  rw [IsCanonicalU, hcj, pairRot, swapS, blk_mul, blk_mul]
  simp

theorem pairRot_det : pairRot.det = 1 := by
  have h : pairRot = (Matrix.of ![![0, 0, 0, 1], ![0, 0, -1, 0], ![0, 1, 0, 0], ![-1, 0, 0, 0]] :
      Matrix (Fin 4) (Fin 4) ℤ).map (Int.cast : ℤ → ℂ) := by
    rw [pairRot]
    apply ext_halves <;> intro i j <;> fin_cases i <;> fin_cases j <;> simp [blk, -Fin.natAdd_eq_addNat] <;> rfl
  rw [h, show ∀ M : Matrix (Fin 4) (Fin 4) ℤ, M.map (Int.cast : ℤ → ℂ) = (Int.castRingHom ℂ).mapMatrix M from
      fun _ => rfl, ← RingHom.map_det,
    show (Matrix.of ![![0, 0, 0, 1], ![0, 0, -1, 0], ![0, 1, 0, 0], ![-1, 0, 0, 0]] :
      Matrix (Fin 4) (Fin 4) ℤ).det = 1 by decide, map_one]

/-- The real orthogonal matrix that gives this rotation. -/
theorem pairRot_real : ∃ O : RMat (2 + 2), O * Oᵀ = 1 ∧ O.det = 1 ∧ orb O = pairRot := by
  have hcj : cj (buildOmega 2 * pairRot * (buildOmega 2)ᴴ) = buildOmega 2 * pairRot * (buildOmega 2)ᴴ := by
    rw [cj_mul, cj_mul, cj_omega, cj_omega_dag]
    conv_rhs => rw [← pairRot_canonical]
    simp only [mul_assoc]
  have hO := toC_reArr hcj
  set O := reArr (buildOmega 2 * pairRot * (buildOmega 2)ᴴ) with hOdef
  have horb : orb O = pairRot := by
    rw [orb, hO]
    calc (buildOmega 2)ᴴ * (buildOmega 2 * pairRot * (buildOmega 2)ᴴ) * buildOmega 2
        = ((buildOmega 2)ᴴ * buildOmega 2) * pairRot * ((buildOmega 2)ᴴ * buildOmega 2) := by simp only [mul_assoc]
      _ = pairRot := by rw [omega_unitary, one_mul, mul_one]
  refine ⟨O, ?_, ?_, horb⟩
  · apply toC_injective
    rw [toC_mul, toC_one, ← toC_conjTranspose, hO]
    simp only [conjTranspose_mul, conjTranspose_conjTranspose]
    calc buildOmega 2 * pairRot * (buildOmega 2)ᴴ * (buildOmega 2 * (pairRotᴴ * (buildOmega 2)ᴴ))
        = buildOmega 2 * (pairRot * ((buildOmega 2)ᴴ * buildOmega 2) * pairRotᴴ) * (buildOmega 2)ᴴ := by
          simp only [mul_assoc]
      _ = 1 := by rw [omega_unitary, mul_one, pairRot_unitary, mul_one, omega_unitary']
  · have h1 : (toC O).det = 1 := by
      rw [hO, det_mul, det_mul, pairRot_det, mul_one, ← det_mul, omega_unitary', det_one]
    have h2 : ((O.det : ℝ) : ℂ) = (toC O).det := by
      rw [show toC O = Complex.ofRealHom.mapMatrix O from rfl, ← RingHom.map_det]; rfl
    rw [h1] at h2
    exact_mod_cast h2

theorem pairRot_log : Spec.IsPrincipalLog pairRot (((Real.pi / 2 : ℝ) : ℂ) • pairRot) where
  exp_eq := by
    have h := expm_sq_neg_one pairRot_sq ((Real.pi / 2 : ℝ) : ℂ)
    rw [← Complex.ofReal_cos, ← Complex.ofReal_sin, Real.cos_pi_div_two, Real.sin_pi_div_two, Complex.ofReal_zero,
      Complex.ofReal_one, zero_smul, one_smul, zero_add] at h
    exact h
  strip μ v hv h := by
    have h1 : pairRot *ᵥ (pairRot *ᵥ v) = -v := by rw [mulVec_mulVec, pairRot_sq, neg_mulVec, one_mulVec]
    have h2 : (((Real.pi / 2 : ℝ) : ℂ) ^ 2 + μ ^ 2) • v = 0 := by
      have h3 : (((Real.pi / 2 : ℝ) : ℂ) • pairRot) *ᵥ ((((Real.pi / 2 : ℝ) : ℂ) • pairRot) *ᵥ v) = (μ ^ 2) • v := by
        rw [h, mulVec_smul, h, smul_smul, sq]
      rw [smul_mulVec, smul_mulVec, mulVec_smul, h1, smul_smul, smul_neg, ← sq] at h3
      rw [add_smul, ← h3, add_neg_cancel]
    have h3 := (smul_eq_zero.1 h2).resolve_right hv
    have h4 : (μ - ((Real.pi / 2 : ℝ) : ℂ) * Complex.I) * (μ + ((Real.pi / 2 : ℝ) : ℂ) * Complex.I) = 0 := by
      linear_combination h3 - ((Real.pi / 2 : ℝ) : ℂ) ^ 2 * Complex.I_sq
    have hp := Real.pi_pos
    rcases mul_eq_zero.1 h4 with h5 | h5
    · rw [sub_eq_zero.1 h5]
      simp only [Complex.mul_im, Complex.ofReal_re, Complex.I_im, mul_one, Complex.ofReal_im, Complex.I_re, mul_zero,
        add_zero]
      constructor <;> linarith
    · rw [eq_neg_of_add_eq_zero_left h5]
      simp only [Complex.neg_im, Complex.mul_im, Complex.ofReal_re, Complex.I_im, mul_one, Complex.ofReal_im,
        Complex.I_re, mul_zero, add_zero]
      constructor <;> linarith

/-- The generator that the library makes from this rotation. -/
noncomputable def pairGen : Op (2 ^ 2) :=
  Spec.quad (Spec.dropSmall 1e-10 (genMat (((Real.pi / 2 : ℝ) : ℂ) • pairRot))) (al 2)

/-- Its exponential turns a particle of the first site into a hole of the second. -/
theorem pairGen_heisenberg : (expm ((-Complex.I) • pairGen))ᴴ * jwLower 2 0 * expm ((-Complex.I) • pairGen) =
    (jwLower 2 1)ᴴ := by
  have hdrop : Spec.dropSmall 1e-10 (genMat (((Real.pi / 2 : ℝ) : ℂ) • pairRot)) =
      genMat (((Real.pi / 2 : ℝ) : ℂ) • pairRot) := by
    rw [drop_genMat, dropSmall_id]
    have hJ : ∀ i j, (!![0, 1; -1, 0] : Op 2) i j = 0 ∨ 1 ≤ ‖(!![0, 1; -1, 0] : Op 2) i j‖ := by
      intro i j; fin_cases i <;> fin_cases j <;> simp
    have hP : ∀ x y, pairRot x y = 0 ∨ 1 ≤ ‖pairRot x y‖ := by
      intro x y
      rw [pairRot]
      refine Fin.addCases (fun i => ?_) (fun i => ?_) x <;> refine Fin.addCases (fun j => ?_) (fun j => ?_) y <;>
        simp only [blk_11, blk_12, blk_21, blk_22, Matrix.zero_apply, true_or, hJ]
    intro x y
    rcases hP x y with h | h
    · left; rw [Matrix.smul_apply, h, smul_zero]
    · right
      rw [Matrix.smul_apply, smul_eq_mul, norm_mul, Complex.norm_real, Real.norm_of_nonneg (by positivity)]
      have := Real.two_le_pi
      nlinarith
  rw [pairGen, hdrop]
  have hcanL : IsCanonicalU (((Real.pi / 2 : ℝ) : ℂ) • pairRot) := by
    have h2 := pairRot_canonical
    rw [IsCanonicalU] at h2 ⊢
    have h3 : cj (((Real.pi / 2 : ℝ) : ℂ) • pairRot) = ((Real.pi / 2 : ℝ) : ℂ) • cj pairRot := by
      ext i j; simp only [cj, map_apply, Matrix.smul_apply, smul_eq_mul, map_mul, Complex.conj_ofReal]
    rw [h3, Matrix.mul_smul, Matrix.smul_mul, h2]
  have hskL : (((Real.pi / 2 : ℝ) : ℂ) • pairRot)ᴴ = -(((Real.pi / 2 : ℝ) : ℂ) • pairRot) := by
    rw [conjTranspose_smul, pairRot_skew, smul_neg]
    congr 2
    exact Complex.conj_ofReal _
  have hH := rot_heisenberg hcanL hskL (Fin.natAdd 2 0)
  rw [show expm (((Real.pi / 2 : ℝ) : ℂ) • pairRot) = pairRot from pairRot_log.exp_eq] at hH
  have hWu := expm_unitary (skewHerm_I (quad_herm (genMat_herm hskL) (al 2)))
  set W := expm ((-Complex.I) • Spec.quad (genMat (((Real.pi / 2 : ℝ) : ℂ) • pairRot)) (al 2)) with hWdef
  have hsum : ∑ l, pairRot (Fin.natAdd 2 0) l • al 2 l = (jwLower 2 1)ᴴ := by
    rw [Fin.sum_univ_add, Fin.sum_univ_two, Fin.sum_univ_two, pairRot]
    simp only [blk_21, blk_22, al_left, Matrix.zero_apply, zero_smul, add_zero]
    simp
  rw [hsum, al_right] at hH
  exact hH

/-- It moves the vacuum: whatever it makes of the vacuum still holds a particle on the first site. -/
theorem pairGen_vacuum : jwLower 2 0 *ᵥ (expm ((-Complex.I) • pairGen) *ᵥ Spec.fock (fun _ : Fin 2 => 0)) ≠ 0 := by
  intro h
  have h5 := congrArg (fun M : Op (2 ^ 2) => M *ᵥ Spec.fock (fun _ : Fin 2 => 0)) pairGen_heisenberg
  simp only [← mulVec_mulVec, h, mulVec_zero] at h5
  have h6 := jwRaise_fock (1 : Fin 2) (fun _ => 0)
  rw [if_pos rfl] at h6
  rw [show (((1 : Fin 2) : ℕ)) = 1 from rfl, ← h5] at h6
  simp only [Fin.val_zero, ite_self, Finset.sum_const_zero, pow_zero, one_smul] at h6
  have h7 := unit_fock (Function.update (fun _ : Fin 2 => (0 : Fin 2)) 1 1)
  rw [← h6] at h7
  simp [Spec.IsUnitVec] at h7

/-- C52 is false for `random_FF_state(2, pure=True, returnH=True)` without a seed: the generator comes from a
second draw. For the draws `1`, then a pair rotation, the state is not `exp(-iG) |00>` for the returned `G`, not
even up to a phase or factor. -/
theorem C52_violation (logm : (d : ℕ) → Op d → Op d) (hl : Spec.LogmOk logm) :
    ∃ rng : Rng ℕ, Spec.DrawsOk rng ∧ ∃ (ψ : Fin (2 ^ 2) → ℂ) (G : Op (2 ^ 2)) (s' : ℕ),
      (randomFFStatePure rng logm 2 none true).exec 0 = (.ok (ψ, some G), s') ∧
      ∀ c : ℂ, NormedSpace.exp ((-Complex.I) • G) *ᵥ Spec.fock (fun _ : Fin 2 => 0) ≠ c • ψ := by
  obtain ⟨O, hO, hdet, horb⟩ := pairRot_real
  set D : (m : ℕ) → ℕ → RMat m := fun m s => if h : m = 2 + 2 ∧ s = 1 then h.1 ▸ O else 1 with hD
  have hD0 : D (2 + 2) 0 = 1 := by simp [hD]
  have hD1 : D (2 + 2) 1 = O := by simp [hD]
  have hd : Spec.DrawsOk (demoRng D) := by
    apply demo_ok
    · intro m s
      simp only [hD]
      split_ifs with h
      · obtain ⟨rfl, rfl⟩ := h; exact hO
      · simp
    · intro m s
      simp only [hD]
      split_ifs with h
      · obtain ⟨rfl, rfl⟩ := h; exact hdet
      · simp
  have h0 : Spec.StartState (demoRng D) none 0 0 := Or.inl ⟨rfl, rfl⟩
  have h1 : Spec.StartState (demoRng D) none 1 1 := Or.inl ⟨rfl, rfl⟩
  have hW := exec_rot (demoRng D) hd logm (n := 2) (by norm_num) h0
  have hG := exec_rotH (demoRng D) hd logm (n := 2) (by norm_num) h1
  rw [show ((demoRng D).orthogonal (2 + 2) 0).1 = 1 from hD0, orb_one, logm_one hl] at hW
  have hg0 : Spec.dropSmall 1e-10 (genMat (0 : Op (2 + 2))) = 0 := by
    rw [genMat, smul_zero, dropSmall_zero]
  rw [hg0, show Spec.quad (0 : Op (2 + 2)) (al 2) = 0 by simp [Spec.quad], smul_zero,
    show expm (0 : Op (2 ^ 2)) = 1 from NormedSpace.exp_zero] at hW
  rw [show ((demoRng D).orthogonal (2 + 2) 1).1 = O from hD1, horb,
    log_unique pairRot_unitary (hl _ _ pairRot_unitary) pairRot_log] at hG
  obtain ⟨-, hex, -⟩ := exec_pureState (demoRng D) logm hd hl (n := 2) (by norm_num) h0 hW
  refine ⟨_, hd, _, _, _, hex hG, ?_⟩
  intro c hc
  rw [one_mulVec, fock_zero] at hc
  apply pairGen_vacuum
  rw [show expm ((-Complex.I) • pairGen) *ᵥ Spec.fock (fun _ : Fin 2 => 0) = c • Spec.fock (fun _ : Fin 2 => 0) from hc,
    mulVec_smul, show jwLower 2 0 *ᵥ Spec.fock (fun _ : Fin 2 => 0) = 0 from by
      simpa using jwLower_fock (0 : Fin 2) (fun _ => 0), smul_zero]

/-! ## C53 -/

section
variable {σ : Type} (rng : Rng σ) (logm : (d : ℕ) → Op d → Op d)

theorem repro_seed {α : Type} (k : ℤ) (f : Unit → Rand σ α) : Spec.Reproducible (seedRng rng (some k) >>= f) := by
  intro s s'
  by_cases hk : 0 ≤ k ∧ k < 2 ^ 32
  · have h : ∀ s : σ, (seedRng rng (some k)).exec s = (.ok (), rng.seeded k.toNat) := by
      intro s; rw [seedRng, if_pos hk]; rfl
    rw [exec_bind_ok (h s), exec_bind_ok (h s')]
  · have h : ∀ s : σ, (seedRng rng (some k)).exec s = (.error .valueError, s) := by
      intro s; rw [seedRng, if_neg hk]; rfl
    rw [exec_bind_error (h s), exec_bind_error (h s')]

theorem repro_noDraw {α β : Type} (x : Except PyErr α) {f : α → Rand σ β} (h : ∀ a, Spec.Reproducible (f a)) :
    Spec.Reproducible (noDraw x >>= f) := by
  intro s s'
  cases x with
  | error e => rw [exec_bind_error (exec_noDraw _ s), exec_bind_error (exec_noDraw _ s')]
  | ok a =>
    rw [exec_bind_ok (exec_noDraw _ s), exec_bind_ok (exec_noDraw _ s')]
    exact h a s s'

theorem repro_orb (n : ℕ) (k : ℤ) : Spec.Reproducible (randomFFRotationOrb rng n (some k)) := repro_seed rng k _

/-- Code that continues a reproducible computation whose final state is also determined. -/
theorem repro_bind {α β : Type} {m : Rand σ α} {f : α → Rand σ β} (h : ∀ s s', m.exec s = m.exec s' ∨
    ∃ e, (m.exec s).1 = .error e ∧ (m.exec s').1 = .error e) : Spec.Reproducible (m >>= f) := by
  intro s s'
  rcases h s s' with h | ⟨e, h1, h2⟩
  · rw [exec_bind, exec_bind, h]
  · rw [exec_bind, exec_bind]
    rcases hm : m.exec s with ⟨a, t⟩
    rcases hm' : m.exec s' with ⟨a', t'⟩
    rw [hm] at h1; rw [hm'] at h2
    obtain rfl : a = _ := h1
    obtain rfl : a' = _ := h2
    rfl

theorem seeded_same {α : Type} (k : ℤ) (f : Unit → Rand σ α) (s s' : σ) :
    (seedRng rng (some k) >>= f).exec s = (seedRng rng (some k) >>= f).exec s' ∨
      ∃ e, ((seedRng rng (some k) >>= f).exec s).1 = .error e ∧ ((seedRng rng (some k) >>= f).exec s').1 = .error e := by
  by_cases hk : 0 ≤ k ∧ k < 2 ^ 32
  · have h : ∀ s : σ, (seedRng rng (some k)).exec s = (.ok (), rng.seeded k.toNat) := by
      intro s; rw [seedRng, if_pos hk]; rfl
    left
    rw [exec_bind_ok (h s), exec_bind_ok (h s')]
  · have h : ∀ s : σ, (seedRng rng (some k)).exec s = (.error .valueError, s) := by
      intro s; rw [seedRng, if_neg hk]; rfl
    right
    exact ⟨_, by rw [exec_bind_error (h s)], by rw [exec_bind_error (h s')]⟩

theorem rotH_eq (n : ℕ) (k : ℤ) : ∃ f, randomFFRotationH rng logm n (some k) = seedRng rng (some k) >>= f := by
  rw [randomFFRotationH, randomFFRotationOrb]
  exact ⟨_, bind_assoc _ _ _⟩

theorem rot_eq (n : ℕ) (k : ℤ) : ∃ f, randomFFRotation rng logm n (some k) = seedRng rng (some k) >>= f := by
  obtain ⟨f, hf⟩ := rotH_eq rng logm n k
  rw [randomFFRotation, hf]
  exact ⟨_, bind_assoc _ _ _⟩

/-- C53. With an integer seed, the outcome of every function of ff_lib.py and ff_random_states.py that takes a seed is
independent of the state of the generator before the call. -/
theorem C53_reproducible (n : ℕ) (m : PyObj) (N : Option PyObj) (fixedN returnH : Bool) (k : ℤ) :
    Spec.Reproducible (randomFFRotationOrb rng n (some k)) ∧
    Spec.Reproducible (randomFFRotationH rng logm n (some k)) ∧
    Spec.Reproducible (randomFFRotation rng logm n (some k)) ∧
    Spec.Reproducible (randomHGenerator rng n fixedN (some k)) ∧
    Spec.Reproducible (randomFFStatePure rng logm n (some k) returnH) ∧
    Spec.Reproducible (randomFFStateMixed rng logm n fixedN (some k) returnH) ∧
    Spec.Reproducible (randomQubitState rng m (some k)) ∧
    Spec.Reproducible (randomQubitPureState rng m (some k)) ∧
    Spec.Reproducible (randomFFStateRandH rng m (some k)) ∧
    Spec.Reproducible (randomFFStateRotPDF rng logm m (some k)) ∧
    Spec.Reproducible (randomFFPureStateW0 rng logm m (some k)) ∧
    Spec.Reproducible (randomFFPureStateWN rng logm m N (some k)) ∧
    Spec.Reproducible (randomFFPureStateCN rng m (some k)) := by
  refine ⟨repro_orb rng n k, ?_, ?_, repro_seed rng k _, repro_seed rng k _, repro_seed rng k _, ?_, ?_, ?_, ?_, ?_,
    ?_, ?_⟩
  · obtain ⟨f, hf⟩ := rotH_eq rng logm n k
    rw [hf]; exact repro_seed rng k f
  · obtain ⟨f, hf⟩ := rot_eq rng logm n k
    rw [hf]; exact repro_seed rng k f
  · exact repro_noDraw _ fun a => repro_seed rng k _
  · exact repro_noDraw _ fun a => repro_seed rng k _
  · exact repro_noDraw _ fun a => repro_seed rng k _
  · exact repro_noDraw _ fun a => repro_seed rng k _
  · exact repro_noDraw _ fun a => repro_seed rng k _
  · exact repro_noDraw _ fun a => repro_noDraw _ fun b => repro_seed rng k _
  · exact repro_noDraw _ fun a => repro_seed rng k _

/-- C53. Without a seed the result does depend on the state of the generator. -/
example : ¬ Spec.Reproducible (randomFFRotationOrb (demoRng fun m s => if Even m ∧ s = 1 then -1 else 1) 1 none) := by
  intro h
  have hd : Spec.DrawsOk (demoRng fun m s => if Even m ∧ s = 1 then -1 else 1) := by
    apply demo_ok
    · intro m s; split_ifs <;> simp
    · intro m s
      split_ifs with h
      · rw [Matrix.det_neg, Fintype.card_fin, h.1.neg_one_pow, det_one, mul_one]
      · simp
  have h1 := h 0 1
  rw [exec_orb _ hd 1 (Or.inl ⟨rfl, rfl⟩), exec_orb _ hd 1 (Or.inl ⟨rfl, rfl⟩),
    show ((demoRng fun m s => if Even m ∧ s = 1 then -1 else 1).orthogonal (1 + 1) 0).1 = 1 by simp [demoRng],
    show ((demoRng fun m s => if Even m ∧ s = 1 then -1 else 1).orthogonal (1 + 1) 1).1 = -1 by
      simp [demoRng],
    orb_one, orb_neg_one] at h1
  have h2 := congrFun (congrFun (Except.ok.inj h1) 0) 0
  rw [Matrix.neg_apply, Matrix.one_apply_eq] at h2
  norm_num at h2

/-- C53. A seed outside `0 .. 2^32 - 1` raises ValueError and leaves the generator untouched. -/
theorem C53_bad_seed (n : ℕ) (k : ℤ) (hk : k < 0 ∨ 2 ^ 32 ≤ k) (fixedN : Bool) (s : σ) :
    (randomFFRotationOrb rng n (some k)).exec s = (.error .valueError, s) ∧
    (randomHGenerator rng n fixedN (some k)).exec s = (.error .valueError, s) := by
  have h : (seedRng rng (some k)).exec s = (.error .valueError, s) := by
    rw [seedRng, if_neg (by omega)]; rfl
  exact ⟨exec_bind_error h, exec_bind_error h⟩

/-! ## C54 -/

theorem exec_check {n : ℕ} (hn : 1 ≤ n) (s : σ) :
    (noDraw (checkPositive (.int n)) : Rand σ ℕ).exec s = (.ok n, s) := by
  rw [exec_noDraw, checkPositive, if_neg (by omega)]
  rfl

/-- C54. `random_qubit_pure_state(n)` is a unit vector of length `2^n`. -/
theorem C54_pure (hd : Spec.DrawsOk rng) (n : ℕ) (hn : 1 ≤ n) (seed : Option ℤ) (s s0 : σ)
    (h : Spec.StartState rng seed s s0) :
    ∃ (ψ : Fin (2 ^ n) → ℂ) (s' : σ), (randomQubitPureState rng (.int n) seed).exec s = (.ok ⟨n, ψ⟩, s') ∧
      Spec.IsUnitVec ψ := by
  have hunit := unit_mulVec (hd.unitary (2 ^ n) s0) (unit_zeroState (d := 2 ^ n) (by positivity))
  refine ⟨_, (rng.unitary (2 ^ n) s0).2, ?_, hunit⟩
  rw [randomQubitPureState, exec_bind_ok (exec_check hn s), exec_bind_ok (exec_seed rng h),
    exec_bind_ok (exec_draw _ _), exec_bind_ok (exec_noDraw_ok (pyAssert_ok (isclose_one_unit hunit)) _), exec_pure]

theorem density_conj {d : ℕ} {p : Fin d → ℝ} (hp : Spec.IsProb p) {U : Op d} (hU : U * Uᴴ = 1) :
    Spec.IsDensity (U * diagonal (fun i => ((p i : ℝ) : ℂ)) * Uᴴ) where
  psd := by
    have h1 : (diagonal fun i => ((p i : ℝ) : ℂ)).PosSemidef := by
      rw [posSemidef_diagonal_iff]
      intro i
      exact_mod_cast hp.nonneg i
    exact h1.mul_mul_conjTranspose_same U
  trace_one := by
    rw [trace_mul_comm, ← mul_assoc, mul_eq_one_comm.1 hU, one_mul, trace_diagonal]
    have := hp.sum_one
    exact_mod_cast this

/-- C54. `random_qubit_state(n)` is the density matrix `U diag(p) U†` with `p` the drawn distribution, so `p` is its
spectrum. -/
theorem C54_mixed (hd : Spec.DrawsOk rng) (n : ℕ) (hn : 1 ≤ n) (seed : Option ℤ) (s s0 : σ)
    (h : Spec.StartState rng seed s s0) :
    ∃ (ρ : Op (2 ^ n)) (s' : σ), (randomQubitState rng (.int n) seed).exec s = (.ok ⟨2 ^ n, ρ⟩, s') ∧
      Spec.IsDensity ρ ∧ ∃ U ∈ Matrix.unitaryGroup (Fin (2 ^ n)) ℂ,
        ρ = U * diagonal (fun i => (((rng.dirichlet (2 ^ n) s0).1 i : ℝ) : ℂ)) * Uᴴ := by
  have hU := hd.unitary (2 ^ n) (rng.dirichlet (2 ^ n) s0).2
  have hp := hd.dirichlet (2 ^ n) (by positivity) s0
  have hdens := density_conj hp hU
  refine ⟨_, (rng.unitary (2 ^ n) (rng.dirichlet (2 ^ n) s0).2).2, ?_, hdens, _, mem_unitaryGroup_iff.2 hU, rfl⟩
  rw [randomQubitState, exec_bind_ok (exec_check hn s), exec_bind_ok (exec_seed rng h),
    exec_bind_ok (exec_draw _ _), exec_bind_ok (exec_draw _ _), exec_noDraw_ok (C16_density _ _ hdens)]

/-- C54. The argument is checked before the generator is touched, by all the functions with that check: integers that
are not positive raise ValueError, other objects TypeError. -/
theorem C54_validation (m : PyObj) (e : PyErr)
    (hm : (∃ z : ℤ, m = .int z ∧ z ≤ 0 ∧ e = .valueError) ∨ (m = .other ∧ e = .typeError)) (N : Option PyObj)
    (seed : Option ℤ) (s : σ) :
    (randomQubitState rng m seed).exec s = (.error e, s) ∧
    (randomQubitPureState rng m seed).exec s = (.error e, s) ∧
    (randomFFStateRandH rng m seed).exec s = (.error e, s) ∧
    (randomFFStateRotPDF rng logm m seed).exec s = (.error e, s) ∧
    (randomFFPureStateW0 rng logm m seed).exec s = (.error e, s) ∧
    (randomFFPureStateWN rng logm m N seed).exec s = (.error e, s) ∧
    (randomFFPureStateCN rng m seed).exec s = (.error e, s) := by
  have h : (noDraw (checkPositive m) : Rand σ ℕ).exec s = (.error e, s) := by
    rw [exec_noDraw]
    rcases hm with ⟨z, rfl, hz, rfl⟩ | ⟨rfl, rfl⟩
    · rw [checkPositive, if_pos hz]
    · rfl
  exact ⟨exec_bind_error h, exec_bind_error h, exec_bind_error h, exec_bind_error h, exec_bind_error h,
    exec_bind_error h, exec_bind_error h⟩

example : (∃ z : ℤ, PyObj.int (-3) = .int z ∧ z ≤ 0 ∧ PyErr.valueError = .valueError) ∨
    (PyObj.int (-3) = .other ∧ PyErr.valueError = .typeError) := Or.inl ⟨-3, rfl, by norm_num, rfl⟩

/-! ## C55 -/

/-- C55. `random_FF_state_randH(n)` is positive definite (in particular Hermitian) with trace one. -/
theorem C55_density (n : ℕ) (hn : 1 ≤ n) (seed : Option ℤ) (s s0 : σ) (h : Spec.StartState rng seed s s0) :
    ∃ (ρ : Op (2 ^ n)) (s' : σ), (randomFFStateRandH rng (.int n) seed).exec s = (.ok ⟨n, ρ⟩, s') ∧
      ρ.PosDef ∧ ρ.trace = 1 := by
  rw [randomFFStateRandH, exec_bind_ok (exec_check hn s), exec_bind_ok (exec_seed rng h),
    exec_bind_ok (exec_draw _ _), exec_bind_ok (exec_draw _ _), exec_bind_ok (exec_draw _ _),
    exec_bind_ok (exec_draw _ _)]
  generalize rng.randn n n s0 = d1
  generalize rng.randn n n d1.2 = d2
  generalize rng.randn n n d2.2 = d3
  generalize rng.randn n n d3.2 = d4
  set X : Op n := toC d1.1 + Complex.I • toC d2.1 with hX
  set Y : Op n := toC d3.1 + Complex.I • toC d4.1 with hY
  have hA : (X + Xᴴ).IsHermitian := by rw [IsHermitian, conjTranspose_add, conjTranspose_conjTranspose, add_comm]
  have hB : (Y - Yᵀ)ᵀ = -(Y - Yᵀ) := by rw [transpose_sub, transpose_transpose, neg_sub]
  have hHerm := buildH_herm _ _ hA hB
  set r : ℂ := 2 ^ (2 - (n : ℤ)) with hr
  have hop : buildOp n (r • buildV n (X + Xᴴ) (some (Y - Yᵀ))) (jordanWignerAlphas n) true =
      .ok (Spec.quad (Spec.dropSmall 1e-10 (r • buildH n (X + Xᴴ) (some (Y - Yᵀ)))) (al n)) := by
    rw [jordanWignerAlphas_eq, buildOp_square_direct _ _ hn, buildV_eq, ← Matrix.mul_smul, dropSmall_swapS_mul,
      quadDirect_al]
  have hr' : conj r = r := by rw [hr, map_zpow₀, Complex.conj_ofNat]
  have hG : (Spec.quad (Spec.dropSmall 1e-10 (r • buildH n (X + Xᴴ) (some (Y - Yᵀ)))) (al n)).IsHermitian := by
    apply quad_herm
    apply drop_herm
    rw [IsHermitian, conjTranspose_smul, hHerm.eq]
    congr 1
  have hb := gibbs_ok (d := 2 ^ n) (by positivity) hG
  exact ⟨_, _, exec_bind_ok (exec_noDraw_ok hop _), hb.1, hb.2⟩

/-! ## C56 -/

/-- C56. `random_FF_state_rotPDF(n)` is the density matrix `W diag(p) W†` with `W` unitary and `p` the drawn
distribution, which is what `returnS=True` returns in addition. -/
theorem C56_density (hd : Spec.DrawsOk rng) (hl : Spec.LogmOk logm) (n : ℕ) (hn : 1 ≤ n) (seed : Option ℤ)
    (s s0 : σ) (h : Spec.StartState rng seed s s0) :
    ∃ (ρ : Op (2 ^ n)) (p : Fin (2 ^ n) → ℝ) (s' : σ),
      (randomFFStateRotPDF rng logm (.int n) seed).exec s = (.ok ⟨n, ρ, p⟩, s') ∧
      Spec.IsDensity ρ ∧ Spec.IsProb p ∧
      ∃ W ∈ Matrix.unitaryGroup (Fin (2 ^ n)) ℂ, ρ = W * diagonal (fun i => ((p i : ℝ) : ℂ)) * Wᴴ := by
  obtain ⟨C, G, W, s1, -, -, hW, -, -, hWu⟩ := C50_unitary rng logm hd hl n hn none s0 s0 (Or.inl ⟨rfl, rfl⟩)
  have hWW : W * Wᴴ = 1 := mem_unitaryGroup_iff.1 hWu
  have hp := hd.dirichlet (2 ^ n) (by positivity) s1
  refine ⟨_, _, (rng.dirichlet (2 ^ n) s1).2, ?_, density_conj hp hWW, hp, W, hWu, rfl⟩
  rw [randomFFStateRotPDF, exec_bind_ok (exec_check hn s), exec_bind_ok (exec_seed rng h), exec_bind_ok hW,
    exec_bind_ok (exec_noDraw_ok (pyAssert_ok (allclose_of_eq hWW)) _), exec_bind_ok (exec_draw _ _), exec_pure]

/-! ## C57 -/

/-- C57. Applying the creation operators of the sites `N-1, ..., 0` to the vacuum gives exactly the computational
basis state with the first `N` sites filled. -/
theorem C57_initial (n N : ℕ) :
    initialStateWN n N = .ok (Spec.fock fun i : Fin n => if (i : ℕ) < N then 1 else 0) := by
  rw [initialStateWN_eq]
  congr 2
  funext i
  simp [filled]

/-- The rotations of the drawn generators preserve parity. -/
theorem rot_parity {n : ℕ} (R : Op (n + n)) (z : ℂ) :
    expm (z • Spec.quad R (al n)) * Spec.parity n = Spec.parity n * expm (z • Spec.quad R (al n)) := by
  apply expm_comm
  rw [Matrix.smul_mul, Matrix.mul_smul, quad_commute R (al n) (Spec.parity n) parity_al
    (fun i => by rw [al_conjTranspose]; exact parity_al _)]

/-- C57. `random_FF_pure_state_WN(n, N)` returns `W |1..1 0..0>` with `W` the rotation drawn with the next seed: a
unit vector of parity `(-1)^N`. -/
theorem C57_state (hd : Spec.DrawsOk rng) (hl : Spec.LogmOk logm) (n N : ℕ) (hn : 1 ≤ n) (hN : N ≤ n)
    (seed : Option ℤ) (s s0 s1 : σ) (h : Spec.StartState rng seed s s0)
    (h1 : Spec.StartState rng (nextSeed seed) s0 s1) :
    ∃ (W : Op (2 ^ n)) (s' : σ),
      (randomFFRotation rng logm n (nextSeed seed)).exec s0 = (.ok W, s') ∧
      let ψ := W *ᵥ Spec.fock fun i : Fin n => if (i : ℕ) < N then 1 else 0
      (randomFFPureStateWN rng logm (.int n) (some (.int N)) seed).exec s = (.ok ⟨n, ψ⟩, s') ∧
      Spec.IsUnitVec ψ ∧ Spec.parity n *ᵥ ψ = ((-1 : ℂ) ^ N) • ψ := by
  obtain ⟨C, G, W, s2, -, -, hW, -, -, hWu⟩ := C50_unitary rng logm hd hl n hn (nextSeed seed) s0 s1 h1
  refine ⟨W, s2, hW, ?_, unit_mulVec (mem_unitaryGroup_iff.1 hWu) (unit_fock _), ?_⟩
  · have hc : checkN n (some (.int N)) = .ok (some N) := by
      rw [checkN, if_neg (by omega)]; rfl
    rw [randomFFPureStateWN, exec_bind_ok (exec_check hn s), exec_bind_ok (exec_noDraw_ok hc _),
      exec_bind_ok (exec_seed rng h)]
    simp only
    rw [exec_bind_ok (exec_pure N s0), exec_bind_ok (exec_noDraw_ok (C57_initial n N) _), exec_bind_ok hW, exec_pure]
  · have hWe := hW
    rw [exec_rot rng hd logm hn h1] at hWe
    have hWeq := Except.ok.inj (Prod.mk.inj hWe).1
    have hp := parity_fock (filled n N 0)
    rw [filled_sum hN] at hp
    have hfil : Spec.fock (filled n N 0) = Spec.fock fun i : Fin n => if (i : ℕ) < N then 1 else 0 := by
      congr 1; funext i; simp [filled]
    rw [hfil] at hp
    rw [mulVec_mulVec, ← hWeq, ← rot_parity, ← mulVec_mulVec, hp, mulVec_smul]

/-- C57. With `N=None` the number of particles is drawn from `0 .. n` and the result is as for that number. -/
theorem C57_random_N (hd : Spec.DrawsOk rng) (hl : Spec.LogmOk logm) (n : ℕ) (hn : 1 ≤ n)
    (seed : Option ℤ) (s s0 s1 : σ) (h : Spec.StartState rng seed s s0)
    (h1 : Spec.StartState rng (nextSeed seed) (rng.randint (n + 1) s0).2 s1) :
    ∃ (N : ℕ) (ψ : Fin (2 ^ n) → ℂ) (s' : σ), N ≤ n ∧
      (randomFFPureStateWN rng logm (.int n) none seed).exec s = (.ok ⟨n, ψ⟩, s') ∧
      Spec.IsUnitVec ψ ∧ Spec.parity n *ᵥ ψ = ((-1 : ℂ) ^ N) • ψ := by
  obtain ⟨C, G, W, s2, -, -, hW, -, -, hWu⟩ := C50_unitary rng logm hd hl n hn (nextSeed seed) _ s1 h1
  have hN : (rng.randint (n + 1) s0).1 ≤ n := Nat.lt_succ_iff.1 (hd.randint (n + 1) (by omega) s0)
  refine ⟨(rng.randint (n + 1) s0).1, W *ᵥ Spec.fock fun i : Fin n => if (i : ℕ) < (rng.randint (n + 1) s0).1 then 1 else 0,
    s2, hN, ?_, unit_mulVec (mem_unitaryGroup_iff.1 hWu) (unit_fock _), ?_⟩
  · rw [randomFFPureStateWN, exec_bind_ok (exec_check hn s), exec_bind_ok (exec_noDraw_ok (show checkN n none = .ok none from rfl) _),
      exec_bind_ok (exec_seed rng h)]
    simp only
    rw [exec_bind_ok (exec_draw _ _), exec_bind_ok (exec_noDraw_ok (C57_initial n _) _), exec_bind_ok hW, exec_pure]
  · have hWe := hW
    rw [exec_rot rng hd logm hn h1] at hWe
    have hWeq := Except.ok.inj (Prod.mk.inj hWe).1
    have hp := parity_fock (filled n (rng.randint (n + 1) s0).1 0)
    rw [filled_sum hN] at hp
    have hfil : Spec.fock (filled n (rng.randint (n + 1) s0).1 0) =
        Spec.fock fun i : Fin n => if (i : ℕ) < (rng.randint (n + 1) s0).1 then 1 else 0 := by
      congr 1; funext i; simp [filled]
    rw [hfil] at hp
    rw [mulVec_mulVec, ← hWeq, ← rot_parity, ← mulVec_mulVec, hp, mulVec_smul]

/-- C57. `N` outside `0 .. n`, or not an integer, raises ValueError before the generator is touched. -/
theorem C57_invalid (n : ℕ) (hn : 1 ≤ n) (N : PyObj) (hN : N = .other ∨ ∃ z : ℤ, N = .int z ∧ (z < 0 ∨ n < z))
    (seed : Option ℤ) (s : σ) :
    (randomFFPureStateWN rng logm (.int n) (some N) seed).exec s = (.error .valueError, s) := by
  have hc : checkN n (some N) = .error .valueError := by
    rcases hN with rfl | ⟨z, rfl, hz⟩
    · rfl
    · rw [checkN, if_pos (by omega)]
  rw [randomFFPureStateWN, exec_bind_ok (exec_check hn s)]
  exact exec_bind_error (by rw [exec_noDraw, hc])

/-- C57. The largest seed that numpy accepts is not usable here: the rotation is drawn with `seed + 1`, which raises
ValueError. -/
theorem C57_last_seed (n N : ℕ) (hn : 1 ≤ n) (hN : N ≤ n) (s : σ) :
    ((randomFFPureStateWN rng logm (.int n) (some (.int N)) (some (2 ^ 32 - 1))).exec s).1 = .error .valueError := by
  have hc : checkN n (some (.int N)) = .ok (some N) := by
    rw [checkN, if_neg (by omega)]; rfl
  have h : Spec.StartState rng (some (2 ^ 32 - 1)) s (rng.seeded (2 ^ 32 - 1)) :=
    Or.inr ⟨2 ^ 32 - 1, by norm_num, by norm_num, rfl⟩
  have hbad : ∀ t : σ, (seedRng rng (some (2 ^ 32))).exec t = (.error .valueError, t) := by
    intro t; rw [seedRng, if_neg (by norm_num)]; rfl
  have hrot : ∀ t : σ, (randomFFRotation rng logm n (some (2 ^ 32))).exec t = (.error .valueError, t) := by
    intro t
    obtain ⟨f, hf⟩ := rot_eq rng logm n (2 ^ 32)
    rw [hf, exec_bind_error (hbad t)]
  rw [randomFFPureStateWN, exec_bind_ok (exec_check hn s), exec_bind_ok (exec_noDraw_ok hc _),
    exec_bind_ok (exec_seed rng h)]
  simp only
  rw [exec_bind_ok (exec_pure N _), exec_bind_ok (exec_noDraw_ok (C57_initial n N) _),
    show nextSeed (some (2 ^ 32 - 1)) = some (2 ^ 32) from rfl, exec_bind_error (hrot _)]

/-- Seeds that meet the hypotheses of `C57_state`. -/
example (s : σ) : Spec.StartState rng (some 7) s (rng.seeded 7) ∧
    Spec.StartState rng (nextSeed (some 7)) (rng.seeded 7) (rng.seeded 8) :=
  ⟨Or.inr ⟨7, by norm_num, by norm_num, rfl⟩, Or.inr ⟨8, by norm_num, rfl, rfl⟩⟩

/-! ## C58 -/

/-- The rotated operators satisfy the anticommutation relations. -/
theorem rotated_conj {n : ℕ} {C : Op (n + n)} (hc : IsCanonicalU C) (k : Fin (n + n)) :
    (∑ l, C k l • al n l)ᴴ = ∑ l, C (fl k) l • al n l := by
  rw [conjTranspose_sum]
  have hinv : Function.Involutive (fl : Fin (n + n) → Fin (n + n)) := fl_fl
  rw [← Equiv.sum_comp hinv.toPerm (fun l => C (fl k) l • al n l)]
  refine Finset.sum_congr rfl fun l _ => ?_
  rw [conjTranspose_smul, al_conjTranspose]
  congr 1
  exact (canonicalU_entries hc k l).symm

theorem rotated_car {n : ℕ} {C : Op (n + n)} (hc : IsCanonicalU C) (hs : Spec.IsSymplectic C) (g : ℕ → Op (2 ^ n))
    (hg : ∀ i : Fin n, g i = ∑ l, C (Fin.castAdd n i) l • al n l) : IsCAR g n where
  anti i hi j hj := by
    have := rotated_anticomm C (Fin.castAdd n ⟨i, hi⟩) (Fin.castAdd n ⟨j, hj⟩)
    rw [(symp_iff _).1 hs, swapS, blk_11, Matrix.zero_apply, zero_smul, ← hg ⟨i, hi⟩, ← hg ⟨j, hj⟩] at this
    exact this
  mixed i hi j hj := by
    have := rotated_anticomm C (Fin.natAdd n ⟨i, hi⟩) (Fin.castAdd n ⟨j, hj⟩)
    have hci := rotated_conj hc (Fin.castAdd n ⟨i, hi⟩)
    rw [fl_left] at hci
    rw [(symp_iff _).1 hs, swapS, blk_21, ← hci, ← hg ⟨i, hi⟩, ← hg ⟨j, hj⟩] at this
    rw [this]
    by_cases hij : i = j
    · subst hij; simp
    · rw [if_neg hij, Matrix.one_apply_ne (fun h => hij (congrArg Fin.val h)), zero_smul]

/-- C58. Let `C` be the orbital rotation that `random_FF_pure_state_CN(n)` draws, `c_k = Σ_l C_kl α_l` the rotated
operators (creation operators first) and `Y` the random vector. If `Y` is not orthogonal to the common kernel of the
rotated lowering operators, and `C` has no entry that is small but non-zero, the result is
`c_0 c_1 ... c_(N-1) |vac>` with a unit vector `|vac>` annihilated by the rotated lowering operators: a unit vector whose
rotated occupation numbers are 1 for the first `N` modes and 0 for the others. -/
theorem C58_state (hd : Spec.DrawsOk rng) (n : ℕ) (hn : 1 ≤ n) (seed : Option ℤ) (s s0 s1 s2 : σ)
    (h : Spec.StartState rng seed s s0) (h1 : Spec.StartState rng (nextSeed seed) (rng.randint (n + 1) s0).2 s1)
    (C : Op (n + n))
    (hC : (randomFFRotationOrb rng n (nextSeed seed)).exec (rng.randint (n + 1) s0).2 = (.ok C, s2))
    (hsmall : ∀ i j, C i j = 0 ∨ 1e-9 ≤ ‖C i j‖)
    (f : Fin (n + n) → Op (2 ^ n)) (hf : jordanWignerAlphas n = List.ofFn f)
    (c : Fin n → Op (2 ^ n)) (hc : ∀ i, c i = ∑ l, C (Fin.castAdd n i) l • f l)
    (hY : ∃ v, (∀ i, (c i)ᴴ *ᵥ v = 0) ∧
      Spec.inner v (fun i => (((rng.randn (2 ^ n) 1 s2).1 i 0 : ℝ) : ℂ)) ≠ 0) :
    let N := (rng.randint (n + 1) s0).1
    ∃ vac ψ : Fin (2 ^ n) → ℂ,
      (randomFFPureStateCN rng (.int n) seed).exec s = (.ok ⟨n, ψ⟩, (rng.randn (2 ^ n) 1 s2).2) ∧
      N ≤ n ∧ Spec.IsUnitVec vac ∧ (∀ i, (c i)ᴴ *ᵥ vac = 0) ∧
      ψ = ((List.ofFn c).take N).prod *ᵥ vac ∧ Spec.IsUnitVec ψ ∧
      ∀ i : Fin n, (c i * (c i)ᴴ) *ᵥ ψ = (if (i : ℕ) < N then (1 : ℂ) else 0) • ψ := by
  intro N
  rw [jordanWignerAlphas_eq] at hf
  obtain rfl := List.ofFn_injective hf
  rw [exec_orb rng hd n h1] at hC
  obtain ⟨hC1, hC2⟩ := Prod.mk.inj hC
  have hC1 := Except.ok.inj hC1
  have hO := hd.orthogonal (n + n) s1
  have hcan : IsCanonicalU C := hC1 ▸ orb_canonical _
  have hsymp : Spec.IsSymplectic C := hC1 ▸ orb_symp hO
  have huni : C * Cᴴ = 1 := hC1 ▸ orb_unitary hO
  set Y : Fin (2 ^ n) → ℂ := fun i => (((rng.randn (2 ^ n) 1 s2).1 i 0 : ℝ) : ℂ) with hYdef
  -- the rotated creation operators as a sequence
  set g : ℕ → Op (2 ^ n) := fun j => if hj : j < n then c ⟨j, hj⟩ else 0 with hgdef
  have hg : ∀ i : Fin n, g i = c i := fun i => by simp [hgdef]
  have hcar : IsCAR g n := rotated_car hcan hsymp g fun i => by rw [hg, hc]
  have hget : ∀ j < n, listGet (List.ofFn fun k : Fin (n + n) => ∑ l, C k l • al n l) j = .ok (g j) := by
    intro j hj
    rw [listGet_ofFn _ _ (by omega), hg ⟨j, hj⟩, hc]
    rfl
  -- the vacuum
  obtain ⟨v, hv, hvY⟩ := hY
  have hY0 : Y ≠ 0 := by
    intro h0; rw [h0, inner_zero_right] at hvY; exact hvY rfl
  set Y' : Fin (2 ^ n) → ℂ := ((vnorm Y : ℝ) : ℂ)⁻¹ • Y with hY'
  have hvY' : Spec.inner v Y' ≠ 0 := by
    rw [hY', inner_smul_right]
    refine mul_ne_zero (inv_ne_zero ?_) hvY
    have : vnorm Y ≠ 0 := fun h0 => hY0 (vnorm_eq_zero.1 h0)
    exact_mod_cast this
  have hPv : vacP g n *ᵥ v = v := vacP_fix fun i hi => by rw [hg ⟨i, hi⟩]; exact hv _
  have hPY : vacP g n *ᵥ Y' ≠ 0 := by
    intro h0
    apply hvY'
    rw [← hPv, inner_mul_left, vacP_herm hcar le_rfl, h0, inner_zero_right]
  set vac : Fin (2 ^ n) → ℂ := ((vnorm (vacP g n *ᵥ Y') : ℝ) : ℂ)⁻¹ • (vacP g n *ᵥ Y') with hvac
  have hvacu : Spec.IsUnitVec vac := unit_normalise hPY
  have hkill : ∀ j < n, (g j)ᴴ *ᵥ vac = 0 := by
    intro j hj
    rw [hvac, mulVec_smul, mulVec_mulVec, vacP_kill hcar le_rfl hj, zero_mulVec, smul_zero]
  obtain ⟨hψu, hocc⟩ := fillP_ok hcar N n le_rfl vac hvacu hkill (fun j h2 h3 => by omega)
  have hN : N ≤ n := Nat.lt_succ_iff.1 (hd.randint (n + 1) (by omega) s0)
  refine ⟨vac, fillP g N n vac, ?_, hN, hvacu, fun i => by rw [← hg]; exact hkill i i.2,
    ?_, hψu, fun i => by rw [← hg]; exact hocc i i.2⟩
  · have hS := computeAlgebraS_ok (d := 2 ^ n) (by positivity) hn (al n) (swapS n) al_anticomm
    have hSr := computeAlgebraS_ok (d := 2 ^ n) (by positivity) hn (fun k => ∑ l, C k l • al n l) (swapS n)
      (fun i j => by rw [rotated_anticomm, (symp_iff _).1 hsymp])
    have hrot := rotate_exact C (al n) hsmall
    have hfill : stateFromOrbitals n N (List.ofFn fun k : Fin (n + n) => ∑ l, C k l • al n l) Y =
        .ok (fillP g N n vac) := by
      rw [stateFromOrbitals, vacuumProjector_eq _ hget]
      exact fillSites_eq _ g N n vac hget
    rw [randomFFPureStateCN, exec_bind_ok (exec_check hn s), exec_bind_ok (exec_seed rng h),
      exec_bind_ok (exec_draw _ _), exec_bind_ok ((exec_orb rng hd n h1).trans hC),
      exec_bind_ok (exec_noDraw_ok (pyAssert_ok (allclose_of_eq huni)) _)]
    simp only [jordanWignerAlphas_eq]
    rw [exec_bind_ok (exec_noDraw_ok hrot _), exec_bind_ok (exec_noDraw_ok (rfl : asList (some _) = .ok _) _),
      exec_bind_ok (exec_noDraw_ok hS _), exec_bind_ok (exec_noDraw_ok hSr _),
      exec_bind_ok (exec_noDraw_ok (pyAssert_ok ⟨rfl, allclose_self _⟩) _), exec_bind_ok (exec_draw _ _),
      exec_bind_ok (exec_noDraw_ok hfill _), exec_pure]
  · rw [fillP_prod, min_eq_right hN]
    congr 2
    apply List.ext_getElem
    · simp [hN]
    · intro i h2 h3
      have hi : i < n := by simp at h2; omega
      have h4 := hg ⟨i, hi⟩
      simp only [List.getElem_map, List.getElem_range, List.getElem_take, List.getElem_ofFn]
      exact h4

/-- A draw that meets the hypotheses of `C58_state`: the identity rotation and the vector of ones. -/
example : ∃ rng : Rng ℕ, Spec.DrawsOk rng ∧
    (randomFFRotationOrb rng 2 (nextSeed (some 3))).exec (rng.randint (2 + 1) (rng.seeded 3)).2 = (.ok 1, 5) ∧
    (∀ i j, (1 : Op (2 + 2)) i j = 0 ∨ 1e-9 ≤ ‖(1 : Op (2 + 2)) i j‖) ∧
    ∃ v : Fin (2 ^ 2) → ℂ, (∀ i : Fin 2, (∑ l, (1 : Op (2 + 2)) (Fin.castAdd 2 i) l • al 2 l)ᴴ *ᵥ v = 0) ∧
      Spec.inner v (fun i => (((rng.randn (2 ^ 2) 1 5).1 i 0 : ℝ) : ℂ)) ≠ 0 := by
  have hd : Spec.DrawsOk (demoRng fun _ _ => 1) := demo_ok (by simp) (by simp)
  refine ⟨_, hd, ?_, ?_, Spec.fock (fun _ => 0), ?_, ?_⟩
  · rw [exec_orb _ hd 2 (seed := nextSeed (some 3)) (s0 := 4) (Or.inr ⟨4, by norm_num, rfl, rfl⟩),
      show ((demoRng fun _ _ => 1).orthogonal (2 + 2) 4).1 = 1 from rfl, orb_one]
    rfl
  · intro i j
    by_cases hij : i = j
    · right; rw [hij, Matrix.one_apply_eq, norm_one]; norm_num
    · left; rw [Matrix.one_apply_ne hij]
  · intro i
    rw [Finset.sum_eq_single (Fin.castAdd 2 i)]
    · rw [Matrix.one_apply_eq, one_smul, al_left, conjTranspose_conjTranspose, jwLower_fock, if_neg (by simp)]
    · intro b _ hb; rw [Matrix.one_apply_ne (Ne.symm hb), zero_smul]
    · simp
  · rw [← fock_zero, Spec.inner, Finset.sum_eq_single (0 : Fin (2 ^ 2))]
    · simp [zeroState, demoRng]
    · intro b _ hb
      have : (b : ℕ) ≠ 0 := fun h => hb (Fin.ext h)
      simp [zeroState, this]
    · simp

/-! ## C85 -/

/-- C85. `random_FF_pure_state_W0(n)` returns `W |0..0>` for the rotation `W` drawn with the same seed: a unit vector of
even parity. -/
theorem C85_W0 (hd : Spec.DrawsOk rng) (hl : Spec.LogmOk logm) (n : ℕ) (hn : 1 ≤ n)
    (seed : Option ℤ) (s s0 : σ) (h : Spec.StartState rng seed s s0) :
    ∃ (W : Op (2 ^ n)) (s' : σ),
      (randomFFRotation rng logm n seed).exec s = (.ok W, s') ∧
      let ψ := W *ᵥ Spec.fock fun _ : Fin n => 0
      (randomFFPureStateW0 rng logm (.int n) seed).exec s = (.ok ⟨n, ψ⟩, s') ∧
      Spec.IsUnitVec ψ ∧ Spec.parity n *ᵥ ψ = ψ := by
  have hst := starts_again rng h
  have hW := exec_rot rng hd logm hn hst
  have hW' := exec_rot rng hd logm hn h
  obtain ⟨C, G, W, s2, -, -, hW2, -, -, hWu⟩ := C50_unitary rng logm hd hl n hn seed s0 s0 hst
  have hWeq := Except.ok.inj (Prod.mk.inj (hW2.symm.trans hW)).1
  have hunit : Spec.IsUnitVec (W *ᵥ zeroState (2 ^ n)) :=
    unit_mulVec (mem_unitaryGroup_iff.1 hWu) (unit_zeroState (by positivity))
  refine ⟨W, s2, ?_, ?_, ?_, ?_⟩
  · rw [hW', ← hW, hW2]
  · rw [randomFFPureStateW0, exec_bind_ok (exec_check hn s), exec_bind_ok (exec_seed rng h), exec_bind_ok hW2,
      exec_bind_ok (exec_noDraw_ok (pyAssert_ok (isclose_one_unit hunit)) _), exec_pure, fock_zero]
  · rw [← fock_zero]; exact hunit
  · have hp := parity_fock (fun _ : Fin n => (0 : Fin 2))
    simp only [Fin.val_zero, Finset.sum_const_zero, pow_zero, one_smul] at hp
    rw [mulVec_mulVec, hWeq, ← rot_parity, ← mulVec_mulVec, hp]

end

end FF.Props
