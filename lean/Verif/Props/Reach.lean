import Verif.Proofs.Reach
import Verif.Props.Ground

/-!
# Property C121: exactly which values the random functions can return

"Can be returned" means: some sequence of draws within the ranges of numpy's and scipy's generators
(`Spec.DrawsOk`) makes the call return that value.
-/

namespace FF.Props

open Matrix
open scoped ComplexConjugate ComplexOrder

/-- C121. `random_H_generator(n, fixedN)` can return exactly the Hermitian, particle-hole symmetric arrays, with
`fixedN` those whose off-diagonal blocks vanish. -/
theorem C121_generator (n : ℕ) (fixedN : Bool) (H : Op (n + n)) :
    (∃ rng : Rng ℕ, Spec.DrawsOk rng ∧ ∃ s', (randomHGenerator rng n fixedN none).exec 0 = (.ok H, s')) ↔
      H.IsHermitian ∧ Spec.swap n * Hᵀ * Spec.swap n = -H ∧
        (fixedN = true → Spec.block H 0 1 = 0 ∧ Spec.block H 1 0 = 0) := by
  constructor
  · rintro ⟨rng, -, s', h⟩
    obtain ⟨H', s'', h', h1, h2, h3⟩ := C51_generator rng n fixedN none 0 0 (Or.inl ⟨rfl, rfl⟩)
    rw [h] at h'
    obtain rfl : H = H' := Except.ok.inj (Prod.mk.inj h').1
    exact ⟨h1, h2, h3⟩
  · rintro ⟨h1, h2, h3⟩
    rw [← swapS_eq] at h2
    obtain ⟨A, B, hA, hB, rfl⟩ := buildH_of_ph h1 h2
    have hB0 : fixedN = true → B = 0 := by
      intro hf
      have := (h3 hf).1
      ext i j
      have h4 := congrFun (congrFun this i) j
      rw [show Spec.block (buildH n A (some B)) 0 1 i j = buildH n A (some B) (Fin.castAdd n i) (Fin.natAdd n j) from by
        simp [Spec.block, Fin.natAdd, Fin.castAdd, Fin.castLE]] at h4
      rw [buildH] at h4
      simpa only [blk_12, Option.getD_some] using h4
    refine ⟨scriptRng (1 : RMat 1) 1 (fun _ => 1) (drawsOf ((1 / 2 : ℂ) • A) ((1 / 2 : ℂ) • B)),
      script_ok _ (by simp) (by simp) (by simp) prob_exists, 4, ?_⟩
    rw [randomHGenerator, exec_bind_ok (exec_seed _ (Or.inl ⟨rfl, rfl⟩)), exec_bind_ok (exec_draw _ _),
      exec_bind_ok (exec_draw _ _), exec_bind_ok (exec_draw _ _), exec_bind_ok (exec_draw _ _), exec_pure]
    simp only [script_randn, zero_add]
    have e1 : toC (drawsOf ((1 / 2 : ℂ) • A) ((1 / 2 : ℂ) • B) 0) +
        Complex.I • toC (drawsOf ((1 / 2 : ℂ) • A) ((1 / 2 : ℂ) • B) 1) = (1 / 2 : ℂ) • A := re_add_im_arr _
    have e2 : toC (drawsOf ((1 / 2 : ℂ) • A) ((1 / 2 : ℂ) • B) (1 + 1)) +
        Complex.I • toC (drawsOf ((1 / 2 : ℂ) • A) ((1 / 2 : ℂ) • B) (1 + 1 + 1)) = (1 / 2 : ℂ) • B := re_add_im_arr _
    rw [e1, e2]
    have e3 : (1 / 2 : ℂ) • A + ((1 / 2 : ℂ) • A)ᴴ = A := by
      rw [conjTranspose_smul, hA.eq, ← add_smul]
      norm_num
    have e4 : (1 / 2 : ℂ) • B - ((1 / 2 : ℂ) • B)ᵀ = B := by
      rw [transpose_smul, hB, smul_neg, sub_neg_eq_add, ← add_smul]
      norm_num
    rw [e3, e4]
    cases fixedN
    · rfl
    · rw [hB0 rfl]
      simp

/-- Non-vacuity: the Kitaev chain, for every size and all parameters, is an array the generator can return. -/
example (n : ℕ) (mu t delta : ℝ) :
    ∃ rng : Rng ℕ, Spec.DrawsOk rng ∧
      ∃ s', (randomHGenerator rng n false none).exec 0 = (.ok (kitaevChain n mu t delta), s') := by
  obtain ⟨hA, hB⟩ := kitaev_parts n mu t delta
  rw [kitaev_eq]
  refine (C121_generator n false _).2 ⟨buildH_herm _ _ hA hB, ?_, by simp⟩
  rw [← swapS_eq]
  exact buildH_ph _ _ hA hB

/-- C121. `random_FF_rotation(n, returnOrb=True)` can return exactly the unitary symplectic arrays with determinant
one: never one with determinant minus one, so never one that exchanges a single creation with an annihilation
operator. -/
theorem C121_orbital (n : ℕ) (C : Op (n + n)) :
    (∃ rng : Rng ℕ, Spec.DrawsOk rng ∧ ∃ s', (randomFFRotationOrb rng n none).exec 0 = (.ok C, s')) ↔
      C ∈ Matrix.unitaryGroup (Fin (n + n)) ℂ ∧ Spec.IsSymplectic C ∧ C.det = 1 := by
  constructor
  · rintro ⟨rng, hd, s', h⟩
    rw [exec_orb rng hd n (Or.inl ⟨rfl, rfl⟩)] at h
    obtain rfl := Except.ok.inj (Prod.mk.inj h).1
    exact ⟨mem_unitaryGroup_iff.2 (orb_unitary (hd.orthogonal _ _)), orb_symp (hd.orthogonal _ _),
      orb_det (hd.orthogonal_det _ _)⟩
  · rintro ⟨hu, hs, hdet⟩
    have hC : C * Cᴴ = 1 := mem_unitaryGroup_iff.1 hu
    obtain ⟨O, hO, hOd, rfl⟩ := exists_orb hC (canonical_of_symp hC hs) hdet
    by_cases hn : n = 0
    · subst hn
      refine ⟨demoRng fun _ _ => 1, demo_ok (by simp) (by simp), 1, ?_⟩
      rw [exec_orb _ (demo_ok (by simp) (by simp)) 0 (Or.inl ⟨rfl, rfl⟩)]
      congr 2
    · have hd : Spec.DrawsOk (scriptRng O 1 (fun _ => (1 : ℝ) / (n + n : ℕ)) (fun _ => (1 : RMat 1))) := by
        refine script_ok _ hO hOd (by simp) ⟨fun i => by positivity, ?_⟩
        have : ((n + n : ℕ) : ℝ) ≠ 0 := by
          have : n + n ≠ 0 := by omega
          exact_mod_cast this
        rw [Finset.sum_const, Finset.card_univ, Fintype.card_fin, nsmul_eq_mul, mul_one_div, div_self this]
      refine ⟨_, hd, 1, ?_⟩
      rw [exec_orb _ hd n (Or.inl ⟨rfl, rfl⟩), script_orthogonal]

/-- Non-vacuity: both classes are inhabited, with determinant one by the identity and with determinant minus one by the
exchange of the operators `a_0` and `a_0†` of a single mode. -/
example : (1 : Op (1 + 1)).det = 1 ∧ (Spec.swap 1) ∈ Matrix.unitaryGroup (Fin (1 + 1)) ℂ ∧
    Spec.IsSymplectic (Spec.swap 1) ∧ (Spec.swap 1).det = -1 := by
  have h1 : (swapS 1) * (swapS 1)ᴴ = 1 := by rw [swapS_conjTranspose, swapS_sq]
  refine ⟨det_one, ?_, ?_, ?_⟩
  · rw [← swapS_eq]; exact mem_unitaryGroup_iff.2 h1
  · rw [symp_iff, ← swapS_eq, swapS_transpose, swapS_sq, one_mul]
  · rw [det_fin_two]
    simp [Spec.swap]

/-- C121. `random_qubit_pure_state(n)` can return exactly the unit vectors. -/
theorem C121_pure (n : ℕ) (hn : 1 ≤ n) (ψ : Fin (2 ^ n) → ℂ) :
    (∃ rng : Rng ℕ, Spec.DrawsOk rng ∧ ∃ s', (randomQubitPureState rng (.int n) none).exec 0 = (.ok ⟨n, ψ⟩, s')) ↔
      Spec.IsUnitVec ψ := by
  constructor
  · rintro ⟨rng, hd, s', h⟩
    obtain ⟨ψ', s'', h', hu⟩ := C54_pure rng hd n hn none 0 0 (Or.inl ⟨rfl, rfl⟩)
    rw [h] at h'
    have := Except.ok.inj (Prod.mk.inj h').1
    obtain rfl := eq_of_heq (Sigma.mk.inj this).2
    exact hu
  · intro hψ
    obtain ⟨U, hU, hUv⟩ := exists_unitary_first (d := 2 ^ n) (by positivity) hψ
    have hp : Spec.IsProb (fun _ : Fin (2 ^ n) => (1 : ℝ) / (2 ^ n : ℕ)) := by
      refine ⟨fun i => by positivity, ?_⟩
      have : ((2 ^ n : ℕ) : ℝ) ≠ 0 := by exact_mod_cast (by positivity : 2 ^ n ≠ 0)
      rw [Finset.sum_const, Finset.card_univ, Fintype.card_fin, nsmul_eq_mul, mul_one_div, div_self this]
    refine ⟨scriptRng 1 U _ (fun _ => (1 : RMat 1)), script_ok _ (by simp) (by simp) hU hp, 1, ?_⟩
    rw [randomQubitPureState, exec_bind_ok (exec_check hn 0), exec_bind_ok (exec_seed _ (Or.inl ⟨rfl, rfl⟩)),
      exec_bind_ok (exec_draw _ _), script_unitary, hUv,
      exec_bind_ok (exec_noDraw_ok (pyAssert_ok (isclose_one_unit hψ)) _), exec_pure]

example : Spec.IsUnitVec (Spec.fock (fun _ : Fin 2 => 1)) := unit_fock _

/-- C121. `random_qubit_state(n)` can return exactly the density matrices. -/
theorem C121_mixed (n : ℕ) (hn : 1 ≤ n) (ρ : Op (2 ^ n)) :
    (∃ rng : Rng ℕ, Spec.DrawsOk rng ∧ ∃ s', (randomQubitState rng (.int n) none).exec 0 = (.ok ⟨2 ^ n, ρ⟩, s')) ↔
      Spec.IsDensity ρ := by
  constructor
  · rintro ⟨rng, hd, s', h⟩
    obtain ⟨ρ', s'', h', hu, -⟩ := C54_mixed rng hd n hn none 0 0 (Or.inl ⟨rfl, rfl⟩)
    rw [h] at h'
    have := Except.ok.inj (Prod.mk.inj h').1
    obtain rfl := eq_of_heq (Sigma.mk.inj this).2
    exact hu
  · intro hρ
    obtain ⟨U, p, hU, hp, he⟩ := exists_density_conj hρ
    refine ⟨scriptRng 1 U p (fun _ => (1 : RMat 1)), script_ok _ (by simp) (by simp) hU hp, 2, ?_⟩
    rw [randomQubitState, exec_bind_ok (exec_check hn 0), exec_bind_ok (exec_seed _ (Or.inl ⟨rfl, rfl⟩)),
      exec_bind_ok (exec_draw _ _), exec_bind_ok (exec_draw _ _)]
    simp only [script_dirichlet, script_unitary]
    rw [he, exec_noDraw_ok (C16_density _ _ hρ)]

/-- C121. `random_FF_state_randH(n)` can return exactly the states `exp(-Q) / tr exp(-Q)` where `Q` is the operator
that `build_op` returns for some `build_H(n, A, B)` with `A` Hermitian and `B` antisymmetric: the rescaling by
`2^(2-n)` excludes none of them. -/
theorem C121_randH (n : ℕ) (hn : 1 ≤ n) (ρ : Op (2 ^ n)) :
    (∃ rng : Rng ℕ, Spec.DrawsOk rng ∧ ∃ s', (randomFFStateRandH rng (.int n) none).exec 0 = (.ok ⟨n, ρ⟩, s')) ↔
      ∃ (A B : Op n) (Q : Op (2 ^ n)), A.IsHermitian ∧ Bᵀ = -B ∧
        buildOp n (buildH n A (some B)) (jordanWignerAlphas n) false = .ok Q ∧
        ρ = (NormedSpace.exp (-Q)).trace⁻¹ • NormedSpace.exp (-Q) := by
  set r : ℂ := 2 ^ (2 - (n : ℤ)) with hr
  have hr' : conj r = r := by rw [hr, map_zpow₀, Complex.conj_ofNat]
  have hr0 : r ≠ 0 := zpow_ne_zero _ (by norm_num)
  have hsc : ∀ (c : ℂ), conj c = c → ∀ A B : Op n, c • buildH n A (some B) = buildH n (c • A) (some (c • B)) := by
    intro c hc A B
    simp only [buildH, Option.getD_some, cj_smul, hc, blk_smul, smul_neg]
  have hop : ∀ A B : Op n, buildOp n (r • buildV n A (some B)) (jordanWignerAlphas n) true =
      buildOp n (buildH n (r • A) (some (r • B))) (jordanWignerAlphas n) false := by
    intro A B
    rw [jordanWignerAlphas_eq, buildOp_square_direct _ _ hn, buildV_eq, ← Matrix.mul_smul, dropSmall_swapS_mul,
      quadDirect_al, buildOp_square _ _ hn, hsc r hr']
  constructor
  · rintro ⟨rng, -, s', h⟩
    rw [randomFFStateRandH, exec_bind_ok (exec_check hn 0), exec_bind_ok (exec_seed rng (Or.inl ⟨rfl, rfl⟩)),
      exec_bind_ok (exec_draw _ _), exec_bind_ok (exec_draw _ _), exec_bind_ok (exec_draw _ _),
      exec_bind_ok (exec_draw _ _)] at h
    revert h
    generalize rng.randn n n 0 = d1
    generalize rng.randn n n d1.2 = d2
    generalize rng.randn n n d2.2 = d3
    generalize rng.randn n n d3.2 = d4
    intro h
    set X : Op n := toC d1.1 + Complex.I • toC d2.1 with hX
    set Y : Op n := toC d3.1 + Complex.I • toC d4.1 with hY
    have hA : (X + Xᴴ).IsHermitian := by rw [IsHermitian, conjTranspose_add, conjTranspose_conjTranspose, add_comm]
    have hB : (Y - Yᵀ)ᵀ = -(Y - Yᵀ) := by rw [transpose_sub, transpose_transpose, neg_sub]
    have hq := hop (X + Xᴴ) (Y - Yᵀ)
    have hex : buildOp n (buildH n (r • (X + Xᴴ)) (some (r • (Y - Yᵀ)))) (jordanWignerAlphas n) false =
        .ok (Spec.quad (Spec.dropSmall 1e-10 (buildH n (r • (X + Xᴴ)) (some (r • (Y - Yᵀ))))) (al n)) := by
      rw [jordanWignerAlphas_eq, buildOp_square _ _ hn]
    refine ⟨r • (X + Xᴴ), r • (Y - Yᵀ), _, ?_, ?_, hex, ?_⟩
    · rw [IsHermitian, conjTranspose_smul, hA.eq]
      congr 1
    · rw [transpose_smul, hB, smul_neg]
    · rw [exec_bind_ok (exec_noDraw_ok (hq.trans hex) _), exec_pure] at h
      have := Except.ok.inj (Prod.mk.inj h).1
      exact (eq_of_heq (Sigma.mk.inj this).2).symm
  · rintro ⟨A, B, Q, hA, hB, hQ, rfl⟩
    set X : Op n := (r⁻¹ * (1 / 2)) • A with hX
    set Y : Op n := (r⁻¹ * (1 / 2)) • B with hY
    refine ⟨scriptRng (1 : RMat 1) 1 (fun _ => 1) (drawsOf X Y),
      script_ok _ (by simp) (by simp) (by simp) prob_exists, 4, ?_⟩
    rw [randomFFStateRandH, exec_bind_ok (exec_check hn 0), exec_bind_ok (exec_seed _ (Or.inl ⟨rfl, rfl⟩)),
      exec_bind_ok (exec_draw _ _), exec_bind_ok (exec_draw _ _), exec_bind_ok (exec_draw _ _),
      exec_bind_ok (exec_draw _ _)]
    simp only [script_randn, zero_add]
    have e1 : toC (drawsOf X Y 0) + Complex.I • toC (drawsOf X Y 1) = X := re_add_im_arr _
    have e2 : toC (drawsOf X Y (1 + 1)) + Complex.I • toC (drawsOf X Y (1 + 1 + 1)) = Y := re_add_im_arr _
    rw [e1, e2]
    have hc : conj (r⁻¹ * (1 / 2)) = r⁻¹ * (1 / 2) := by
      rw [map_mul, map_inv₀, hr', map_div₀, map_one, Complex.conj_ofNat]
    have hc2 : r * (r⁻¹ * (1 / 2) + r⁻¹ * (1 / 2)) = 1 := by
      field_simp
      norm_num
    have e3 : r • (X + Xᴴ) = A := by
      rw [hX, conjTranspose_smul, hA.eq, show star (r⁻¹ * (1 / 2)) = r⁻¹ * (1 / 2) from hc, ← add_smul, smul_smul, hc2,
        one_smul]
    have e4 : r • (Y - Yᵀ) = B := by
      rw [hY, transpose_smul, hB, smul_neg, sub_neg_eq_add, ← add_smul, smul_smul, hc2, one_smul]
    have hq := hop (X + Xᴴ) (Y - Yᵀ)
    rw [e3, e4, hQ] at hq
    exact exec_bind_ok (exec_noDraw_ok hq _)

end FF.Props
