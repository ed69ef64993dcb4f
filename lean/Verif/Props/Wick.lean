import Verif.Proofs.Gauss
import Verif.Props.RandomStates
import Verif.Props.Coefficients

/-! # Property C88: Wick's theorem

Throughout, `f` are the Jordan-Wigner operators `α` of the code (creation operators first) and `g` its Majorana
operators. -/

namespace FF.Props

open Matrix
open scoped ComplexOrder

/-! ## C88 -/

/-- C88. `pf` of the antisymmetric matrix of the contractions of a sequence of indices is the sum over all pairings, for
every matrix `G` and every sequence. -/
theorem C88_pf {k m : ℕ} (G : Op k) (L : Fin m → Fin k) : pf (Spec.contraction G L) = .ok (Spec.contract G m L) :=
  pf_contraction G L

/-- The sum over pairings written out for four indices. -/
example {k : ℕ} (G : Op k) (L : Fin 4 → Fin k) : Spec.contract G 4 L =
    G (L 0) (L 1) * G (L 2) (L 3) - G (L 0) (L 2) * G (L 1) (L 3) + G (L 0) (L 3) * G (L 1) (L 2) := by
  rw [Spec.contract, Fin.sum_univ_three]
  simp only [Spec.contract, Fin.sum_univ_one, Fin.val_zero, Fin.val_one, Fin.val_two, pow_zero, pow_one, one_mul, mul_one]
  have h1 : ∀ x : Fin 2, ((0 : Fin 3).succAbove x).succ = ![2, 3] x := by decide
  have h2 : ∀ x : Fin 2, ((1 : Fin 3).succAbove x).succ = ![1, 3] x := by decide
  have h3 : ∀ x : Fin 2, ((2 : Fin 3).succAbove x).succ = ![1, 2] x := by decide
  simp only [h1, h2, h3]
  simp
  ring

section
variable {n : ℕ} {f g : Fin (n + n) → Op (2 ^ n)}

theorem wick_both (hf : jordanWignerAlphas n = List.ofFn f) (hg : jordanWignerMajoranas n = List.ofFn g)
    {ρ : Op (2 ^ n)} (h : IsGauss (al n) ρ) (h1 : ρ.trace = 1) : Spec.ObeysWick f ρ ∧ Spec.ObeysWick g ρ := by
  obtain ⟨g', e1, -, e2⟩ := C28_majoranas n
  obtain rfl := List.ofFn_injective (hg.symm.trans e1)
  rw [jordanWignerAlphas_eq] at hf
  obtain rfl := List.ofFn_injective hf
  rw [jordanWignerMajoranas_eq] at hg
  refine ⟨h.wick al_anticomm h1, ?_⟩
  refine (h.change (T := buildOmega n) (T' := (buildOmega n)ᴴ) (omega_unitary n) (omega_unitary' n) fun k => ?_).wick
    (s := 1) (fun i j => ?_) h1
  · rw [← List.ofFn_injective hg]
  · rw [e2, one_apply]
    split_ifs <;> simp

/-- C88. When Wick's theorem holds in a state, the expectation value of every product of the operators is `pf` of the
contractions taken from the matrix that `compute_2corr_matrix` returns. -/
theorem C88_code {d : ℕ} {f : Fin (n + n) → Op d} {ρ : Op d} (h : Spec.ObeysWick f ρ) (Gam : Op (n + n))
    (hG : compute2Corr ρ n (List.ofFn f) none = .ok Gam) {m : ℕ} (L : Fin m → Fin (n + n)) :
    pf (Spec.contraction Gam L) = .ok (ρ * (List.ofFn fun i => f (L i)).prod).trace := by
  rw [(C43_entries ρ f 0).1] at hG
  rw [← Except.ok.inj hG, pf_contraction, h]

/-- C88. For different Majorana operators the expectation value of the product is `pf` of half the submatrix of the
covariance matrix. -/
theorem C88_majorana (hg : jordanWignerMajoranas n = List.ofFn g) {ρ : Op (2 ^ n)} (h : Spec.ObeysWick g ρ)
    (K : Op (n + n)) (hK : computeCovMatrix ρ (some n) (jordanWignerMajoranas n) = .ok ⟨n, K⟩) {m : ℕ}
    (L : Fin m → Fin (n + n)) (hL : Function.Injective L) :
    pf ((1 / 2 : ℂ) • K.submatrix L L) = .ok (ρ * (List.ofFn fun i => g (L i)).prod).trace := by
  obtain ⟨g', e1, -, e2⟩ := C28_majoranas n
  obtain rfl := List.ofFn_injective (hg.symm.trans e1)
  obtain ⟨K', Gam, h1, h2, -, h4, h5⟩ := C42_antisymmetric_partial ρ g
  rw [hg, h1] at hK
  obtain rfl : K' = K := by simpa using hK
  rw [← C88_code h Gam h2]
  congr 1
  rw [(C43_entries ρ g 0).1] at h2
  obtain rfl := Except.ok.inj h2
  have hpair : ∀ i j, i ≠ j → (1 / 2 : ℂ) * K' i j = (ρ * g i * g j).trace := by
    intro i j hij
    have h6 := e2 i j
    rw [if_neg hij] at h6
    have h7 : g j * g i = -(g i * g j) := by rw [eq_neg_iff_add_eq_zero, add_comm]; exact h6
    rw [h5, h7, sub_neg_eq_add, ← two_smul ℂ, Matrix.mul_smul, trace_smul, smul_eq_mul, Matrix.mul_assoc]
    ring
  ext a b
  simp only [Matrix.smul_apply, submatrix_apply, smul_eq_mul, Spec.contraction, of_apply]
  rcases lt_trichotomy a b with hab | hab | hab
  · rw [if_pos hab, hpair _ _ fun h => hab.ne (hL h)]
  · subst hab
    have h8 := congrFun (congrFun h4 (L a)) (L a)
    rw [transpose_apply, Matrix.neg_apply] at h8
    have h9 : K' (L a) (L a) = 0 := by simpa using self_eq_neg.1 h8
    simp [h9]
  · rw [if_neg hab.not_gt, if_pos hab, ← hpair _ _ fun h => hab.ne (hL h)]
    have h8 := congrFun (congrFun h4 (L a)) (L b)
    rw [transpose_apply, Matrix.neg_apply] at h8
    rw [h8]; ring

theorem gibbs_gauss {R : Op (n + n)} (hR : R.IsHermitian) (c : ℂ) :
    IsGauss (al n) (c • expm (-Spec.quad R (al n))) := by
  have := gauss_thermal hR c 1
  rwa [Complex.ofReal_one, neg_smul, one_smul] at this

/-- C88. Wick's theorem holds in every state `generate_gaussian_state(n, H)` with Hermitian coefficients `H`, `n ≥ 3`, for
the Jordan-Wigner operators and for the Majorana operators. -/
theorem C88_thermal (hn : 3 ≤ n) (H : Op (n + n)) (hH : H.IsHermitian) (ρ : Op (2 ^ n))
    (hρ : generateGaussianState n H none = .ok (some ρ)) (hf : jordanWignerAlphas n = List.ofFn f)
    (hg : jordanWignerMajoranas n = List.ofFn g) : Spec.ObeysWick f ρ ∧ Spec.ObeysWick g ρ := by
  obtain ⟨Q, ρ', h1, h2, h3, -, h5⟩ := C41_coefficients_partial n hn H hH (al n)
  rw [C41_default, jordanWignerAlphas_eq, h2] at hρ
  obtain rfl : ρ' = ρ := by simpa using hρ
  rw [buildOp_square _ _ (by omega)] at h1
  obtain rfl := Except.ok.inj h1
  refine wick_both hf hg ?_ h5
  rw [h3]
  exact gibbs_gauss (drop_herm hH _) _

/-- The hypotheses are met by a state with hopping and pairing. -/
example : ∃ ρ, generateGaussianState 3 (kitaevChain 3 1 1 1) none = .ok (some ρ) ∧
    (kitaevChain 3 1 1 1).IsHermitian := by
  have hH := (C36_structure 3 1 1 1).1
  obtain ⟨Q, ρ, -, h2, -⟩ := C41_coefficients_partial 3 le_rfl _ hH (al 3)
  exact ⟨ρ, by rw [C41_default, jordanWignerAlphas_eq]; exact h2, hH⟩

end

section
variable {σ : Type} (rng : Rng σ) (logm : (d : ℕ) → Op d → Op d) {n : ℕ} {f g : Fin (n + n) → Op (2 ^ n)}

theorem rot_herm (hd : Spec.DrawsOk rng) (hl : Spec.LogmOk logm) (s0 : σ) :
    (Spec.dropSmall 1e-10 (genMat (logm _ (orb (rng.orthogonal (n + n) s0).1)))).IsHermitian := by
  have hs := log_skew (orb_unitary (hd.orthogonal (n + n) s0)) (hl _ _ (orb_unitary (hd.orthogonal (n + n) s0)))
  exact drop_herm (genMat_herm hs) _

/-- C88. Wick's theorem holds in every state that `random_FF_state(pure=False)` returns. -/
theorem C88_random_mixed (hd : Spec.DrawsOk rng) (hl : Spec.LogmOk logm) (hn : 1 ≤ n) (fixedN returnH : Bool)
    (seed : Option ℤ) (s s0 s' : σ) (h : Spec.StartState rng seed s s0) (ρ : Op (2 ^ n)) (G : Option (Op (2 ^ n)))
    (hrun : (randomFFStateMixed rng logm n fixedN seed returnH).exec s = (.ok (ρ, G), s'))
    (hf : jordanWignerAlphas n = List.ofFn f) (hg : jordanWignerMajoranas n = List.ofFn g) :
    Spec.ObeysWick f ρ ∧ Spec.ObeysWick g ρ := by
  have hst := starts_again rng h
  have key : ∀ (R : Op (n + n)) (s1 : σ), R.IsHermitian →
      (∀ a, (randomFFStateMixed rng logm n fixedN seed a).exec s =
        (.ok ((npTrace (expm ((-(((rng.exponential s1).1 : ℝ) : ℂ)) • Spec.quad R (al n))))⁻¹ •
          expm ((-(((rng.exponential s1).1 : ℝ) : ℂ)) • Spec.quad R (al n)),
          if a then some (Spec.quad R (al n)) else none), (rng.exponential s1).2)) →
      Spec.ObeysWick f ρ ∧ Spec.ObeysWick g ρ := by
    intro R s1 hR hex
    rw [hex returnH] at hrun
    have h2 := Except.ok.inj (Prod.mk.inj hrun).1
    rw [← (Prod.mk.inj h2).1]
    exact wick_both hf hg (gauss_thermal hR _ _) (gibbs_beta (by positivity) (quad_herm hR _) _).2
  cases fixedN with
  | false =>
    refine key _ (rng.orthogonal (n + n) s0).2 (rot_herm rng logm hd hl s0) fun a => ?_
    · rw [randomFFStateMixed, exec_bind_ok (exec_seed rng h)]
      simp only [Bool.false_eq_true, if_false]
      rw [exec_bind_ok (exec_rotH rng hd logm hn hst), exec_bind_ok (exec_draw _ _)]
      cases a <;> rfl
  | true =>
    obtain ⟨A, B, s1, he, hA, hB, -⟩ := exec_genH rng (fixedN := true) (n := n) hst
    refine key _ s1 (drop_herm (buildH_herm A B hA hB) 1e-10) fun a => ?_
    have hG' : buildOp n (buildH n A (some B)) (jordanWignerAlphas n) false =
        .ok (Spec.quad (Spec.dropSmall 1e-10 (buildH n A (some B))) (al n)) := by
      rw [jordanWignerAlphas_eq]; exact buildOp_square _ _ hn
    rw [randomFFStateMixed, exec_bind_ok (exec_seed rng h)]
    simp only [if_true]
    rw [exec_bind_ok he, exec_bind_ok (exec_noDraw_ok hG' _), exec_bind_ok (exec_draw _ _)]
    cases a <;> rfl

/-- C88. Wick's theorem holds in every state that `random_FF_state_randH` returns. -/
theorem C88_randH (hn : 1 ≤ n) (seed : Option ℤ) (s s0 s' : σ) (h : Spec.StartState rng seed s s0) (ρ : Op (2 ^ n))
    (hrun : (randomFFStateRandH rng (.int n) seed).exec s = (.ok ⟨n, ρ⟩, s'))
    (hf : jordanWignerAlphas n = List.ofFn f) (hg : jordanWignerMajoranas n = List.ofFn g) :
    Spec.ObeysWick f ρ ∧ Spec.ObeysWick g ρ := by
  obtain ⟨ρ', s1, hrun', -, htr⟩ := C55_density rng n hn seed s s0 h
  have hρ : ρ' = ρ := by
    have := (Prod.mk.inj (hrun'.symm.trans hrun)).1
    simpa using this
  subst hρ
  rw [randomFFStateRandH, exec_bind_ok (exec_check hn s), exec_bind_ok (exec_seed rng h),
    exec_bind_ok (exec_draw _ _), exec_bind_ok (exec_draw _ _), exec_bind_ok (exec_draw _ _),
    exec_bind_ok (exec_draw _ _)] at hrun
  generalize rng.randn n n s0 = d1 at hrun
  generalize rng.randn n n d1.2 = d2 at hrun
  generalize rng.randn n n d2.2 = d3 at hrun
  generalize rng.randn n n d3.2 = d4 at hrun
  set X : Op n := toC d1.1 + Complex.I • toC d2.1 with hX
  set Y : Op n := toC d3.1 + Complex.I • toC d4.1 with hY
  have hA : (X + Xᴴ).IsHermitian := by rw [IsHermitian, conjTranspose_add, conjTranspose_conjTranspose, add_comm]
  have hB : (Y - Yᵀ)ᵀ = -(Y - Yᵀ) := by rw [transpose_sub, transpose_transpose, neg_sub]
  have hHerm := buildH_herm _ _ hA hB
  set r : ℂ := 2 ^ (2 - (n : ℤ)) with hr
  have hop : buildOp n (r • buildV n (X + Xᴴ) (some (Y - Yᵀ))) (jordanWignerAlphas n) true =
      .ok (Spec.quad (Spec.dropSmall 1e-10 (r • buildH n (X + Xᴴ) (some (Y - Yᵀ)))) (al n)) := by
    rw [jordanWignerAlphas_eq, buildOp_square_direct _ _ hn, buildV_eq, ← Matrix.mul_smul, dropSmall_swapS_mul,
      quadDirect_al]
  have hR : (r • buildH n (X + Xᴴ) (some (Y - Yᵀ))).IsHermitian := by
    rw [IsHermitian, conjTranspose_smul, hHerm.eq]
    congr 1
    rw [hr]
    exact (map_zpow₀ (starRingEnd ℂ) _ _).trans (by rw [Complex.conj_ofNat])
  rw [exec_bind_ok (exec_noDraw_ok hop _), exec_pure] at hrun
  have h2 := Except.ok.inj (Prod.mk.inj hrun).1
  have h3 := eq_of_heq (Sigma.mk.inj h2).2
  refine wick_both hf hg ?_ htr
  rw [← h3]
  exact gibbs_gauss (drop_herm hR _) _

theorem wick_pure {ψ : Fin (2 ^ n) → ℂ} (h : HasModes (Spec.proj ψ) ∧ Spec.IsUnitVec ψ)
    (hf : jordanWignerAlphas n = List.ofFn f) (hg : jordanWignerMajoranas n = List.ofFn g) :
    Spec.ObeysWick f (Spec.proj ψ) ∧ Spec.ObeysWick g (Spec.proj ψ) :=
  wick_both hf hg h.1.gauss (by rw [proj_trace, h.2]; norm_num)

theorem modes_rot (hd : Spec.DrawsOk rng) (hl : Spec.LogmOk logm) (hn : 1 ≤ n) {seed : Option ℤ} {s s0 s' : σ}
    (h : Spec.StartState rng seed s s0) {W : Op (2 ^ n)} (hW : (randomFFRotation rng logm n seed).exec s = (.ok W, s'))
    (b : Fin n → Fin 2) : HasModes (Spec.proj (W *ᵥ Spec.fock b)) ∧ Spec.IsUnitVec (W *ᵥ Spec.fock b) := by
  rw [exec_rot rng hd logm hn h] at hW
  obtain rfl := Except.ok.inj (Prod.mk.inj hW).1
  exact ⟨modes_pure (rot_herm rng logm hd hl s0) b,
    unit_mulVec (expm_unitary (skewHerm_I (quad_herm (rot_herm rng logm hd hl s0) (al n)))) (unit_fock b)⟩

theorem modes_random_pure (hd : Spec.DrawsOk rng) (hl : Spec.LogmOk logm) (hn : 1 ≤ n) (returnH : Bool)
    (seed : Option ℤ) (s s0 s' : σ) (h : Spec.StartState rng seed s s0) (ψ : Fin (2 ^ n) → ℂ) (G : Option (Op (2 ^ n)))
    (hrun : (randomFFStatePure rng logm n seed returnH).exec s = (.ok (ψ, G), s')) :
    HasModes (Spec.proj ψ) ∧ Spec.IsUnitVec ψ := by
  have hst := starts_again rng h
  have hW := exec_rot rng hd logm hn hst
  obtain ⟨-, h1, h2⟩ := exec_pureState rng logm hd hl hn h hW
  have hψ : ψ = expm ((-Complex.I) • Spec.quad (Spec.dropSmall 1e-10
        (genMat (logm _ (orb (rng.orthogonal (n + n) s0).1)))) (al n)) *ᵥ zeroState (2 ^ n) := by
    cases returnH with
    | false =>
      rw [h2] at hrun
      exact (Prod.mk.inj (Except.ok.inj (Prod.mk.inj hrun).1)).1.symm
    | true =>
      have hs1 : ∃ s0', Spec.StartState rng seed (rng.orthogonal (n + n) s0).2 s0' := by
        rcases h with ⟨rfl, rfl⟩ | ⟨k, hk, rfl, rfl⟩
        · exact ⟨_, Or.inl ⟨rfl, rfl⟩⟩
        · exact ⟨_, Or.inr ⟨k, hk, rfl, rfl⟩⟩
      obtain ⟨s0', hs0'⟩ := hs1
      rw [h1 (exec_rotH rng hd logm hn hs0')] at hrun
      exact (Prod.mk.inj (Except.ok.inj (Prod.mk.inj hrun).1)).1.symm
  rw [hψ, fock_zero]
  exact modes_rot rng logm hd hl hn hst hW _

/-- C88. Wick's theorem holds in every state that `random_FF_state(pure=True)` returns. -/
theorem C88_random_pure (hd : Spec.DrawsOk rng) (hl : Spec.LogmOk logm) (hn : 1 ≤ n) (returnH : Bool)
    (seed : Option ℤ) (s s0 s' : σ) (h : Spec.StartState rng seed s s0) (ψ : Fin (2 ^ n) → ℂ) (G : Option (Op (2 ^ n)))
    (hrun : (randomFFStatePure rng logm n seed returnH).exec s = (.ok (ψ, G), s'))
    (hf : jordanWignerAlphas n = List.ofFn f) (hg : jordanWignerMajoranas n = List.ofFn g) :
    Spec.ObeysWick f (Spec.proj ψ) ∧ Spec.ObeysWick g (Spec.proj ψ) :=
  wick_pure (modes_random_pure rng logm hd hl hn returnH seed s s0 s' h ψ G hrun) hf hg

theorem modes_W0 (hd : Spec.DrawsOk rng) (hl : Spec.LogmOk logm) (hn : 1 ≤ n)
    (seed : Option ℤ) (s s0 s' : σ) (h : Spec.StartState rng seed s s0) (ψ : Fin (2 ^ n) → ℂ)
    (hrun : (randomFFPureStateW0 rng logm (.int n) seed).exec s = (.ok ⟨n, ψ⟩, s')) :
    HasModes (Spec.proj ψ) ∧ Spec.IsUnitVec ψ := by
  obtain ⟨W, s1, hW, h1, -⟩ := C85_W0 rng logm hd hl n hn seed s s0 h
  have := Except.ok.inj (Prod.mk.inj (h1.symm.trans hrun)).1
  rw [← eq_of_heq (Sigma.mk.inj this).2]
  exact modes_rot rng logm hd hl hn h hW _

/-- C88. Wick's theorem holds in every state that `random_FF_pure_state_W0` returns. -/
theorem C88_W0 (hd : Spec.DrawsOk rng) (hl : Spec.LogmOk logm) (hn : 1 ≤ n)
    (seed : Option ℤ) (s s0 s' : σ) (h : Spec.StartState rng seed s s0) (ψ : Fin (2 ^ n) → ℂ)
    (hrun : (randomFFPureStateW0 rng logm (.int n) seed).exec s = (.ok ⟨n, ψ⟩, s'))
    (hf : jordanWignerAlphas n = List.ofFn f) (hg : jordanWignerMajoranas n = List.ofFn g) :
    Spec.ObeysWick f (Spec.proj ψ) ∧ Spec.ObeysWick g (Spec.proj ψ) :=
  wick_pure (modes_W0 rng logm hd hl hn seed s s0 s' h ψ hrun) hf hg

theorem modes_WN (hd : Spec.DrawsOk rng) (hl : Spec.LogmOk logm) (hn : 1 ≤ n) (N : ℕ) (hN : N ≤ n)
    (seed : Option ℤ) (s s0 s1 s' : σ) (h : Spec.StartState rng seed s s0)
    (h1 : Spec.StartState rng (nextSeed seed) s0 s1) (ψ : Fin (2 ^ n) → ℂ)
    (hrun : (randomFFPureStateWN rng logm (.int n) (some (.int N)) seed).exec s = (.ok ⟨n, ψ⟩, s')) :
    HasModes (Spec.proj ψ) ∧ Spec.IsUnitVec ψ := by
  obtain ⟨W, s2, hW, h2, -⟩ := C57_state rng logm hd hl n N hn hN seed s s0 s1 h h1
  have := Except.ok.inj (Prod.mk.inj (h2.symm.trans hrun)).1
  rw [← eq_of_heq (Sigma.mk.inj this).2]
  exact modes_rot rng logm hd hl hn h1 hW _

/-- C88. Wick's theorem holds in every state that `random_FF_pure_state_WN` returns, for every particle number. -/
theorem C88_WN (hd : Spec.DrawsOk rng) (hl : Spec.LogmOk logm) (hn : 1 ≤ n) (N : ℕ) (hN : N ≤ n)
    (seed : Option ℤ) (s s0 s1 s' : σ) (h : Spec.StartState rng seed s s0)
    (h1 : Spec.StartState rng (nextSeed seed) s0 s1) (ψ : Fin (2 ^ n) → ℂ)
    (hrun : (randomFFPureStateWN rng logm (.int n) (some (.int N)) seed).exec s = (.ok ⟨n, ψ⟩, s'))
    (hf : jordanWignerAlphas n = List.ofFn f) (hg : jordanWignerMajoranas n = List.ofFn g) :
    Spec.ObeysWick f (Spec.proj ψ) ∧ Spec.ObeysWick g (Spec.proj ψ) :=
  wick_pure (modes_WN rng logm hd hl hn N hN seed s s0 s1 s' h h1 ψ hrun) hf hg

theorem modes_WN_random (hd : Spec.DrawsOk rng) (hl : Spec.LogmOk logm) (hn : 1 ≤ n)
    (seed : Option ℤ) (s s0 s1 s' : σ) (h : Spec.StartState rng seed s s0)
    (h1 : Spec.StartState rng (nextSeed seed) (rng.randint (n + 1) s0).2 s1) (ψ : Fin (2 ^ n) → ℂ)
    (hrun : (randomFFPureStateWN rng logm (.int n) none seed).exec s = (.ok ⟨n, ψ⟩, s')) :
    HasModes (Spec.proj ψ) ∧ Spec.IsUnitVec ψ := by
  have hW := exec_rot rng hd logm hn h1
  rw [randomFFPureStateWN, exec_bind_ok (exec_check hn s), exec_bind_ok (exec_noDraw_ok (show checkN n none = .ok none from rfl) _),
      exec_bind_ok (exec_seed rng h)] at hrun
  simp only at hrun
  rw [exec_bind_ok (exec_draw _ _), exec_bind_ok (exec_noDraw_ok (C57_initial n _) _), exec_bind_ok hW, exec_pure] at hrun
  have := Except.ok.inj (Prod.mk.inj hrun).1
  rw [← eq_of_heq (Sigma.mk.inj this).2]
  exact modes_rot rng logm hd hl hn h1 hW _

/-- C88. The same when the particle number is drawn. -/
theorem C88_WN_random (hd : Spec.DrawsOk rng) (hl : Spec.LogmOk logm) (hn : 1 ≤ n)
    (seed : Option ℤ) (s s0 s1 s' : σ) (h : Spec.StartState rng seed s s0)
    (h1 : Spec.StartState rng (nextSeed seed) (rng.randint (n + 1) s0).2 s1) (ψ : Fin (2 ^ n) → ℂ)
    (hrun : (randomFFPureStateWN rng logm (.int n) none seed).exec s = (.ok ⟨n, ψ⟩, s'))
    (hf : jordanWignerAlphas n = List.ofFn f) (hg : jordanWignerMajoranas n = List.ofFn g) :
    Spec.ObeysWick f (Spec.proj ψ) ∧ Spec.ObeysWick g (Spec.proj ψ) :=
  wick_pure (modes_WN_random rng logm hd hl hn seed s s0 s1 s' h h1 ψ hrun) hf hg

theorem modes_CN (hd : Spec.DrawsOk rng) (hn : 1 ≤ n) (seed : Option ℤ) (s s0 s1 s2 s' : σ)
    (h : Spec.StartState rng seed s s0) (h1 : Spec.StartState rng (nextSeed seed) (rng.randint (n + 1) s0).2 s1)
    (C : Op (n + n))
    (hC : (randomFFRotationOrb rng n (nextSeed seed)).exec (rng.randint (n + 1) s0).2 = (.ok C, s2))
    (hsmall : ∀ i j, C i j = 0 ∨ 1e-9 ≤ ‖C i j‖) (hf : jordanWignerAlphas n = List.ofFn f)
    (c : Fin n → Op (2 ^ n)) (hc : ∀ i, c i = ∑ l, C (Fin.castAdd n i) l • f l)
    (hY : ∃ v, (∀ i, (c i)ᴴ *ᵥ v = 0) ∧
      Spec.inner v (fun i => (((rng.randn (2 ^ n) 1 s2).1 i 0 : ℝ) : ℂ)) ≠ 0) (ψ : Fin (2 ^ n) → ℂ)
    (hrun : (randomFFPureStateCN rng (.int n) seed).exec s = (.ok ⟨n, ψ⟩, s')) :
    HasModes (Spec.proj ψ) ∧ Spec.IsUnitVec ψ := by
  obtain ⟨vac, ψ', h2, -, -, -, -, hu, hocc⟩ := C58_state rng hd n hn seed s s0 s1 s2 h h1 C hC hsmall f hf c hc hY
  have := Except.ok.inj (Prod.mk.inj (h2.symm.trans hrun)).1
  have hψ := eq_of_heq (Sigma.mk.inj this).2
  subst hψ
  rw [exec_orb rng hd n h1] at hC
  have hC1 := Except.ok.inj (Prod.mk.inj hC).1
  have hO := hd.orthogonal (n + n) s1
  have hcan : IsCanonicalU C := hC1 ▸ orb_canonical _
  have hsymp : Spec.IsSymplectic C := hC1 ▸ orb_symp hO
  have huni : C * Cᴴ = 1 := hC1 ▸ orb_unitary hO
  have hf' := hf
  rw [jordanWignerAlphas_eq] at hf'
  obtain rfl := List.ofFn_injective hf'
  refine ⟨modes_occupations (b := fun i => decide ((i : ℕ) < (rng.randint (n + 1) s0).1)) huni
    (fun i => ?_) (fun i => ?_) fun i => ?_, hu⟩
  · rw [← hc, hocc]
    simp only [decide_eq_true_eq]
  · have := rotated_anticomm C (Fin.castAdd n i) (Fin.castAdd n i)
    rw [(symp_iff _).1 hsymp, swapS, blk_11, Matrix.zero_apply, zero_smul, ← two_smul ℂ] at this
    exact (smul_eq_zero.1 this).resolve_left two_ne_zero
  · have := rotated_conj hcan (Fin.castAdd n i)
    rwa [fl_left] at this

/-- C88. Wick's theorem holds in the states that `random_FF_pure_state_CN` returns, under the hypotheses of
`C58_state`. -/
theorem C88_CN (hd : Spec.DrawsOk rng) (hn : 1 ≤ n) (seed : Option ℤ) (s s0 s1 s2 s' : σ)
    (h : Spec.StartState rng seed s s0) (h1 : Spec.StartState rng (nextSeed seed) (rng.randint (n + 1) s0).2 s1)
    (C : Op (n + n))
    (hC : (randomFFRotationOrb rng n (nextSeed seed)).exec (rng.randint (n + 1) s0).2 = (.ok C, s2))
    (hsmall : ∀ i j, C i j = 0 ∨ 1e-9 ≤ ‖C i j‖) (hf : jordanWignerAlphas n = List.ofFn f)
    (hg : jordanWignerMajoranas n = List.ofFn g)
    (c : Fin n → Op (2 ^ n)) (hc : ∀ i, c i = ∑ l, C (Fin.castAdd n i) l • f l)
    (hY : ∃ v, (∀ i, (c i)ᴴ *ᵥ v = 0) ∧
      Spec.inner v (fun i => (((rng.randn (2 ^ n) 1 s2).1 i 0 : ℝ) : ℂ)) ≠ 0) (ψ : Fin (2 ^ n) → ℂ)
    (hrun : (randomFFPureStateCN rng (.int n) seed).exec s = (.ok ⟨n, ψ⟩, s')) :
    Spec.ObeysWick f (Spec.proj ψ) ∧ Spec.ObeysWick g (Spec.proj ψ) :=
  wick_pure (modes_CN rng hd hn seed s s0 s1 s2 s' h h1 C hC hsmall hf c hc hY ψ hrun) hf hg

end

end FF.Props
