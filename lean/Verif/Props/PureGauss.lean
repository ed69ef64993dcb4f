import Verif.Props.Wick
import Verif.Props.Faf
import Verif.Proofs.PureGauss

/-! # Properties C89 and C90: correlations of Gaussian states and the states of zero anti-flatness

`P` is the matrix `compute_2corr_matrix(rho, n, conjugation=+1)` returns, `P_ij = Tr(ρ α_i α_j†)`, and `eta` the one for
`conjugation=-1`, `eta_ij = Tr(ρ α_i† α_j)`. -/

namespace FF.Props

open Matrix
open scoped ComplexOrder

/-! ## C89 -/

section
variable {n : ℕ}

theorem corrP_code {ρ : Op (2 ^ n)} {P : Op (n + n)} (h : compute2Corr ρ n (jordanWignerAlphas n) (some 1) = .ok P) :
    P = corrP ρ := by
  rw [jordanWignerAlphas_eq, (C43_entries ρ (al n) 1).2] at h
  rw [← Except.ok.inj h]
  rfl

theorem fermi_both {ρ : Op (2 ^ n)} (hρ : ρ.trace = 1) {P eta K : Op (n + n)} (hK : K.IsHermitian)
    (hP : compute2Corr ρ n (jordanWignerAlphas n) (some 1) = .ok P)
    (he : compute2Corr ρ n (jordanWignerAlphas n) (some (-1)) = .ok eta)
    (h : ∀ k, ∑ l, expm (-K) k l • (ρ * al n l) = al n k * ρ) :
    IsUnit (1 + expm (-K)) ∧ IsUnit (1 + expm K) ∧ P = (1 + expm (-K))⁻¹ ∧ etaᵀ = (1 + expm K)⁻¹ := by
  have hK' : (-K).IsHermitian := by rw [IsHermitian, conjTranspose_neg, hK.eq]
  have u1 : IsUnit (1 + expm (-K)) := add_comm (expm (-K)) 1 ▸ unit_one_add hK'
  have u2 : IsUnit (1 + expm K) := add_comm (expm K) 1 ▸ unit_one_add hK
  obtain ⟨-, -, -, hrel⟩ := C43_relations ρ _ P eta (by rw [jordanWignerAlphas_eq]; exact (C43_entries ρ (al n) 1).1) hP he
  have h1 : (1 + expm (-K)) * P = 1 := by
    rw [corrP_code hP, add_comm (1 : Op (n + n))]
    refine kms_corr hρ fun k => ?_
    rw [h]
    simp only [one_apply, ite_smul, one_smul, zero_smul, Finset.sum_ite_eq, Finset.mem_univ, if_true]
  have h2 : expm K * expm (-K) = 1 := by
    rw [expm, expm, ← Matrix.exp_add_of_commute _ _ (Commute.neg_right (Commute.refl K)), add_neg_cancel, NormedSpace.exp_zero]
  have h3 : (1 + expm K) * P = expm K := by
    have := congrArg (expm K * ·) h1
    simp only [mul_one, ← Matrix.mul_assoc, Matrix.mul_add, h2] at this
    rw [add_comm (1 : Op (n + n))]; exact this
  have h4 : etaᵀ = 1 - P := by
    have := congrArg transpose hrel
    rw [transpose_add, transpose_transpose, hρ, one_smul, transpose_one] at this
    exact eq_sub_of_add_eq this
  refine ⟨u1, u2, ?_, ?_⟩
  · exact (inv_eq_right_inv h1).symm
  · refine (inv_eq_right_inv ?_).symm
    rw [h4, Matrix.mul_sub, mul_one, h3, add_sub_cancel_right]

/-- C89. Fermi-Dirac statistics: for `n ≥ 3` sites and `H = build_H(n, A, B)` the correlations of
`generate_gaussian_state(n, H)` are `P = 1 / (1 + exp(-2H'))` and `etaᵀ = 1 / (1 + exp(2H'))`, where `H'` is `H` without
its entries of modulus at most `1e-10`, which `build_op` skips. The matrices that are inverted are invertible. -/
theorem C89_fermi_dirac (hn : 3 ≤ n) (A B : Op n) (hA : A.IsHermitian) (hB : Bᵀ = -B) (ρ : Op (2 ^ n)) (P eta H' : Op (n + n))
    (hH' : H' = Spec.dropSmall 1e-10 (buildH n A (some B)))
    (hρ : generateGaussianState n (buildH n A (some B)) none = .ok (some ρ))
    (hP : compute2Corr ρ n (jordanWignerAlphas n) (some 1) = .ok P)
    (he : compute2Corr ρ n (jordanWignerAlphas n) (some (-1)) = .ok eta) :
    IsUnit (1 + NormedSpace.exp (-(2 : ℂ) • H')) ∧ IsUnit (1 + NormedSpace.exp ((2 : ℂ) • H')) ∧
      P = (1 + NormedSpace.exp (-(2 : ℂ) • H'))⁻¹ ∧ etaᵀ = (1 + NormedSpace.exp ((2 : ℂ) • H'))⁻¹ := by
  obtain ⟨Q, ρ', h1, h2, h3, -, h5⟩ := C41_coefficients_partial n hn _ (buildH_herm A B hA hB) (al n)
  rw [C41_default, jordanWignerAlphas_eq, h2] at hρ
  obtain rfl : ρ' = ρ := by simpa using hρ
  rw [buildOp_square _ _ (by omega), ← hH'] at h1
  obtain rfl := Except.ok.inj h1
  have hph : adM H' = (2 : ℂ) • H' := adM_ph (by rw [hH']; exact drop_ph A B hA hB)
  have hherm : (adM H').IsHermitian := adM_herm (by rw [hH']; exact drop_herm (buildH_herm A B hA hB) _)
  rw [neg_smul]
  rw [hph] at hherm
  refine fermi_both h5 hherm hP he fun k => ?_
  have := thermal_kms H' (expm (-Spec.quad H' (al n))).trace⁻¹ (-1) k
  rw [hph, neg_one_smul, neg_one_smul] at this
  rw [h3]
  exact this

/-- C89. For arbitrary Hermitian coefficients the exponent is `H' - S H'ᵀ S` with the swap `S` of the two blocks. -/
theorem C89_general (hn : 3 ≤ n) (H : Op (n + n)) (hH : H.IsHermitian) (ρ : Op (2 ^ n)) (P eta H' K : Op (n + n))
    (hH' : H' = Spec.dropSmall 1e-10 H) (hK : K = H' - Spec.swap n * H'ᵀ * Spec.swap n)
    (hρ : generateGaussianState n H none = .ok (some ρ))
    (hP : compute2Corr ρ n (jordanWignerAlphas n) (some 1) = .ok P)
    (he : compute2Corr ρ n (jordanWignerAlphas n) (some (-1)) = .ok eta) :
    IsUnit (1 + NormedSpace.exp (-K)) ∧ IsUnit (1 + NormedSpace.exp K) ∧
      P = (1 + NormedSpace.exp (-K))⁻¹ ∧ etaᵀ = (1 + NormedSpace.exp K)⁻¹ := by
  obtain ⟨Q, ρ', h1, h2, h3, -, h5⟩ := C41_coefficients_partial n hn _ hH (al n)
  rw [C41_default, jordanWignerAlphas_eq, h2] at hρ
  obtain rfl : ρ' = ρ := by simpa using hρ
  rw [buildOp_square _ _ (by omega), ← hH'] at h1
  obtain rfl := Except.ok.inj h1
  rw [← swapS_eq] at hK
  have hK' : K = adM H' := hK
  have hherm : K.IsHermitian := hK' ▸ adM_herm (by rw [hH']; exact drop_herm hH _)
  refine fermi_both h5 hherm hP he fun k => ?_
  have := thermal_kms H' (expm (-Spec.quad H' (al n))).trace⁻¹ (-1) k
  rw [← hK', neg_one_smul, neg_one_smul] at this
  rw [h3]
  exact this

/-- The hypotheses are met by the Kitaev chain, which is `build_H` of a hopping and a pairing matrix. -/
example : ∃ (A B : Op 3) (ρ : Op (2 ^ 3)), A.IsHermitian ∧ Bᵀ = -B ∧ A ≠ 0 ∧ B ≠ 0 ∧
    generateGaussianState 3 (buildH 3 A (some B)) none = .ok (some ρ) := by
  have hA : (Matrix.of fun i j : Fin 3 => if i = j then (1 : ℂ) else 2).IsHermitian := by
    ext i j
    simp only [conjTranspose_apply, of_apply, eq_comm (a := j)]
    split_ifs <;> simp
  have hB : (Matrix.of fun i j : Fin 3 => if i < j then (1 : ℂ) else if j < i then -1 else 0)ᵀ =
      -Matrix.of fun i j : Fin 3 => if i < j then (1 : ℂ) else if j < i then -1 else 0 := by
    ext i j
    simp only [transpose_apply, of_apply, Matrix.neg_apply]
    rcases lt_trichotomy i j with h | h | h
    · rw [if_neg h.not_gt, if_pos h, if_pos h]
    · subst h; simp
    · rw [if_pos h, if_neg h.not_gt, if_pos h, neg_neg]
  obtain ⟨Q, ρ, -, h2, -⟩ := C41_coefficients_partial 3 le_rfl _ (buildH_herm _ _ hA hB) (al 3)
  refine ⟨_, _, ρ, hA, hB, fun h => ?_, fun h => ?_, by rw [C41_default, jordanWignerAlphas_eq]; exact h2⟩
  · have := congrFun (congrFun h 0) 0
    simp at this
  · have := congrFun (congrFun h 0) 1
    simp at this

end

/-! ## C90 -/

section
variable {n : ℕ} {f g : Fin (n + n) → Op (2 ^ n)} {ρ : Op (2 ^ n)} {M Z : RMat (n + n)} {x : Arr}
  {schurR : {m : ℕ} → RMat m → RMat m} {schurC : {m : ℕ} → Op m → Op m} {k : ℕ}

/-- C90. The anti-flatness of a state vanishes iff its correlation matrix is a projection. -/
theorem C90_projection (hg : jordanWignerMajoranas n = List.ofFn g) (hx : Spec.IsState x ρ)
    (hM : Spec.IsMajoranaCov g ρ M) (hZ : Spec.IsRealSchur M (schurR M) Z) (hk : 1 ≤ k) (P : Op (n + n))
    (hP : compute2Corr ρ n (jordanWignerAlphas n) (some 1) = .ok P) :
    faf schurR schurC x k = .ok 0 ↔ P * P = P := by
  rw [C67_zero_iff hg hx hM hZ hk, corrP_code hP,
    corr_proj_iff hg (maj_facts hg).1 (maj_facts hg).2 (state_cast hx).2,
    cov_unique hg (state_cast hx).2.psd.isHermitian hM]

/-- C90. The anti-flatness of a state vanishes iff there are `n` orthonormal combinations of the operators `α` with
`ρ c_j = 0`: the state is the vacuum of `n` fermionic modes. -/
theorem C90_modes (hf : jordanWignerAlphas n = List.ofFn f) (hg : jordanWignerMajoranas n = List.ofFn g)
    (hx : Spec.IsState x ρ) (hM : Spec.IsMajoranaCov g ρ M) (hZ : Spec.IsRealSchur M (schurR M) Z) (hk : 1 ≤ k) :
    faf schurR schurC x k = .ok 0 ↔
      ∃ V : Matrix (Fin n) (Fin (n + n)) ℂ, V * Vᴴ = 1 ∧ ∀ j, ρ * ∑ l, V j l • f l = 0 := by
  rw [jordanWignerAlphas_eq] at hf
  obtain rfl := List.ofFn_injective hf
  have hρ := (state_cast hx).2
  have hP := (C43_entries ρ (al n) 1).2
  rw [← jordanWignerAlphas_eq] at hP
  rw [C90_projection hg hx hM hZ hk _ hP, corrP_code hP]
  constructor
  · exact fun h => killed_of_proj hρ h
  · rintro ⟨V, hV⟩
    exact (Killed.modes (V := V) hV hρ).proj hρ.trace_one

/-- C90. A state of vanishing anti-flatness is pure and Wick's theorem holds in it. -/
theorem C90_pure (hf : jordanWignerAlphas n = List.ofFn f) (hg : jordanWignerMajoranas n = List.ofFn g)
    (hx : Spec.IsState x ρ) (hM : Spec.IsMajoranaCov g ρ M) (hZ : Spec.IsRealSchur M (schurR M) Z) (hk : 1 ≤ k)
    (h0 : faf schurR schurC x k = .ok 0) : Spec.Pure ρ ∧ Spec.ObeysWick f ρ ∧ Spec.ObeysWick g ρ := by
  have hρ := (state_cast hx).2
  obtain ⟨V, hV⟩ := (C90_modes (jordanWignerAlphas_eq n) hg hx hM hZ hk).1 h0
  have hV : Killed ρ V := hV
  exact ⟨hV.pure hρ, wick_both hf hg (hV.modes hρ).gauss hρ.trace_one⟩

theorem faf_modes {ψ : Fin (2 ^ n) → ℂ} (h : HasModes (Spec.proj ψ) ∧ Spec.IsUnitVec ψ)
    (hg : jordanWignerMajoranas n = List.ofFn g) (hM : Spec.IsMajoranaCov g (Spec.proj ψ) M)
    (hZ : Spec.IsRealSchur M (schurR M) Z) (hk : 1 ≤ k) : faf schurR schurC (.vec (2 ^ n) ψ) k = .ok 0 := by
  have hP := (C43_entries (Spec.proj ψ) (al n) 1).2
  rw [← jordanWignerAlphas_eq] at hP
  rw [C90_projection hg (.inl ⟨ψ, h.2, rfl, rfl⟩) hM hZ hk _ hP, corrP_code hP]
  exact h.1.proj (by rw [proj_trace, h.2]; norm_num)

end

section
variable {σ : Type} (rng : Rng σ) (logm : (d : ℕ) → Op d → Op d) {n : ℕ} {f g : Fin (n + n) → Op (2 ^ n)}
  {M Z : RMat (n + n)} {schurR : {m : ℕ} → RMat m → RMat m} {schurC : {m : ℕ} → Op m → Op m} {k : ℕ}

/-- C90. The states `random_FF_state(pure=True)` returns have zero anti-flatness. -/
theorem C90_random_pure (hd : Spec.DrawsOk rng) (hl : Spec.LogmOk logm) (hn : 1 ≤ n) (returnH : Bool)
    (seed : Option ℤ) (s s0 s' : σ) (h : Spec.StartState rng seed s s0) (ψ : Fin (2 ^ n) → ℂ) (G : Option (Op (2 ^ n)))
    (hrun : (randomFFStatePure rng logm n seed returnH).exec s = (.ok (ψ, G), s'))
    (hg : jordanWignerMajoranas n = List.ofFn g) (hM : Spec.IsMajoranaCov g (Spec.proj ψ) M)
    (hZ : Spec.IsRealSchur M (schurR M) Z) (hk : 1 ≤ k) : faf schurR schurC (.vec (2 ^ n) ψ) k = .ok 0 :=
  faf_modes (modes_random_pure rng logm hd hl hn returnH seed s s0 s' h ψ G hrun) hg hM hZ hk

/-- C90. The states `random_FF_pure_state_W0` returns have zero anti-flatness. -/
theorem C90_W0 (hd : Spec.DrawsOk rng) (hl : Spec.LogmOk logm) (hn : 1 ≤ n)
    (seed : Option ℤ) (s s0 s' : σ) (h : Spec.StartState rng seed s s0) (ψ : Fin (2 ^ n) → ℂ)
    (hrun : (randomFFPureStateW0 rng logm (.int n) seed).exec s = (.ok ⟨n, ψ⟩, s'))
    (hg : jordanWignerMajoranas n = List.ofFn g) (hM : Spec.IsMajoranaCov g (Spec.proj ψ) M)
    (hZ : Spec.IsRealSchur M (schurR M) Z) (hk : 1 ≤ k) : faf schurR schurC (.vec (2 ^ n) ψ) k = .ok 0 :=
  faf_modes (modes_W0 rng logm hd hl hn seed s s0 s' h ψ hrun) hg hM hZ hk

/-- C90. The states `random_FF_pure_state_WN` returns have zero anti-flatness, for every particle number. -/
theorem C90_WN (hd : Spec.DrawsOk rng) (hl : Spec.LogmOk logm) (hn : 1 ≤ n) (N : ℕ) (hN : N ≤ n)
    (seed : Option ℤ) (s s0 s1 s' : σ) (h : Spec.StartState rng seed s s0)
    (h1 : Spec.StartState rng (nextSeed seed) s0 s1) (ψ : Fin (2 ^ n) → ℂ)
    (hrun : (randomFFPureStateWN rng logm (.int n) (some (.int N)) seed).exec s = (.ok ⟨n, ψ⟩, s'))
    (hg : jordanWignerMajoranas n = List.ofFn g) (hM : Spec.IsMajoranaCov g (Spec.proj ψ) M)
    (hZ : Spec.IsRealSchur M (schurR M) Z) (hk : 1 ≤ k) : faf schurR schurC (.vec (2 ^ n) ψ) k = .ok 0 :=
  faf_modes (modes_WN rng logm hd hl hn N hN seed s s0 s1 s' h h1 ψ hrun) hg hM hZ hk

/-- C90. The same when the particle number is drawn. -/
theorem C90_WN_random (hd : Spec.DrawsOk rng) (hl : Spec.LogmOk logm) (hn : 1 ≤ n)
    (seed : Option ℤ) (s s0 s1 s' : σ) (h : Spec.StartState rng seed s s0)
    (h1 : Spec.StartState rng (nextSeed seed) (rng.randint (n + 1) s0).2 s1) (ψ : Fin (2 ^ n) → ℂ)
    (hrun : (randomFFPureStateWN rng logm (.int n) none seed).exec s = (.ok ⟨n, ψ⟩, s'))
    (hg : jordanWignerMajoranas n = List.ofFn g) (hM : Spec.IsMajoranaCov g (Spec.proj ψ) M)
    (hZ : Spec.IsRealSchur M (schurR M) Z) (hk : 1 ≤ k) : faf schurR schurC (.vec (2 ^ n) ψ) k = .ok 0 :=
  faf_modes (modes_WN_random rng logm hd hl hn seed s s0 s1 s' h h1 ψ hrun) hg hM hZ hk

/-- C90. The states `random_FF_pure_state_CN` returns have zero anti-flatness, under the hypotheses of `C58_state`. -/
theorem C90_CN (hd : Spec.DrawsOk rng) (hn : 1 ≤ n) (seed : Option ℤ) (s s0 s1 s2 s' : σ)
    (h : Spec.StartState rng seed s s0) (h1 : Spec.StartState rng (nextSeed seed) (rng.randint (n + 1) s0).2 s1)
    (C : Op (n + n))
    (hC : (randomFFRotationOrb rng n (nextSeed seed)).exec (rng.randint (n + 1) s0).2 = (.ok C, s2))
    (hsmall : ∀ i j, C i j = 0 ∨ 1e-9 ≤ ‖C i j‖) (hf : jordanWignerAlphas n = List.ofFn f)
    (c : Fin n → Op (2 ^ n)) (hc : ∀ i, c i = ∑ l, C (Fin.castAdd n i) l • f l)
    (hY : ∃ v, (∀ i, (c i)ᴴ *ᵥ v = 0) ∧
      Spec.inner v (fun i => (((rng.randn (2 ^ n) 1 s2).1 i 0 : ℝ) : ℂ)) ≠ 0) (ψ : Fin (2 ^ n) → ℂ)
    (hrun : (randomFFPureStateCN rng (.int n) seed).exec s = (.ok ⟨n, ψ⟩, s'))
    (hg : jordanWignerMajoranas n = List.ofFn g) (hM : Spec.IsMajoranaCov g (Spec.proj ψ) M)
    (hZ : Spec.IsRealSchur M (schurR M) Z) (hk : 1 ≤ k) : faf schurR schurC (.vec (2 ^ n) ψ) k = .ok 0 :=
  faf_modes (modes_CN rng hd hn seed s s0 s1 s2 s' h h1 C hC hsmall hf c hc hY ψ hrun) hg hM hZ hk

/-- A run that meets the hypotheses: the generator that always draws the identity, with one site, where every real
antisymmetric matrix is its own Schur form. -/
example : ∃ (rng : Rng ℕ) (logm : (d : ℕ) → Op d → Op d) (ψ : Fin (2 ^ 1) → ℂ) (s' : ℕ) (g : Fin (1 + 1) → Op (2 ^ 1))
    (M : RMat (1 + 1)), Spec.DrawsOk rng ∧ Spec.LogmOk logm ∧ Spec.StartState rng (some 5) 0 5 ∧
    (randomFFPureStateW0 rng logm (.int 1) (some 5)).exec 0 = (.ok ⟨1, ψ⟩, s') ∧ jordanWignerMajoranas 1 = List.ofFn g ∧
    Spec.IsMajoranaCov g (Spec.proj ψ) M ∧ Spec.IsRealSchur M ((fun M => M : {m : ℕ} → RMat m → RMat m) M) 1 := by
  obtain ⟨logm, hl⟩ := logm_exists
  have hd : Spec.DrawsOk (demoRng fun _ _ => 1) := demo_ok (by simp) (by simp)
  have hs : Spec.StartState (demoRng fun _ _ => 1) (some 5) 0 5 := Or.inr ⟨5, by norm_num, rfl, rfl⟩
  obtain ⟨W, s', -, h2, h3, -⟩ := C85_W0 _ logm hd hl 1 le_rfl (some 5) 0 5 hs
  obtain ⟨g, hg, -, -⟩ := C28_majoranas 1
  obtain ⟨M, hM, -, -⟩ := C67_covariance hg (.inl ⟨_, h3, rfl, rfl⟩)
  exact ⟨_, logm, _, s', g, M, hd, hl, hs, h2, hg, hM, by simp, by simp, fun i j h => by omega, fun i j k h h' => by omega⟩

end

end FF.Props
