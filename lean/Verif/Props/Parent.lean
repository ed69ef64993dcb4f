import Verif.Props.Coefficients
import Verif.Props.PureGauss
import Verif.Proofs.GibbsInj

/-!
# Properties C41 (exact) and C106: parent Hamiltonians of Gaussian states

`C41_two_sites_iff` and `C41_one_site_iff` say for which coefficient matrices `generate_gaussian_state` is right when
`2n = 2^n`. The C106 theorems say that Hamiltonians, states and correlation matrices determine each other.
-/

namespace FF.Props

open Matrix
open scoped ComplexConjugate ComplexOrder

/-! ## C41, exactly, for one and two sites -/

/-- C41, exactly, for one site: for a Hermitian 2 x 2 coefficient matrix `H` without tiny entries the result of
`generate_gaussian_state` is `exp(-build_op(H))/trace` if and only if `H` is diagonal. -/
theorem C41_one_site_iff (H : Op (1 + 1)) (hH : H.IsHermitian) (hsm : ∀ i j, H i j = 0 ∨ 1e-10 ≤ ‖H i j‖) :
    ∃ Q rho, buildOp 1 H (jordanWignerAlphas 1) false = .ok Q ∧ generateGaussianState 1 H none = .ok (some rho) ∧
      (rho = (expm (-Q)).trace⁻¹ • expm (-Q) ↔ H 0 1 = 0) := by
  have hb : buildOp 1 H (List.ofFn (al 1)) false = .ok _ := buildOp_square H (al 1) le_rfl
  rw [dropSmall_id hsm] at hb
  have e2 : 1 + 1 = 2 ^ 1 := by norm_num
  rw [C41_default, jordanWignerAlphas_eq]
  refine ⟨_, _, hb, ggs_op (n := 1) e2 H (fun _ => ⟨_, hb⟩), ?_⟩
  rw [npTrace_eq]
  have hQe := quad1_entries H
  constructor
  · intro h
    obtain ⟨c, hGQ⟩ := gibbs_inj (d := 2) (G := (H : Op 2)) (Q := (Spec.quad H (al 1) : Op 2)) hH
      (quad_herm hH (al 1)) h
    have := congrFun (congrFun hGQ 0) 1
    rw [hQe] at this
    simpa using this
  · intro h
    have h10 : H 1 0 = 0 := by
      have := congrFun (congrFun hH 1) 0
      rw [conjTranspose_apply, h, star_zero] at this
      exact this.symm
    have : (Spec.quad H (al 1) : Op 2) = castOp e2 H := by
      rw [hQe]
      have hc : castOp e2 H = (H : Op 2) := rfl
      rw [hc]
      ext x y
      fin_cases x <;> fin_cases y
      · rfl
      · exact h.symm
      · exact h10.symm
      · rfl
    have this : Spec.quad H (al 1) = castOp e2 H := this
    rw [this]

/-- C41, exactly, for two sites: for a Hermitian 4 x 4 coefficient matrix `H` without tiny entries the result of
`generate_gaussian_state` is `exp(-build_op(H))/trace` if and only if `H` is diagonal with `H_11 = H_22` and
`H_00 + H_33 = H_11 + H_22`. -/
theorem C41_two_sites_iff (H : Op (2 + 2)) (hH : H.IsHermitian) (hsm : ∀ i j, H i j = 0 ∨ 1e-10 ≤ ‖H i j‖) :
    ∃ Q rho, buildOp 2 H (jordanWignerAlphas 2) false = .ok Q ∧ generateGaussianState 2 H none = .ok (some rho) ∧
      (rho = (expm (-Q)).trace⁻¹ • expm (-Q) ↔
        (∀ i j, i ≠ j → H i j = 0) ∧ H 1 1 = H 2 2 ∧ H 0 0 + H 3 3 = H 1 1 + H 2 2) := by
  have hb : buildOp 2 H (List.ofFn (al 2)) false = .ok _ := buildOp_square H (al 2) (by norm_num)
  rw [dropSmall_id hsm] at hb
  have e4 : 2 + 2 = 2 ^ 2 := by norm_num
  rw [C41_default, jordanWignerAlphas_eq]
  refine ⟨_, _, hb, ggs_op (n := 2) e4 H (fun _ => ⟨_, hb⟩), ?_⟩
  rw [npTrace_eq]
  have hc : castOp e4 H = (H : Op 4) := rfl
  obtain ⟨A, B, C, D, hHe⟩ := exists_blk H
  have hQe := quad2_entries A B C D
  rw [← hHe] at hQe
  have hH4 : (H : Op 4) = !![A 0 0, A 0 1, B 0 0, B 0 1; A 1 0, A 1 1, B 1 0, B 1 1; C 0 0, C 0 1, D 0 0, D 0 1;
      C 1 0, C 1 1, D 1 0, D 1 1] := hHe.trans (blk_two A B C D)
  have hent : ∀ x y : Fin 4, H x y = (!![A 0 0, A 0 1, B 0 0, B 0 1; A 1 0, A 1 1, B 1 0, B 1 1; C 0 0, C 0 1, D 0 0, D 0 1;
      C 1 0, C 1 1, D 1 0, D 1 1] : Op 4) x y := fun x y => congrFun (congrFun hH4 x) y
  constructor
  · intro h
    obtain ⟨c, hGQ⟩ := gibbs_inj (d := 4) (G := (H : Op 4)) (Q := (Spec.quad H (al 2) : Op 4)) hH
      (quad_herm hH (al 2)) h
    rw [hQe, hH4] at hGQ
    have k := fun x y => congrFun (congrFun hGQ x) y
    have k00 := k 0 0
    have k01 := k 0 1
    have k02 := k 0 2
    have k03 := k 0 3
    have k10 := k 1 0
    have k11 := k 1 1
    have k12 := k 1 2
    have k13 := k 1 3
    have k20 := k 2 0
    have k21 := k 2 1
    have k22 := k 2 2
    have k23 := k 2 3
    have k30 := k 3 0
    have k31 := k 3 1
    have k32 := k 3 2
    have k33 := k 3 3
    simp at k00 k01 k02 k03 k10 k11 k12 k13 k20 k21 k22 k23 k30 k31 k32 k33
    have b10 : B 1 0 = 0 := by rw [k12, k32, k01, sub_zero]
    have c01 : C 0 1 = 0 := by rw [k21, k23, k10, sub_zero]
    have b01 : B 0 1 = 0 := by rw [b10] at k03; linear_combination (1 / 2 : ℂ) * k03
    have c10 : C 1 0 = 0 := by rw [c01] at k30; linear_combination (1 / 2 : ℂ) * k30
    refine ⟨fun i j hij => ?_, ?_, ?_⟩
    · rw [hent]
      fin_cases i <;> fin_cases j <;> first | exact absurd rfl hij |
        simp [k01, k02, k10, k13, k20, k23, k31, k32, b10, b01, c01, c10]
    · have h1 := hent 1 1
      have h2 := hent 2 2
      simp at h1 h2
      rw [h1, h2]
      linear_combination k33 - k00
    · have h0 := hent 0 0
      have h1 := hent 1 1
      have h2 := hent 2 2
      have h3 := hent 3 3
      simp at h0 h1 h2 h3
      rw [h0, h1, h2, h3]
      linear_combination k33 - k11
  · rintro ⟨hoff, h12, hsum⟩
    have o := fun (x y : Fin 4) (h : x ≠ y) => (hent x y).symm.trans (hoff x y h)
    have o01 := o 0 1 (by decide)
    have o02 := o 0 2 (by decide)
    have o03 := o 0 3 (by decide)
    have o10 := o 1 0 (by decide)
    have o12 := o 1 2 (by decide)
    have o13 := o 1 3 (by decide)
    have o20 := o 2 0 (by decide)
    have o21 := o 2 1 (by decide)
    have o23 := o 2 3 (by decide)
    have o30 := o 3 0 (by decide)
    have o31 := o 3 1 (by decide)
    have o32 := o 3 2 (by decide)
    have h0 := hent 0 0
    have h1 := hent 1 1
    have h2 := hent 2 2
    have h3 := hent 3 3
    simp at o01 o02 o03 o10 o12 o13 o20 o21 o23 o30 o31 o32 h0 h1 h2 h3
    rw [h1, h2] at h12
    rw [h0, h1, h2, h3] at hsum
    have hQH : (Spec.quad H (al 2) : Op 4) = (H : Op 4) + (A 1 1) • 1 := by
      rw [hQe, hH4]
      ext x y
      fin_cases x <;> fin_cases y <;>
        simp [o01, o02, o03, o10, o12, o13, o20, o21, o23, o30, o31, o32] <;>
        first | linear_combination hsum - h12 | linear_combination h12 | linear_combination (0 : ℂ) |
          linear_combination -h12 | linear_combination hsum
    have key : ∀ (X : Op 4) (c : ℂ), (expm (-(X + c • 1))).trace⁻¹ • expm (-(X + c • 1)) =
        (expm (-X)).trace⁻¹ • expm (-X) := by
      intro X c
      have hcm : Commute (-X) ((-c) • (1 : Op 4)) := (Commute.one_right _).smul_right _
      have h3 := Matrix.exp_add_of_commute _ _ hcm
      change expm (-X + _) = expm (-X) * expm _ at h3
      rw [expm_scalar, Matrix.mul_smul, mul_one] at h3
      have : -(X + c • (1 : Op 4)) = -X + (-c) • 1 := by rw [neg_add, neg_smul]
      rw [this, h3, trace_smul, smul_smul, smul_eq_mul, mul_inv, mul_right_comm,
        inv_mul_cancel₀ (Complex.exp_ne_zero _), one_mul]
    have := key (H : Op 4) (A 1 1)
    rw [← hQH] at this
    exact this.symm

/-- C41, exactly, for two sites and particle-hole symmetric matrices: the result for `build_H(2, A, B)` is right only if
`A` and `B` are zero. -/
theorem C41_two_sites_H (A B : Op 2) (hA : A.IsHermitian) (hB : Bᵀ = -B)
    (hsm : ∀ i j, buildH 2 A (some B) i j = 0 ∨ 1e-10 ≤ ‖buildH 2 A (some B) i j‖) :
    ∃ Q rho, buildOp 2 (buildH 2 A (some B)) (jordanWignerAlphas 2) false = .ok Q ∧
      generateGaussianState 2 (buildH 2 A (some B)) none = .ok (some rho) ∧
      (rho = (expm (-Q)).trace⁻¹ • expm (-Q) ↔ A = 0 ∧ B = 0) := by
  obtain ⟨Q, rho, h1, h2, h3⟩ := C41_two_sites_iff _ (buildH_herm A B hA hB) hsm
  refine ⟨Q, rho, h1, h2, h3.trans ⟨?_, ?_⟩⟩
  · rintro ⟨hoff, h12, hsum⟩
    have e00 : buildH 2 A (some B) 0 0 = -conj (A 0 0) := blk_11 (-(cj A)) _ _ _ (0 : Fin 2) 0
    have e11 : buildH 2 A (some B) 1 1 = -conj (A 1 1) := blk_11 (-(cj A)) _ _ _ (1 : Fin 2) 1
    have e22 : buildH 2 A (some B) 2 2 = A 0 0 := blk_22 (-(cj A)) _ _ _ (0 : Fin 2) 0
    have e33 : buildH 2 A (some B) 3 3 = A 1 1 := blk_22 (-(cj A)) _ _ _ (1 : Fin 2) 1
    have e23 : buildH 2 A (some B) 2 3 = A 0 1 := blk_22 (-(cj A)) _ _ _ (0 : Fin 2) 1
    have e32 : buildH 2 A (some B) 3 2 = A 1 0 := blk_22 (-(cj A)) _ _ _ (1 : Fin 2) 0
    have e03 : buildH 2 A (some B) 0 3 = B 0 1 := blk_12 (-(cj A)) _ _ _ (0 : Fin 2) 1
    have e12 : buildH 2 A (some B) 1 2 = B 1 0 := blk_12 (-(cj A)) _ _ _ (1 : Fin 2) 0
    have e02 : buildH 2 A (some B) 0 2 = B 0 0 := blk_12 (-(cj A)) _ _ _ (0 : Fin 2) 0
    have e13 : buildH 2 A (some B) 1 3 = B 1 1 := blk_12 (-(cj A)) _ _ _ (1 : Fin 2) 1
    have hr : ∀ i, conj (A i i) = A i i := fun i => by
      have := congrFun (congrFun hA i) i
      rwa [conjTranspose_apply] at this
    rw [e11, e22, hr] at h12
    rw [e00, e11, e22, e33, hr, hr] at hsum
    have a00 : A 0 0 = 0 := by linear_combination (-1 / 4 : ℂ) * hsum - (1 / 2 : ℂ) * h12
    have a11 : A 1 1 = 0 := by linear_combination (1 / 4 : ℂ) * hsum - (1 / 2 : ℂ) * h12
    constructor
    · ext i j
      fin_cases i <;> fin_cases j
      · exact a00
      · exact e23.symm.trans (hoff 2 3 (by decide))
      · exact e32.symm.trans (hoff 3 2 (by decide))
      · exact a11
    · ext i j
      fin_cases i <;> fin_cases j
      · exact e02.symm.trans (hoff 0 2 (by decide))
      · exact e03.symm.trans (hoff 0 3 (by decide))
      · exact e12.symm.trans (hoff 1 2 (by decide))
      · exact e13.symm.trans (hoff 1 3 (by decide))
  · rintro ⟨rfl, rfl⟩
    have : buildH 2 (0 : Op 2) (some 0) = 0 := by
      apply ext_halves <;> intro i j <;> simp [buildH, cj, -Fin.natAdd_eq_addNat]
    rw [this]
    simp

/-- Both sides of the equivalences occur. -/
example : (∃ H : Op (2 + 2), H.IsHermitian ∧ H ≠ 0 ∧ (∀ i j, H i j = 0 ∨ 1e-10 ≤ ‖H i j‖) ∧
    (∀ i j, i ≠ j → H i j = 0) ∧ H 1 1 = H 2 2 ∧ H 0 0 + H 3 3 = H 1 1 + H 2 2) ∧
    ∃ A : Op 2, A.IsHermitian ∧ A ≠ 0 ∧
      ∀ i j, buildH 2 A (some 0) i j = 0 ∨ 1e-10 ≤ ‖buildH 2 A (some 0) i j‖ := by
  constructor
  · refine ⟨diagonal ![1, 0, 0, -1], ?_, ?_, ?_, ?_, by simp, by simp⟩
    · rw [IsHermitian, diagonal_conjTranspose]
      congr 1
      funext i
      fin_cases i <;> simp
    · intro h
      have := congrFun (congrFun h 0) 0
      simp at this
    · intro i j
      fin_cases i <;> fin_cases j <;> simp <;> norm_num
    · exact fun i j hij => diagonal_apply_ne _ hij
  · refine ⟨1, isHermitian_one, one_ne_zero, ?_⟩
    have : ∀ i j : Fin (2 + 2), buildH 2 1 (some 0) i j = 0 ∨ (1 : ℝ) ≤ ‖buildH 2 (1 : Op 2) (some 0) i j‖ := by
      intro i j
      refine Fin.addCases (fun i => ?_) (fun i => ?_) i <;> refine Fin.addCases (fun j => ?_) (fun j => ?_) j <;>
        simp only [buildH, Option.getD_some, blk_11, blk_12, blk_21, blk_22] <;>
        fin_cases i <;> fin_cases j <;> simp [cj]
    exact fun i j => (this i j).imp id fun h => le_trans (by norm_num) h

/-! ## C106 -/

section
variable {n : ℕ}

/-- C106. For `n ≥ 3` sites, two Hamiltonians `build_H(n, A, B)` have the same Gaussian state if and only if they agree up
to entries of modulus below `1e-10` (which `build_op` skips), if and only if the correlation matrices of the states agree. -/
theorem C106_unique (hn : 3 ≤ n) (A B A' B' : Op n) (hA : A.IsHermitian) (hB : Bᵀ = -B) (hA' : A'.IsHermitian)
    (hB' : B'ᵀ = -B') (ρ ρ' : Op (2 ^ n)) (P P' : Op (n + n))
    (hρ : generateGaussianState n (buildH n A (some B)) none = .ok (some ρ))
    (hρ' : generateGaussianState n (buildH n A' (some B')) none = .ok (some ρ'))
    (hP : compute2Corr ρ n (jordanWignerAlphas n) (some 1) = .ok P)
    (hP' : compute2Corr ρ' n (jordanWignerAlphas n) (some 1) = .ok P') :
    (ρ = ρ' ↔ Spec.dropSmall 1e-10 (buildH n A (some B)) = Spec.dropSmall 1e-10 (buildH n A' (some B'))) ∧
      (ρ = ρ' ↔ P = P') := by
  obtain ⟨eta, he⟩ : ∃ eta, compute2Corr ρ n (jordanWignerAlphas n) (some (-1)) = .ok eta := by
    rw [jordanWignerAlphas_eq]; exact ⟨_, (C43_entries ρ (al n) (-1)).2⟩
  obtain ⟨eta', he'⟩ : ∃ eta', compute2Corr ρ' n (jordanWignerAlphas n) (some (-1)) = .ok eta' := by
    rw [jordanWignerAlphas_eq]; exact ⟨_, (C43_entries ρ' (al n) (-1)).2⟩
  obtain ⟨-, -, hPe, -⟩ := C89_fermi_dirac hn A B hA hB ρ P eta _ rfl hρ hP he
  obtain ⟨-, -, hPe', -⟩ := C89_fermi_dirac hn A' B' hA' hB' ρ' P' eta' _ rfl hρ' hP' he'
  have i1 : ρ = ρ' → P = P' := by
    rintro rfl
    rw [hP] at hP'
    exact Except.ok.inj hP'
  have i2 : P = P' → Spec.dropSmall 1e-10 (buildH n A (some B)) = Spec.dropSmall 1e-10 (buildH n A' (some B')) := by
    intro h
    have h2 : ∀ A B : Op n, A.IsHermitian → Bᵀ = -B →
        ((2 : ℂ) • Spec.dropSmall 1e-10 (buildH n A (some B))).IsHermitian := by
      intro A B hA hB
      rw [IsHermitian, conjTranspose_smul, (drop_herm (buildH_herm A B hA hB) _).eq]
      simp
    rw [hPe, hPe', neg_smul, neg_smul] at h
    exact smul_right_injective _ two_ne_zero (fermi_inj (h2 A B hA hB) (h2 A' B' hA' hB') h)
  have i3 : Spec.dropSmall 1e-10 (buildH n A (some B)) = Spec.dropSmall 1e-10 (buildH n A' (some B')) → ρ = ρ' := by
    intro h
    obtain ⟨Q, r, h1, h2, h3, -, -⟩ := C41_coefficients_partial n hn _ (buildH_herm A B hA hB) (al n)
    obtain ⟨Q', r', h1', h2', h3', -, -⟩ := C41_coefficients_partial n hn _ (buildH_herm A' B' hA' hB') (al n)
    rw [C41_default, jordanWignerAlphas_eq, h2] at hρ
    rw [C41_default, jordanWignerAlphas_eq, h2'] at hρ'
    obtain rfl : r = ρ := by simpa using hρ
    obtain rfl : r' = ρ' := by simpa using hρ'
    rw [buildOp_square _ _ (by omega)] at h1 h1'
    obtain rfl := Except.ok.inj h1
    obtain rfl := Except.ok.inj h1'
    rw [h3, h3', h]
  exact ⟨⟨i2 ∘ i1, i3⟩, ⟨i1, i3 ∘ i2⟩⟩

/-- C106. The correlation matrix `P` of a Gaussian state lies strictly between 0 and 1 and satisfies `S Pᵀ S = 1 - P`. -/
theorem C106_range (hn : 3 ≤ n) (A B : Op n) (hA : A.IsHermitian) (hB : Bᵀ = -B) (ρ : Op (2 ^ n)) (P : Op (n + n))
    (hρ : generateGaussianState n (buildH n A (some B)) none = .ok (some ρ))
    (hP : compute2Corr ρ n (jordanWignerAlphas n) (some 1) = .ok P) :
    P.PosDef ∧ (1 - P).PosDef ∧ Spec.swap n * Pᵀ * Spec.swap n = 1 - P := by
  obtain ⟨eta, he⟩ : ∃ eta, compute2Corr ρ n (jordanWignerAlphas n) (some (-1)) = .ok eta := by
    rw [jordanWignerAlphas_eq]; exact ⟨_, (C43_entries ρ (al n) (-1)).2⟩
  obtain ⟨-, -, hPe, -⟩ := C89_fermi_dirac hn A B hA hB ρ P eta _ rfl hρ hP he
  rw [neg_smul] at hPe
  set K : Op (n + n) := (2 : ℂ) • Spec.dropSmall 1e-10 (buildH n A (some B)) with hKdef
  have hK : K.IsHermitian := by
    rw [hKdef, IsHermitian, conjTranspose_smul, (drop_herm (buildH_herm A B hA hB) _).eq]
    simp
  have hKp : swapS n * Kᵀ * swapS n = -K := by
    rw [hKdef, transpose_smul, Matrix.mul_smul, Matrix.smul_mul, drop_ph A B hA hB, smul_neg]
  have h1 : 1 - P = (1 + expm K)⁻¹ := by
    rw [hPe, sub_eq_iff_eq_add']
    exact (fermi_add hK).symm
  refine ⟨?_, ?_, ?_⟩
  · rw [hPe]; exact (one_add_expm_posDef hK.neg).inv
  · rw [h1]; exact (one_add_expm_posDef hK).inv
  · rw [h1, ← swapS_eq, hPe]
    have := fermi_swap (-K)
    rw [transpose_neg, Matrix.mul_neg, Matrix.neg_mul, hKp, neg_neg] at this
    exact this

/-- C106. Conversely, every such matrix `P` comes from exactly one Hamiltonian `H = build_H(n, A, B)`: it is
`1 / (1 + exp(-2H))`, and if `H` has no tiny entries then `P` is the correlation matrix of `generate_gaussian_state(n, H)`. -/
theorem C106_parent (hn : 3 ≤ n) (P : Op (n + n)) (h0 : P.PosDef) (h1 : (1 - P).PosDef)
    (hS : Spec.swap n * Pᵀ * Spec.swap n = 1 - P) :
    ∃! H : Op (n + n), (∃ A B : Op n, A.IsHermitian ∧ Bᵀ = -B ∧ H = buildH n A (some B)) ∧
      P = (1 + NormedSpace.exp (-(2 : ℂ) • H))⁻¹ ∧
      ((∀ i j, H i j = 0 ∨ 1e-10 ≤ ‖H i j‖) → ∃ ρ, generateGaussianState n H none = .ok (some ρ) ∧
        compute2Corr ρ n (jordanWignerAlphas n) (some 1) = .ok P) := by
  rw [← swapS_eq] at hS
  obtain ⟨K, hK, hPK⟩ := fermi_exists h0 h1
  have hKp : swapS n * Kᵀ * swapS n = -K := by
    have h2 : 1 - P = (1 + expm K)⁻¹ := by
      rw [hPK, sub_eq_iff_eq_add']
      exact (fermi_add hK).symm
    have h3 := fermi_swap (-K)
    rw [← hPK, hS, h2, transpose_neg, Matrix.mul_neg, Matrix.neg_mul] at h3
    have hKS : (swapS n * Kᵀ * swapS n).IsHermitian := by
      have ht : Kᵀᴴ = Kᵀ := hK.transpose.eq
      rw [IsHermitian, conjTranspose_mul, conjTranspose_mul, swapS_conjTranspose, ht, mul_assoc]
    have h4 := fermi_inj (K := -K) (L := swapS n * Kᵀ * swapS n) hK.neg hKS (by rw [neg_neg]; exact h3)
    exact h4.symm
  set H : Op (n + n) := (1 / 2 : ℂ) • K with hHdef
  have hHK : (2 : ℂ) • H = K := by rw [hHdef, smul_smul]; norm_num
  have hH : H.IsHermitian := by
    rw [hHdef, IsHermitian, conjTranspose_smul, hK.eq]; simp
  have hHp : swapS n * Hᵀ * swapS n = -H := by
    rw [hHdef, transpose_smul, Matrix.mul_smul, Matrix.smul_mul, hKp, smul_neg]
  obtain ⟨A, B, hA, hB, hHe⟩ := buildH_of_ph hH hHp
  have hPH : P = (1 + NormedSpace.exp (-(2 : ℂ) • H))⁻¹ := by
    rw [neg_smul, hHK]; exact hPK
  refine ⟨H, ⟨⟨A, B, hA, hB, hHe⟩, hPH, fun hsm => ?_⟩, ?_⟩
  · obtain ⟨Q, ρ, -, h2, -, -, -⟩ := C41_coefficients_partial n hn _ (buildH_herm A B hA hB) (al n)
    have hρ : generateGaussianState n (buildH n A (some B)) none = .ok (some ρ) := by
      rw [C41_default, jordanWignerAlphas_eq]; exact h2
    obtain ⟨P', hP'⟩ : ∃ P', compute2Corr ρ n (jordanWignerAlphas n) (some 1) = .ok P' := by
      rw [jordanWignerAlphas_eq]; exact ⟨_, (C43_entries ρ (al n) 1).2⟩
    obtain ⟨eta, he⟩ : ∃ eta, compute2Corr ρ n (jordanWignerAlphas n) (some (-1)) = .ok eta := by
      rw [jordanWignerAlphas_eq]; exact ⟨_, (C43_entries ρ (al n) (-1)).2⟩
    obtain ⟨-, -, hPe, -⟩ := C89_fermi_dirac hn A B hA hB ρ P' eta _ rfl hρ hP' he
    rw [← hHe, dropSmall_id hsm, ← hPH] at hPe
    exact ⟨ρ, by rw [hHe]; exact hρ, by rw [← hPe]; exact hP'⟩
  · rintro H' ⟨⟨A', B', hA', hB', hHe'⟩, hP', -⟩
    have hH' : ((2 : ℂ) • H').IsHermitian := by
      rw [hHe', IsHermitian, conjTranspose_smul, (buildH_herm A' B' hA' hB').eq]; simp
    rw [neg_smul] at hP'
    have := fermi_inj hK hH' (hPK.symm.trans hP')
    rw [hHdef, this, smul_smul]
    norm_num

/-- The matrices of `C106_parent` exist for every size, for example the correlations of the maximally mixed state. -/
example : ((1 / 2 : ℂ) • (1 : Op (n + n))).PosDef ∧ (1 - (1 / 2 : ℂ) • (1 : Op (n + n))).PosDef ∧
    Spec.swap n * ((1 / 2 : ℂ) • (1 : Op (n + n)))ᵀ * Spec.swap n = 1 - (1 / 2 : ℂ) • (1 : Op (n + n)) := by
  have h : 1 - (1 / 2 : ℂ) • (1 : Op (n + n)) = (1 / 2 : ℂ) • (1 : Op (n + n)) := by
    rw [sub_eq_iff_eq_add, ← add_smul]; norm_num
  have hp : ((1 / 2 : ℂ) • (1 : Op (n + n))).PosDef := PosDef.one.smul (by norm_num [Complex.pos_iff])
  refine ⟨hp, by rw [h]; exact hp, ?_⟩
  rw [h, transpose_smul, transpose_one, Matrix.mul_smul, Matrix.smul_mul, mul_one, ← swapS_eq, swapS_sq]

end

end FF.Props
