import Verif.Proofs.Lipschitz

/-! # Property C149: small changes of the coefficients change the correlations of thermal and evolved states little -/

namespace FF.Props

open Matrix
open scoped ComplexOrder

variable {n : ℕ} {A B A' B' : Op n} {δ : ℝ}

/-- C149. Changing no entry of `A` and `B` by more than `δ` changes no entry of the correlation matrices of the thermal states
`generate_gaussian_state(n, build_H(A, B))` by more than `n (δ + 2e-10)`, and this bounds the root of the sum of all squares. -/
theorem C149_thermal (hn : 3 ≤ n) (hA : A.IsHermitian) (hB : Bᵀ = -B) (hA' : A'.IsHermitian) (hB' : B'ᵀ = -B')
    (hAA : ∀ i j, ‖A i j - A' i j‖ ≤ δ) (hBB : ∀ i j, ‖B i j - B' i j‖ ≤ δ) {ρ ρ' : Op (2 ^ n)} {P P' : Op (n + n)}
    (hρ : generateGaussianState n (buildH n A (some B)) none = .ok (some ρ))
    (hρ' : generateGaussianState n (buildH n A' (some B')) none = .ok (some ρ'))
    (hP : compute2Corr ρ n (jordanWignerAlphas n) (some 1) = .ok P) (hP' : compute2Corr ρ' n (jordanWignerAlphas n) (some 1) = .ok P') :
    ∑ i, ∑ j, ‖P i j - P' i j‖ ^ 2 ≤ (n * (δ + 2e-10)) ^ 2 ∧ ∀ i j, ‖P i j - P' i j‖ ≤ n * (δ + 2e-10) := by
  have hδ : 0 ≤ δ := (norm_nonneg _).trans (hAA ⟨0, by omega⟩ ⟨0, by omega⟩)
  obtain ⟨eta, he⟩ : ∃ eta, compute2Corr ρ n (jordanWignerAlphas n) (some (-1)) = .ok eta := by
    rw [jordanWignerAlphas_eq]; exact ⟨_, (C43_entries ρ _ (-1)).2⟩
  obtain ⟨eta', he'⟩ : ∃ eta, compute2Corr ρ' n (jordanWignerAlphas n) (some (-1)) = .ok eta := by
    rw [jordanWignerAlphas_eq]; exact ⟨_, (C43_entries ρ' _ (-1)).2⟩
  obtain ⟨-, -, e1, -⟩ := C89_fermi_dirac hn A B hA hB ρ P eta _ rfl hρ hP he
  obtain ⟨-, -, e2, -⟩ := C89_fermi_dirac hn A' B' hA' hB' ρ' P' eta' _ rfl hρ' hP' he'
  have hF : frob (P - P') ≤ (n * (δ + 2e-10)) ^ 2 := by
    rw [e1, e2]
    refine (fermi_near (drop_herm (buildH_herm A B hA hB) _) (drop_herm (buildH_herm A' B' hA' hB') _)
      (δ := δ + 2e-10) fun i j => dropSmall_near (fun i j => buildH_near hAA hBB i j) i j).trans (le_of_eq ?_)
    push_cast
    ring
  refine ⟨hF, fun i j => abs_le_of_sq_le_sq' ((entry_le_frob (P - P') i j).trans hF) (by positivity) |>.2⟩

/-- C149. The same for the matrices `<alpha_i alpha_j>` and `<alpha_i^dag alpha_j>`, in particular for the occupations of the sites. -/
theorem C149_occupations (hn : 3 ≤ n) (hA : A.IsHermitian) (hB : Bᵀ = -B) (hA' : A'.IsHermitian) (hB' : B'ᵀ = -B')
    (hAA : ∀ i j, ‖A i j - A' i j‖ ≤ δ) (hBB : ∀ i j, ‖B i j - B' i j‖ ≤ δ) {ρ ρ' : Op (2 ^ n)}
    (hρ : generateGaussianState n (buildH n A (some B)) none = .ok (some ρ))
    (hρ' : generateGaussianState n (buildH n A' (some B')) none = .ok (some ρ')) {Γ Γ' eta eta' : Op (n + n)}
    (hΓ : compute2Corr ρ n (jordanWignerAlphas n) none = .ok Γ) (hΓ' : compute2Corr ρ' n (jordanWignerAlphas n) none = .ok Γ')
    (he : compute2Corr ρ n (jordanWignerAlphas n) (some (-1)) = .ok eta) (he' : compute2Corr ρ' n (jordanWignerAlphas n) (some (-1)) = .ok eta')
    (i j : Fin (n + n)) : ‖Γ i j - Γ' i j‖ ≤ n * (δ + 2e-10) ∧ ‖eta i j - eta' i j‖ ≤ n * (δ + 2e-10) := by
  obtain ⟨P, hP⟩ : ∃ P, compute2Corr ρ n (jordanWignerAlphas n) (some 1) = .ok P := by
    rw [jordanWignerAlphas_eq]; exact ⟨_, (C43_entries ρ _ 1).2⟩
  obtain ⟨P', hP'⟩ : ∃ P, compute2Corr ρ' n (jordanWignerAlphas n) (some 1) = .ok P := by
    rw [jordanWignerAlphas_eq]; exact ⟨_, (C43_entries ρ' _ 1).2⟩
  have h := (C149_thermal hn hA hB hA' hB' hAA hBB hρ hρ' hP hP').2
  obtain ⟨-, r1, r2, -⟩ := C43_relations ρ Γ P eta hΓ hP he
  obtain ⟨-, r1', r2', -⟩ := C43_relations ρ' Γ' P' eta' hΓ' hP' he'
  have g : ∀ i j, ‖Γ i j - Γ' i j‖ ≤ n * (δ + 2e-10) := fun i j => by
    have := h i (fl j)
    rw [r1, r1', ← swapS_eq, mul_swapS, mul_swapS, fl_fl] at this
    exact this
  refine ⟨g i j, ?_⟩
  rw [r2, r2', ← swapS_eq, swapS_mul, swapS_mul]
  exact g _ _

/-- C149. Evolving a state for the time `t` with `build_op(build_H(A, B))`: changing no entry of `A` and `B` by more than `δ` changes no entry
of the correlation matrix of the evolved state by more than `4 n |t| (δ + 2e-10)`, although the evolved states have `2^n` components. -/
theorem C149_evolution (hn : 1 ≤ n) (hA : A.IsHermitian) (hB : Bᵀ = -B) (hA' : A'.IsHermitian) (hB' : B'ᵀ = -B')
    (hAA : ∀ i j, ‖A i j - A' i j‖ ≤ δ) (hBB : ∀ i j, ‖B i j - B' i j‖ ≤ δ) (t : ℝ) {ρ Q Q' W W' : Op (2 ^ n)} (hρ : Spec.IsDensity ρ)
    (hQ : buildOp n (buildH n A (some B)) (jordanWignerAlphas n) false = .ok Q)
    (hQ' : buildOp n (buildH n A' (some B')) (jordanWignerAlphas n) false = .ok Q')
    (hW : W = expm ((-Complex.I * t) • Q)) (hW' : W' = expm ((-Complex.I * t) • Q')) {R R' : Op (n + n)}
    (hR : compute2Corr (W * ρ * Wᴴ) n (jordanWignerAlphas n) (some 1) = .ok R)
    (hR' : compute2Corr (W' * ρ * W'ᴴ) n (jordanWignerAlphas n) (some 1) = .ok R') (i j : Fin (n + n)) :
    ‖R i j - R' i j‖ ≤ 4 * n * |t| * (δ + 2e-10) := by
  have hδ : 0 ≤ δ := (norm_nonneg _).trans (hAA ⟨0, by omega⟩ ⟨0, by omega⟩)
  obtain ⟨P, hP⟩ : ∃ P, compute2Corr ρ n (jordanWignerAlphas n) (some 1) = .ok P := by
    rw [jordanWignerAlphas_eq]; exact ⟨_, (C43_entries ρ _ 1).2⟩
  obtain ⟨eta, he⟩ : ∃ P, compute2Corr ρ n (jordanWignerAlphas n) (some (-1)) = .ok P := by
    rw [jordanWignerAlphas_eq]; exact ⟨_, (C43_entries ρ _ (-1)).2⟩
  obtain ⟨-, -, h0, h1, -⟩ := C43_state ρ hρ P eta hP he
  obtain ⟨Q1, hQ1, -, hE, hev, -⟩ := C94_evolution hn A B hA hB t ρ
  obtain ⟨Q2, hQ2, -, hE', hev', -⟩ := C94_evolution hn A' B' hA' hB' t ρ
  obtain rfl : Q = Q1 := by rw [hQ] at hQ1; injection hQ1
  obtain rfl : Q' = Q2 := by rw [hQ'] at hQ2; injection hQ2
  have e1 := hev P hP
  have e2 := hev' P hP
  rw [← hW, hR] at e1
  rw [← hW', hR'] at e2
  injection e1 with e1
  injection e2 with e2
  rw [e1, e2, ← Matrix.sub_apply]
  refine conj_near hE hE' h0 h1 (by positivity) ?_ i j
  refine (expm_near (drop_herm (buildH_herm A B hA hB) _) (drop_herm (buildH_herm A' B' hA' hB') _)
      (δ := δ + 2e-10) (fun i j => dropSmall_near (fun i j => buildH_near hAA hBB i j) i j) t).trans (le_of_eq ?_)
  push_cast
  ring

/-- The hypotheses are met by three sites with hopping and pairing, whose hopping is changed from 2 to 2.01. -/
example : ∃ (A A' B : Op 3) (ρ ρ' : Op (2 ^ 3)), A.IsHermitian ∧ A'.IsHermitian ∧ Bᵀ = -B ∧ A ≠ A' ∧ B ≠ 0 ∧ (∀ i j, ‖A i j - A' i j‖ ≤ 1 / 100) ∧
    generateGaussianState 3 (buildH 3 A (some B)) none = .ok (some ρ) ∧ generateGaussianState 3 (buildH 3 A' (some B)) none = .ok (some ρ') ∧
    Spec.IsDensity ρ := by
  have hA : ∀ c : ℝ, (Matrix.of fun i j : Fin 3 => if i = j then (1 : ℂ) else (c : ℂ)).IsHermitian := fun c => by
    ext i j
    simp only [conjTranspose_apply, of_apply, eq_comm (a := j)]
    split_ifs <;> simp
  have hB : (Matrix.of fun i j : Fin 3 => if i < j then (1 : ℂ) else if j < i then -1 else 0)ᵀ =
      -Matrix.of fun i j : Fin 3 => if i < j then (1 : ℂ) else if j < i then -1 else 0 := by
    ext i j
    simp only [transpose_apply, of_apply, Matrix.neg_apply]
    rcases lt_trichotomy i j with h | h | h
    · rw [if_neg h.not_gt, if_pos h, if_pos h]
    · subst h; simp
    · rw [if_pos h, if_neg h.not_gt, if_pos h, neg_neg]
  obtain ⟨Q, ρ, -, h2, -, hp, ht⟩ := C41_coefficients_partial 3 le_rfl _ (buildH_herm _ _ (hA 2) hB) (al 3)
  obtain ⟨Q', ρ', -, h2', -⟩ := C41_coefficients_partial 3 le_rfl _ (buildH_herm _ _ (hA 2.01) hB) (al 3)
  refine ⟨_, _, _, ρ, ρ', hA 2, hA 2.01, hB, fun h => ?_, fun h => ?_, fun i j => ?_, by rw [C41_default, jordanWignerAlphas_eq]; exact h2,
    by rw [C41_default, jordanWignerAlphas_eq]; exact h2', ⟨hp.posSemidef, ht⟩⟩
  · have := congrFun (congrFun h 0) 1
    norm_num at this
  · have := congrFun (congrFun h 0) 1
    simp at this
  · simp only [of_apply]
    split_ifs
    · norm_num
    · rw [← Complex.ofReal_sub, Complex.norm_real]; norm_num [abs_of_nonneg]

end FF.Props
