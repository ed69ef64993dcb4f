import Verif.Props.Coefficients
import Verif.Props.Eigen
import Verif.Proofs.Evolve
import Verif.Proofs.SchurExists
import Verif.Proofs.Kitaev

/-! # Properties C93-C96: occupations, time evolution, the many-body spectrum, and the zero mode of the Kitaev chain -/

namespace FF.Props

open Matrix
open scoped ComplexOrder

/-! ## C93 -/

section
variable {n : ℕ}

/-- C93, the part that holds. In the array `Γ` that `compute_2corr_matrix` returns by default, row `i` and column `n + j`
hold `⟨a†_i a_j⟩`; for `i = j` this is the probability that site `i` is filled. -/
theorem C93_block_partial {ρ : Op (2 ^ n)} {Γ : Op (n + n)} (a : Fin n → Op (2 ^ n))
    (ha : jordanWignerLowering n = List.ofFn a) (h : compute2Corr ρ n (jordanWignerAlphas n) none = .ok Γ) (i j : Fin n) :
    Γ (Fin.castAdd n i) (Fin.natAdd n j) = (ρ * ((a i)ᴴ * a j)).trace ∧
    Γ (Fin.castAdd n i) (Fin.natAdd n i) = ∑ x : Fin (2 ^ n), if Spec.digit 2 n x i = 1 then ρ x x else 0 := by
  rw [jordanWignerLowering_eq] at ha
  obtain rfl := List.ofFn_injective ha
  rw [jordanWignerAlphas_eq, (C43_entries ρ (al n) 1).1] at h
  rw [← Except.ok.inj h]
  have h1 : ∀ j, (Matrix.of fun i j => (ρ * al n i * al n j).trace) (Fin.castAdd n i) (Fin.natAdd n j) =
      (ρ * ((jwLower n i)ᴴ * jwLower n j)).trace := by
    intro j
    rw [of_apply, al_left, al_right, Matrix.mul_assoc]
  refine ⟨h1 j, ?_⟩
  rw [h1 i, number_diag, trace]
  refine Finset.sum_congr rfl fun x _ => ?_
  rw [diag_apply, mul_diagonal]
  have : ∀ y : Fin 2, ρ x x * ((y : ℕ) : ℂ) = if y = 1 then ρ x x else 0 :=
    Fin.forall_fin_two.2 ⟨by simp, by simp⟩
  exact this _

/-- C93 is false as documented. `docs/examples.rst` reads the occupations of the sites off the second half of the diagonal
of `Γ`. These entries are zero for every input. -/
theorem C93_violation {ρ : Op (2 ^ n)} {Γ : Op (n + n)} (h : compute2Corr ρ n (jordanWignerAlphas n) none = .ok Γ)
    (x : Fin (n + n)) : Γ x x = 0 := by
  rw [jordanWignerAlphas_eq, (C43_entries ρ (al n) 1).1] at h
  rw [← Except.ok.inj h, of_apply, Matrix.mul_assoc]
  have hsq : al n x * al n x = 0 := by
    have := al_anticomm x x
    have hx : x ≠ fl x := by
      refine Fin.addCases (fun i => ?_) (fun i => ?_) x
      · rw [fl_left]; exact fun h => absurd (congrArg Fin.val h) (by simp only [Fin.val_castAdd, Fin.val_natAdd]; omega)
      · rw [fl_right]; exact fun h => absurd (congrArg Fin.val h) (by simp only [Fin.val_castAdd, Fin.val_natAdd]; omega)
    rw [← two_smul ℂ, swapS_apply, if_neg hx, zero_smul] at this
    exact (smul_eq_zero.1 this).resolve_left two_ne_zero
  rw [hsq, Matrix.mul_zero, trace_zero]

/-- In a positive definite state, such as the Gaussian state of the documented example, every site is filled with a
positive probability, so the documented reading is wrong for all sites. -/
theorem C93_violation_gaussian {ρ : Op (2 ^ n)} (hρ : ρ.PosDef) {Γ : Op (n + n)}
    (h : compute2Corr ρ n (jordanWignerAlphas n) none = .ok Γ) (i : Fin n) :
    0 < ∑ x : Fin (2 ^ n), (if Spec.digit 2 n x i = 1 then ρ x x else 0) ∧
    Γ (Fin.natAdd n i) (Fin.natAdd n i) ≠ ∑ x : Fin (2 ^ n), if Spec.digit 2 n x i = 1 then ρ x x else 0 := by
  have hd : ∀ x, 0 < ρ x x := fun x => hρ.diag_pos
  have hx : Spec.digit 2 n (bIdx fun _ => 1) i = 1 := congrFun ((eq_bIdx _ _).1 rfl) i
  have hpos : 0 < ∑ x : Fin (2 ^ n), (if Spec.digit 2 n x i = 1 then ρ x x else 0) := by
    refine Finset.sum_pos' (fun x _ => ?_) ⟨bIdx fun _ => 1, Finset.mem_univ _, ?_⟩
    · split_ifs
      · exact (hd x).le
      · exact le_rfl
    · rw [if_pos hx]
      exact hd _
  refine ⟨hpos, ?_⟩
  rw [C93_violation h]
  exact hpos.ne

/-- The Gaussian state of the hopping chain of `docs/examples.rst` is such a state. -/
example : ∃ ρ : Op (2 ^ 6), generateGaussianState 6 (kitaevChain 6 0 1 0) none = .ok (some ρ) ∧ ρ.PosDef := by
  have hH : (kitaevChain 6 0 1 0).IsHermitian := by
    rw [kitaev_eq]
    refine buildH_herm _ _ ?_ ?_
    · ext x y
      simp only [conjTranspose_apply, tri, of_apply, Fin.ext_iff, RCLike.star_def]
      split_ifs <;> first | omega | simp
    · ext x y
      simp only [transpose_apply, Matrix.neg_apply, tri, of_apply, Fin.ext_iff]
      split_ifs <;> first | omega | simp
  obtain ⟨Q, ρ, -, h1, -, h2, -⟩ := C41_coefficients_partial 6 (by norm_num) _ hH (al 6)
  refine ⟨ρ, ?_, h2⟩
  rw [C41_default, jordanWignerAlphas_eq]
  exact h1

end

/-! ## C94 -/

section
variable {n : ℕ}

/-- C94. Time evolution. Let `Q = build_op(H)` for `H = build_H(A, B)`, and let `W = exp(-i t Q)` evolve a state `ρ` (any
array) to `W ρ W†`. The correlations of the evolved state follow from those of `ρ` by the `2n x 2n` unitary
`E = exp(-2 i t H)`: `P` becomes `E P E†` and `Γ` becomes `E Γ E^T`. Coefficients below `1e-10`, which `build_op` skips,
are also skipped in `E`. -/
theorem C94_evolution (hn : 1 ≤ n) (A B : Op n) (hA : A.IsHermitian) (hB : Bᵀ = -B) (t : ℝ) (ρ : Op (2 ^ n)) :
    ∃ Q, buildOp n (buildH n A (some B)) (jordanWignerAlphas n) false = .ok Q ∧
      let W := expm ((-Complex.I * t) • Q)
      let E := expm ((-2 * Complex.I * t) • Spec.dropSmall 1e-10 (buildH n A (some B)))
      W * Wᴴ = 1 ∧ E * Eᴴ = 1 ∧
      (∀ P, compute2Corr ρ n (jordanWignerAlphas n) (some 1) = .ok P →
        compute2Corr (W * ρ * Wᴴ) n (jordanWignerAlphas n) (some 1) = .ok (E * P * Eᴴ)) ∧
      (∀ Γ, compute2Corr ρ n (jordanWignerAlphas n) none = .ok Γ →
        compute2Corr (W * ρ * Wᴴ) n (jordanWignerAlphas n) none = .ok (E * Γ * Eᵀ)) := by
  rw [jordanWignerAlphas_eq]
  have hR := drop_herm (buildH_herm A B hA hB) 1e-10
  have hph : adM (Spec.dropSmall 1e-10 (buildH n A (some B))) =
      (2 : ℂ) • Spec.dropSmall 1e-10 (buildH n A (some B)) := adM_ph (drop_ph A B hA hB)
  have hE : (-2 * Complex.I * t) • Spec.dropSmall 1e-10 (buildH n A (some B)) =
      (-Complex.I * t) • adM (Spec.dropSmall 1e-10 (buildH n A (some B))) := by
    rw [hph, smul_smul]
    congr 1
    ring
  refine ⟨_, buildOp_square _ _ hn, ?_⟩
  intro W E
  have hEE : E = expm ((-Complex.I * t) • adM (Spec.dropSmall 1e-10 (buildH n A (some B)))) := congrArg expm hE
  refine ⟨(heis_conj hR t rfl).1, hEE ▸ evolve_unitary hR t, fun P hP => ?_, fun Γ hΓ => ?_⟩
  · rw [(C43_entries ρ (al n) 1).2] at hP
    rw [(C43_entries _ (al n) 1).2, ← Except.ok.inj hP, hEE]
    exact congrArg Except.ok (evolve_P hR t ρ rfl)
  · rw [(C43_entries ρ (al n) 1).1] at hΓ
    rw [(C43_entries _ (al n) 1).1, ← Except.ok.inj hΓ, hEE]
    exact congrArg Except.ok (evolve_G hR t ρ rfl)

/-- The hypotheses are met by a chain with hopping and pairing. -/
example : (!![1, Complex.I; -Complex.I, 2] : Op 2).IsHermitian ∧ (!![0, 1; -1, 0] : Op 2)ᵀ = -!![0, 1; -1, 0] := by
  constructor
  · ext i j; fin_cases i <;> fin_cases j <;> simp
  · ext i j; fin_cases i <;> fin_cases j <;> simp

end

/-! ## C95 -/

section
variable {n : ℕ}

/-- The energies of `n` independent modes: every mode contributes `s_k` if it is filled and `-s_k` if it is empty. -/
def modeEnergy (s : Fin n → ℝ) (c : Fin n → Bool) : ℝ := ∑ k, if c k then s k else -s k

/-- The many-body spectrum, partition function and lowest energy of a quadratic form that a Bogoliubov transformation
brings to the form `diag(-s, s)`. -/
theorem spectrum_canonical {H U : Op (n + n)} {s : Fin n → ℝ} (hc : IsCanonicalU U) (hU : U * Uᴴ = 1)
    (hL : Uᴴ * H * U = Spec.standardForm s) :
    (Spec.quad H (al n)).charpoly = ∏ c : Fin n → Bool, (Polynomial.X - Polynomial.C ((modeEnergy s c : ℝ) : ℂ)) ∧
    (∀ β : ℝ, (expm ((-β : ℂ) • Spec.quad H (al n))).trace = ((∏ k, 2 * Real.cosh (β * s k) : ℝ) : ℂ)) ∧
    IsLeast {E : ℝ | ∃ v : Fin (2 ^ n) → ℂ, v ≠ 0 ∧ Spec.quad H (al n) *ᵥ v = (E : ℂ) • v} (-∑ k, |s k|) := by
  classical
  obtain ⟨V, e, hV, -, hQ⟩ := quad_spectrum hc hU hL
  have hV' : Vᴴ * V = 1 := mul_eq_one_comm.1 hV
  set d : Fin (2 ^ n) → ℂ := fun x => ((modeEnergy s (e.symm x) : ℝ) : ℂ) with hd
  have hQ' : Spec.quad H (al n) = V * diagonal d * Vᴴ := hQ
  refine ⟨?_, fun β => ?_, ?_, ?_⟩
  · rw [hQ', charpoly_unitary hV, charpoly_diagonal, ← e.prod_comp]
    refine Finset.prod_congr rfl fun c _ => ?_
    simp only [hd, Equiv.symm_apply_apply]
  · have h1 : expm ((-β : ℂ) • Spec.quad H (al n)) =
        V * diagonal (fun x => Complex.exp (-β * d x)) * Vᴴ := by
      have hi : V⁻¹ = Vᴴ := Matrix.inv_eq_right_inv hV
      have hu : IsUnit V := IsUnit.of_mul_eq_one _ hV
      rw [hQ', expm, ← Matrix.smul_mul, ← Matrix.mul_smul, ← hi, Matrix.exp_conj _ _ hu]
      congr 2
      rw [show (-β : ℂ) • diagonal d = diagonal fun x => -β * d x by
        ext i j; by_cases h : i = j
        · subst h; simp
        · simp [h], Matrix.exp_diagonal]
      congr 1
      funext x
      rw [Pi.coe_exp, Complex.exp_eq_exp_ℂ]
    rw [h1, Matrix.mul_assoc, trace_mul_comm, Matrix.mul_assoc, hV', mul_one, trace_diagonal, ← e.sum_comp]
    have h2 := sum_patterns fun k => β * s k
    rw [← h2]
    push_cast
    refine Finset.sum_congr rfl fun c _ => ?_
    rw [hd]
    congr 1
    simp only [Equiv.symm_apply_apply, modeEnergy]
    push_cast
    rw [neg_mul, Finset.mul_sum]
    congr 1
    refine Finset.sum_congr rfl fun k _ => ?_
    split_ifs <;> push_cast <;> ring
  · refine ⟨V *ᵥ Pi.single (e fun k => decide (s k < 0)) 1, fun h => ?_, ?_⟩
    · have := congrArg (fun v => Vᴴ *ᵥ v) h
      simp only [mulVec_mulVec, hV', one_mulVec, mulVec_zero] at this
      have := congrFun this (e fun k => decide (s k < 0))
      simp at this
    · rw [hQ', mulVec_mulVec, Matrix.mul_assoc, hV', mul_one, ← mulVec_mulVec]
      have : diagonal d *ᵥ Pi.single (e fun k => decide (s k < 0)) 1 =
          ((-∑ k, |s k| : ℝ) : ℂ) • (Pi.single (e fun k => decide (s k < 0)) 1 : Fin (2 ^ n) → ℂ) := by
        rw [diagonal_mulVec_single, mul_one, ← Pi.single_smul, smul_eq_mul, mul_one]
        congr 1
        rw [hd]
        simp only [Equiv.symm_apply_apply, modeEnergy]
        rw [← Finset.sum_neg_distrib]
        refine congrArg _ ?_
        refine Finset.sum_congr rfl fun k _ => ?_
        by_cases h : s k < 0
        · rw [if_pos (by simpa using h), abs_of_neg h, neg_neg]
        · rw [if_neg (by simpa using h), abs_of_nonneg (not_lt.1 h)]
      rw [this, mulVec_smul]
  · rintro E ⟨v, hv, hE⟩
    have h1 : diagonal d *ᵥ (Vᴴ *ᵥ v) = (E : ℂ) • (Vᴴ *ᵥ v) := by
      rw [← mulVec_smul, ← hE, hQ', mulVec_mulVec, mulVec_mulVec, ← Matrix.mul_assoc, ← Matrix.mul_assoc, hV', one_mul]
    have h2 : Vᴴ *ᵥ v ≠ 0 := fun h => hv (by
      have := congrArg (fun v => V *ᵥ v) h
      simpa only [mulVec_mulVec, hV, one_mulVec, mulVec_zero] using this)
    obtain ⟨x, hx⟩ := Function.ne_iff.1 h2
    have h3 := congrFun h1 x
    rw [mulVec_diagonal, Pi.smul_apply, smul_eq_mul] at h3
    have h4 : modeEnergy s (e.symm x) = E := Complex.ofReal_injective (mul_right_cancel₀ hx h3)
    rw [← h4, modeEnergy, ← Finset.sum_neg_distrib]
    refine Finset.sum_le_sum fun k _ => ?_
    split_ifs
    · exact neg_abs_le _
    · exact neg_le_neg (le_abs_self _)

/-- C95. `eigh_sp` solves the many-body problem. Let `H = build_H(A, B)`, with coefficients that are zero or at least
`1e-10` and no eigenvalue between zero and the cut-off, let `eigh_sp(H)` return `L = diag(-s, s)`, and let
`Q = build_op(H)` be the `2^n x 2^n` operator. Then the eigenvalues of `Q`, with multiplicities, are the `2^n` sums
`± s_1 ± ... ± s_n`; the partition function `Tr exp(-β Q)` is `∏ 2 cosh(β s_k)`; and the lowest energy is `-Σ |s_k|`. -/
theorem C95_spectrum (hn : 1 ≤ n) (A B : Op n) (hA : A.IsHermitian) (hB : Bᵀ = -B)
    (hsmall : ∀ x y, buildH n A (some B) x y = 0 ∨ 1e-10 ≤ ‖buildH n A (some B) x y‖)
    (schur : RMat (n + n) → RMat (n + n) × RMat (n + n)) (argsort : (Fin n → ℝ) → Fin n → ℕ)
    (hschur : SchurOk (buildH n A (some B)) schur) (hsort : ArgsortOk argsort)
    (hgap : NoTinyEigenvalue (buildH n A (some B))) :
    ∃ (Q : Op (2 ^ n)) (s : Fin n → ℝ) (U : Op (n + n)),
      buildOp n (buildH n A (some B)) (jordanWignerAlphas n) false = .ok Q ∧
      eighSp schur argsort (buildH n A (some B)) = .ok (Spec.standardForm s, U) ∧
      Q.charpoly = ∏ c : Fin n → Bool, (Polynomial.X - Polynomial.C ((modeEnergy s c : ℝ) : ℂ)) ∧
      (∀ β : ℝ, (expm ((-β : ℂ) • Q)).trace = ((∏ k, 2 * Real.cosh (β * s k) : ℝ) : ℂ)) ∧
      IsLeast {E : ℝ | ∃ v : Fin (2 ^ n) → ℂ, v ≠ 0 ∧ Q *ᵥ v = (E : ℂ) • v} (-∑ k, |s k|) := by
  obtain ⟨L, U, s, hrun, hU, hc, hL, -, hex⟩ := eigh_main schur argsort (buildH_herm A B hA hB)
    (buildH_ph A B hA hB) hschur hsort
  obtain rfl := hex hgap
  refine ⟨Spec.quad (buildH n A (some B)) (al n), s, U, ?_, hrun, spectrum_canonical hc hU hL⟩
  rw [jordanWignerAlphas_eq, buildOp_square _ _ hn, dropSmall_id hsmall]

end

/-! ## C96 -/

section
variable {n : ℕ}

theorem kitaev_parts (n : ℕ) (mu t delta : ℝ) :
    (tri n ((-mu : ℝ) : ℂ) ((-t : ℝ) : ℂ) ((-t : ℝ) : ℂ)).IsHermitian ∧
      (tri n 0 (delta : ℂ) ((-delta : ℝ) : ℂ))ᵀ = - tri n 0 (delta : ℂ) ((-delta : ℝ) : ℂ) := by
  constructor
  · ext x y
    simp only [conjTranspose_apply, tri, of_apply, Fin.ext_iff, RCLike.star_def]
    split_ifs <;> first | omega | simp
  · ext x y
    simp only [transpose_apply, Matrix.neg_apply, tri, of_apply, Fin.ext_iff]
    split_ifs <;> first | omega | simp

theorem kitaev_small (n : ℕ) {mu t delta : ℝ} (hmu : mu = 0 ∨ 1e-10 ≤ |mu|) (ht : t = 0 ∨ 1e-10 ≤ |t|)
    (hdelta : delta = 0 ∨ 1e-10 ≤ |delta|) (x y : Fin (n + n)) :
    kitaevChain n mu t delta x y = 0 ∨ 1e-10 ≤ ‖kitaevChain n mu t delta x y‖ := by
  have hz (c : ℝ) (hc : c = 0 ∨ 1e-10 ≤ |c|) : (c : ℂ) = 0 ∨ (1e-10 : ℝ) ≤ ‖(c : ℂ)‖ := by
    rw [Complex.norm_real]; rcases hc with h | h
    · left; simp [h]
    · right; exact h
  have hneg (c : ℂ) (hc : c = 0 ∨ (1e-10 : ℝ) ≤ ‖c‖) : -c = 0 ∨ (1e-10 : ℝ) ≤ ‖-c‖ := by
    rw [neg_eq_zero, norm_neg]; exact hc
  have h1 := hz mu hmu
  have h2 := hz t ht
  have h3 := hz delta hdelta
  rw [kitaev_eq, buildH]
  refine Fin.addCases (fun i => ?_) (fun i => ?_) x <;>
    refine Fin.addCases (fun j => ?_) (fun j => ?_) y <;>
    simp only [Option.getD_some, blk_11, blk_12, blk_21, blk_22, Matrix.neg_apply, cj, map_apply, tri,
      of_apply] <;>
    split_ifs <;> (try simp only [Complex.ofReal_neg, map_neg, Complex.conj_ofReal, neg_neg, map_zero, neg_zero,
      true_or]) <;> try first | assumption | (apply hneg; assumption)

/-- The eigenvalues of the chain with `mu = 0` and `delta = ± t` are zero or `± 2 t`. -/
theorem kitaev_gap {t δ : ℝ} (ht : 1e-10 ≤ |t|) (hδ : δ = t ∨ δ = -t) : NoTinyEigenvalue (kitaevChain n 0 t δ) := by
  intro μ v hv he
  have h := congrArg (fun M => M *ᵥ v) (kitaev_cube (n := n) t δ hδ)
  simp only [← mulVec_mulVec, he, mulVec_smul, smul_mulVec, smul_smul] at h
  obtain ⟨x, hx⟩ := Function.ne_iff.1 hv
  have h1 := congrFun h x
  simp only [Pi.smul_apply, smul_eq_mul] at h1
  have h2 : μ * (μ ^ 2 - 4 * t ^ 2) = 0 := by
    refine mul_right_cancel₀ hx ?_
    rw [zero_mul]
    linear_combination h1
  rcases mul_eq_zero.1 h2 with h3 | h3
  · exact .inl h3
  · right
    have h4 : ‖μ‖ ^ 2 = (2 * |t|) ^ 2 := by
      have := congrArg norm (sub_eq_zero.1 h3)
      rw [norm_pow, norm_mul, norm_pow, Complex.norm_real] at this
      rw [this, mul_pow, Real.norm_eq_abs]
      norm_num
    have h5 : ‖μ‖ = 2 * |t| := (sq_eq_sq₀ (norm_nonneg _) (by positivity)).1 h4
    rw [h5]
    have : (0 : ℝ) < 1e-10 := by norm_num
    linarith

/-- C96. The Kitaev chain without chemical potential and with `delta = t` or `delta = -t`: of the `n` energies that
`eigh_sp(kitaev_chain(n, 0, t, delta))` returns, exactly one is zero (the zero mode), and all others are `± 2 t`. The
ground state energy of the operator is `-2 |t| (n - 1)`. -/
theorem C96_zero_mode (hn : 1 ≤ n) (t δ : ℝ) (ht : 1e-10 ≤ |t|) (hδ : δ = t ∨ δ = -t)
    (schur : RMat (n + n) → RMat (n + n) × RMat (n + n)) (argsort : (Fin n → ℝ) → Fin n → ℕ)
    (hschur : SchurOk (kitaevChain n 0 t δ) schur) (hsort : ArgsortOk argsort) :
    ∃ (Q : Op (2 ^ n)) (s : Fin n → ℝ) (U : Op (n + n)),
      buildOp n (kitaevChain n 0 t δ) (jordanWignerAlphas n) false = .ok Q ∧
      eighSp schur argsort (kitaevChain n 0 t δ) = .ok (Spec.standardForm s, U) ∧
      (∃! k, s k = 0) ∧ (∀ k, s k = 0 ∨ |s k| = 2 * |t|) ∧
      IsLeast {E : ℝ | ∃ v : Fin (2 ^ n) → ℂ, v ≠ 0 ∧ Q *ᵥ v = (E : ℂ) • v} (-(2 * |t| * (n - 1))) := by
  classical
  have ht0 : 0 < |t| := lt_of_lt_of_le (by norm_num) ht
  have hδ' : δ = 0 ∨ 1e-10 ≤ |δ| := by rcases hδ with rfl | rfl <;> simp [ht]
  obtain ⟨hA, hB⟩ := kitaev_parts n 0 t δ
  have hk := kitaev_eq n 0 t δ
  have hsm := kitaev_small n (mu := 0) (.inl rfl) (.inr ht) hδ'
  have hgap := kitaev_gap (n := n) ht hδ
  rw [hk] at hschur hsm hgap
  obtain ⟨Q, s, U, hQ, hrun, -, -, hleast⟩ := C95_spectrum hn _ _ hA hB hsm schur argsort hschur hsort hgap
  obtain ⟨L, U', hrun', hU, -, -, hL, -⟩ := C45_diagonalises _ _ hA hB schur argsort hschur hsort
  have e := Prod.mk.inj (Except.ok.inj (hrun.symm.trans hrun'))
  obtain ⟨rfl, rfl⟩ := e
  rw [← hk] at hQ hrun hL
  have hUU : Uᴴ * U = 1 := mem_unitaryGroup_iff'.1 hU
  have hUU' : U * Uᴴ = 1 := mem_unitaryGroup_iff.1 hU
  have h2 : Spec.standardForm s * Spec.standardForm s = Uᴴ * (kitaevChain n 0 t δ * kitaevChain n 0 t δ) * U := by
    rw [← hL, show Uᴴ * kitaevChain n 0 t δ * U * (Uᴴ * kitaevChain n 0 t δ * U) =
      Uᴴ * kitaevChain n 0 t δ * (U * Uᴴ) * kitaevChain n 0 t δ * U by simp only [Matrix.mul_assoc], hUU', mul_one]
    simp only [Matrix.mul_assoc]
  have h3 : Spec.standardForm s * Spec.standardForm s * Spec.standardForm s = (4 * t ^ 2 : ℂ) • Spec.standardForm s := by
    rw [h2, ← hL, show Uᴴ * (kitaevChain n 0 t δ * kitaevChain n 0 t δ) * U * (Uᴴ * kitaevChain n 0 t δ * U) =
      Uᴴ * (kitaevChain n 0 t δ * kitaevChain n 0 t δ) * (U * Uᴴ) * kitaevChain n 0 t δ * U by
        simp only [Matrix.mul_assoc], hUU', mul_one, Matrix.mul_assoc Uᴴ, kitaev_cube t δ hδ, Matrix.mul_smul,
      Matrix.smul_mul]
  have hcube : ∀ k, s k = 0 ∨ s k ^ 2 = 4 * t ^ 2 := by
    intro k
    have := congrFun (congrFun h3 (Fin.natAdd n k)) (Fin.natAdd n k)
    rw [Spec.standardForm, diagonal_mul_diagonal, diagonal_mul_diagonal, Matrix.smul_apply, diagonal_apply_eq,
      diagonal_apply_eq, Fin.append_right, smul_eq_mul] at this
    have h4 : s k * (s k ^ 2 - 4 * t ^ 2) = 0 := by
      have : s k * s k * s k = 4 * t ^ 2 * s k := by exact_mod_cast this
      linear_combination this
    rcases mul_eq_zero.1 h4 with h5 | h5
    · exact .inl h5
    · exact .inr (sub_eq_zero.1 h5)
  have habs : ∀ k, s k = 0 ∨ |s k| = 2 * |t| := by
    intro k
    refine (hcube k).imp id fun h => ?_
    refine (sq_eq_sq₀ (abs_nonneg _) (by positivity)).1 ?_
    rw [sq_abs, mul_pow, sq_abs, h]
    norm_num
  have htr : ∑ k, s k ^ 2 = 4 * t ^ 2 * (n - 1) := by
    have h5 := congrArg trace h2
    rw [trace_mul_comm (Uᴴ * _) U, ← Matrix.mul_assoc, hUU', one_mul, kitaev_trace hn t δ hδ, Spec.standardForm,
      diagonal_mul_diagonal, trace_diagonal, Fin.sum_univ_add] at h5
    simp only [Fin.append_left, Fin.append_right] at h5
    have h6 : ((∑ k, s k ^ 2 : ℝ) : ℂ) = ((4 * t ^ 2 * (n - 1) : ℝ) : ℂ) := by
      push_cast at h5 ⊢
      simp only [← pow_two, neg_sq] at h5
      linear_combination h5 / 2
    exact_mod_cast h6
  have ht2 : t ^ 2 ≠ 0 := pow_ne_zero _ (abs_pos.1 ht0)
  have hcount : ((Finset.univ.filter fun k => s k = 0).card : ℝ) = 1 := by
    have h7 : ∑ k, s k ^ 2 = ∑ k, (4 * t ^ 2 - if s k = 0 then 4 * t ^ 2 else 0) := by
      refine Finset.sum_congr rfl fun k _ => ?_
      rcases hcube k with h | h
      · rw [if_pos h, h]; ring
      · rw [if_neg, h, sub_zero]
        rintro h0
        rw [h0] at h
        exact ht2 (by linarith)
    rw [Finset.sum_sub_distrib, ← Finset.sum_filter, Finset.sum_const, Finset.sum_const, htr, Finset.card_univ,
      Fintype.card_fin, nsmul_eq_mul, nsmul_eq_mul] at h7
    have h8 : (4 * t ^ 2) * ((Finset.univ.filter fun k => s k = 0).card : ℝ) = (4 * t ^ 2) * 1 := by linarith
    exact mul_left_cancel₀ (mul_ne_zero four_ne_zero ht2) h8
  have hone : (Finset.univ.filter fun k => s k = 0).card = 1 := by exact_mod_cast hcount
  refine ⟨Q, s, U, hQ, hrun, ?_, habs, ?_⟩
  · obtain ⟨k, hk1⟩ := Finset.card_eq_one.1 hone
    have hm : ∀ j, s j = 0 ↔ j = k := fun j => by
      have := Finset.ext_iff.1 hk1 j
      simpa using this
    exact ⟨k, (hm k).2 rfl, fun j hj => (hm j).1 hj⟩
  · convert hleast using 1
    have h9 : ∑ k, |s k| = ∑ k, (2 * |t| - if s k = 0 then 2 * |t| else 0) := by
      refine Finset.sum_congr rfl fun k _ => ?_
      by_cases h : s k = 0
      · rw [if_pos h, h]; simp
      · rw [if_neg h, (habs k).resolve_left h, sub_zero]
    rw [h9, Finset.sum_sub_distrib, ← Finset.sum_filter, Finset.sum_const, Finset.sum_const, Finset.card_univ,
      Fintype.card_fin, nsmul_eq_mul, nsmul_eq_mul, hone]
    push_cast
    ring

/-- C96. With a chemical potential there is no zero mode (for `delta = ± t`): no energy that `eigh_sp` returns is zero. -/
theorem C96_no_zero_mode (mu t δ : ℝ) (hmu : mu ≠ 0) (hδ : δ = t ∨ δ = -t)
    (schur : RMat (n + n) → RMat (n + n) × RMat (n + n)) (argsort : (Fin n → ℝ) → Fin n → ℕ)
    (hschur : SchurOk (kitaevChain n mu t δ) schur) (hsort : ArgsortOk argsort)
    (hgap : NoTinyEigenvalue (kitaevChain n mu t δ)) :
    ∃ (s : Fin n → ℝ) (U : Op (n + n)), eighSp schur argsort (kitaevChain n mu t δ) = .ok (Spec.standardForm s, U) ∧
      ∀ k, 1e-10 < |s k| := by
  obtain ⟨hA, hB⟩ := kitaev_parts n mu t δ
  have hk := kitaev_eq n mu t δ
  rw [hk] at hschur
  obtain ⟨L, U, hrun, hU, -, -, hL, s, -, hex⟩ := C45_diagonalises _ _ hA hB schur argsort hschur hsort
  rw [← hk] at hrun hL hex
  obtain rfl := hex hgap
  refine ⟨s, U, hrun, fun k => ?_⟩
  have hUU' : U * Uᴴ = 1 := mem_unitaryGroup_iff.1 hU
  have hUU : Uᴴ * U = 1 := mem_unitaryGroup_iff'.1 hU
  have hv : U *ᵥ Pi.single (Fin.natAdd n k) 1 ≠ 0 := fun h => by
    have := congrArg (fun v => Uᴴ *ᵥ v) h
    simp only [mulVec_mulVec, hUU, one_mulVec, mulVec_zero] at this
    simpa using congrFun this (Fin.natAdd n k)
  have he : kitaevChain n mu t δ *ᵥ (U *ᵥ Pi.single (Fin.natAdd n k) 1) =
      ((s k : ℝ) : ℂ) • (U *ᵥ Pi.single (Fin.natAdd n k) 1) := by
    have h1 : kitaevChain n mu t δ * U = U * Spec.standardForm s := by
      rw [← hL, ← Matrix.mul_assoc, ← Matrix.mul_assoc, hUU', one_mul]
    rw [mulVec_mulVec, h1, ← mulVec_mulVec, ← mulVec_smul, Spec.standardForm, diagonal_mulVec_single, Fin.append_right,
      mul_one, ← Pi.single_smul, smul_eq_mul, mul_one]
  rcases hgap _ _ hv he with h | h
  · rw [h, zero_smul] at he
    exact absurd (kitaev_kernel hmu hδ he) hv
  · rwa [Complex.norm_real] at h

/-- The hypotheses of C95 and C96 are met for chains of every length. -/
example (hn : 1 ≤ n) : ∃ (schur : RMat (n + n) → RMat (n + n) × RMat (n + n)) (argsort : (Fin n → ℝ) → Fin n → ℕ),
    SchurOk (kitaevChain n 0 1 1) schur ∧ ArgsortOk argsort ∧ NoTinyEigenvalue (kitaevChain n 0 1 1) ∧
    ∀ x y, kitaevChain n 0 1 1 x y = 0 ∨ 1e-10 ≤ ‖kitaevChain n 0 1 1 x y‖ := by
  obtain ⟨hA, hB⟩ := kitaev_parts n 0 1 1
  obtain ⟨schur, hs⟩ := schurOk_exists (buildH_herm _ _ hA hB) (buildH_ph _ _ hA hB)
  obtain ⟨as, has⟩ := argsort_exists (n := n)
  rw [← kitaev_eq] at hs
  exact ⟨schur, as, hs, has, kitaev_gap (by norm_num) (.inl rfl),
    kitaev_small n (.inl rfl) (.inr (by norm_num)) (.inr (by norm_num))⟩

end

end FF.Props
