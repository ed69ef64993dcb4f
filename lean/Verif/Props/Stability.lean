import Verif.Proofs.ThermalNear
import Verif.Props.Fannes
import Verif.Props.Lipschitz

/-! # Property C156: small changes of the coefficients change thermal and evolved states little -/

namespace FF.Props

open Matrix
open scoped ComplexOrder

variable {n : ℕ} {eigvals : {n : ℕ} → Op n → List ℂ}

/-- The normalised exponentials of nearby Hermitian matrices are near in trace norm. -/
theorem gibbs_near {N : ℕ} {Q Q' : Op N} (hQ : Q.IsHermitian) (hQ' : Q'.IsHermitian) {g g' : Op N} (hg : g = (expm (-Q)).trace⁻¹ • expm (-Q))
    (hg' : g' = (expm (-Q')).trace⁻¹ • expm (-Q')) (hd : Spec.IsDensity g) (hd' : Spec.IsDensity g') {c : ℝ}
    (hD : ∀ x, vnorm ((Q - Q') *ᵥ x) ≤ c * vnorm x) : tnorm (g - g') ≤ 2 * c := by
  have hN : 0 < N := by
    rcases Nat.eq_zero_or_pos N with rfl | h
    · have := hd.trace_one
      simp [Matrix.trace] at this
    · exact h
  haveI : Nonempty (Fin N) := ⟨⟨0, hN⟩⟩
  have hc0 : 0 ≤ c := by
    have := hD (Pi.single ⟨0, hN⟩ 1)
    rw [vnorm_single, mul_one] at this
    exact (Real.sqrt_nonneg _).trans this
  have form : ∀ {Q : Op N}, Q.IsHermitian → ∃ (U : Op N) (q : Fin N → ℝ), U * Uᴴ = 1 ∧ Q = U * diagonal (fun i => ((q i : ℝ) : ℂ)) * Uᴴ ∧
      (expm (-Q)).trace.re = ∑ i, Real.exp (-q i) ∧
      (expm (-Q)).trace⁻¹ • expm (-Q) = U * diagonal (fun i => ((Real.exp (-(q i + Real.log (expm (-Q)).trace.re)) : ℝ) : ℂ)) * Uᴴ := fun {Q} hQ => by
    obtain ⟨V, ε, hV, hQV⟩ := diag_of_herm hQ
    have hV' : Vᴴ * V = 1 := mul_eq_one_comm.1 hV
    obtain ⟨Z, hZ⟩ : ∃ Z : ℝ, Z = ∑ x, Real.exp (-ε x) := ⟨_, rfl⟩
    have hZ0 : 0 < Z := by rw [hZ]; exact Finset.sum_pos (fun _ _ => Real.exp_pos _) Finset.univ_nonempty
    have hE : expm (-Q) = V * diagonal (fun x => ((Real.exp (-ε x) : ℝ) : ℂ)) * Vᴴ := by
      have := exp_conj_diag (d := ε) hV (-1)
      rw [neg_one_smul, ← hQV] at this
      rw [expm, this]
      congr 3
      funext x
      push_cast
      congr 1; ring
    have hT : (expm (-Q)).trace = ((Z : ℝ) : ℂ) := by
      rw [hE, trace_mul_comm, ← Matrix.mul_assoc, hV', one_mul, trace_diagonal, hZ]; push_cast; rfl
    refine ⟨V, ε, hV, hQV, by rw [hT, Complex.ofReal_re, hZ], ?_⟩
    rw [hT, Complex.ofReal_re, hE, ← smul_mul_assoc, ← mul_smul_comm, ← diagonal_smul]
    congr 3
    funext x
    rw [Pi.smul_apply, smul_eq_mul, neg_add, Real.exp_add, Real.exp_neg (Real.log Z), Real.exp_log hZ0, ← Complex.ofReal_inv, ← Complex.ofReal_mul, mul_comm]
  obtain ⟨U, q, hU, hQU, hZ, hG⟩ := form hQ
  obtain ⟨U', q', hU', hQU', hZ', hG'⟩ := form hQ'
  obtain ⟨r, hr⟩ : ∃ r, r = Real.log (expm (-Q)).trace.re := ⟨_, rfl⟩
  obtain ⟨r', hr'⟩ : ∃ r, r = Real.log (expm (-Q')).trace.re := ⟨_, rfl⟩
  have hfree : ∀ {Q Q' g' : Op N}, Q.IsHermitian → Q'.IsHermitian → g' = (expm (-Q')).trace⁻¹ • expm (-Q') → Spec.IsDensity g' →
      (∀ x, vnorm ((Q - Q') *ᵥ x) ≤ c * vnorm x) → Real.log (expm (-Q')).trace.re - Real.log (expm (-Q)).trace.re ≤ c :=
    fun {Q Q' g'} hQ hQ' hg' hd' hD => by
      obtain ⟨l, -, hl, -⟩ := has_spectrum hd'
      have a1 := (gibbs_bound hQ hd' hl).1
      have a2 := (gibbs_bound hQ' hd' hl).2.2 hg'
      have a3 := (Complex.re_le_norm _).trans (expectation_le hd' hD)
      rw [Matrix.mul_sub, trace_sub, Complex.sub_re] at a3
      linarith
  have hD' : ∀ x, vnorm ((Q' - Q) *ᵥ x) ≤ c * vnorm x := fun x => by
    rw [← neg_sub, neg_mulVec, ← neg_one_smul ℂ, vnorm_smul, norm_neg, norm_one, one_mul]
    exact hD x
  have hrr : |r - r'| ≤ c := by
    rw [hr, hr', abs_le]
    have b1 := hfree hQ hQ' hg' hd' hD
    have b2 := hfree hQ' hQ hg hd hD'
    constructor <;> linarith
  have shift : ∀ {U : Op N} {q : Fin N → ℝ} (r : ℝ), U * Uᴴ = 1 → U * diagonal (fun i => ((q i + r : ℝ) : ℂ)) * Uᴴ =
      U * diagonal (fun i => ((q i : ℝ) : ℂ)) * Uᴴ + (r : ℂ) • (1 : Op N) := fun {U q} r hU => by
    rw [show (diagonal fun i => ((q i + r : ℝ) : ℂ)) = diagonal (fun i => ((q i : ℝ) : ℂ)) + (r : ℂ) • (1 : Op N) by
      rw [smul_one_eq_diagonal, diagonal_add]; congr 1; funext i; push_cast; rfl, Matrix.mul_add, Matrix.add_mul, mul_smul_comm, mul_one,
      smul_mul_assoc, hU]
  obtain ⟨S, hS, hT⟩ := tnorm_attained (hd.psd.isHermitian.sub hd'.psd.isHermitian)
  have sum1 : ∀ {q : Fin N → ℝ} {r : ℝ} {g U : Op N}, Spec.IsDensity g → U * Uᴴ = 1 →
      g = U * diagonal (fun i => ((Real.exp (-(q i + r)) : ℝ) : ℂ)) * Uᴴ → ∑ i, Real.exp (-(q i + r)) = 1 := fun {q r g U} hd hU hg => by
    have h := hd.trace_one
    rw [hg, trace_mul_comm, ← Matrix.mul_assoc, mul_eq_one_comm.1 hU, one_mul, trace_diagonal] at h
    exact_mod_cast h
  rw [hG, ← hr] at hg
  rw [hG', ← hr'] at hg'
  have key := exp_near (q := fun i => q i + r) (q' := fun i => q' i + r') hU hU' hS (c := 2 * c) (by linarith) fun x => by
    rw [shift r hU, shift r' hU', ← hQU, ← hQU', show Q + (r : ℂ) • (1 : Op N) - (Q' + (r' : ℂ) • (1 : Op N)) = (Q - Q') + ((r - r' : ℝ) : ℂ) • (1 : Op N) by
      push_cast; rw [sub_smul]; abel, add_mulVec, smul_mulVec, one_mulVec]
    refine (vnorm_add_le _ _).trans ?_
    rw [vnorm_smul, Complex.norm_real, Real.norm_eq_abs]
    have h1 := hD x
    have h2 : |r - r'| * vnorm x ≤ c * vnorm x := mul_le_mul_of_nonneg_right hrr (Real.sqrt_nonneg _)
    linarith
  rw [sum1 hd hU hg, sum1 hd' hU' hg', ← hg, ← hg', hT, Complex.norm_real, Real.norm_eq_abs, abs_of_nonneg (tnorm_nonneg _)] at key
  linarith

theorem op_near (hn : 1 ≤ n) {H H' : Op (n + n)} {δ : ℝ} (h : ∀ i j, ‖H i j - H' i j‖ ≤ δ) {Q Q' : Op (2 ^ n)}
    (hQ : buildOp n H (jordanWignerAlphas n) false = .ok Q) (hQ' : buildOp n H' (jordanWignerAlphas n) false = .ok Q') (x : Fin (2 ^ n) → ℂ) :
    vnorm ((Q - Q') *ᵥ x) ≤ 4 * n ^ 2 * (δ + 2e-10) * vnorm x := by
  rw [jordanWignerAlphas_eq, buildOp_square _ _ hn] at hQ hQ'
  rw [← Except.ok.inj hQ, ← Except.ok.inj hQ']
  have e : Spec.quad (Spec.dropSmall 1e-10 H) (al n) - Spec.quad (Spec.dropSmall 1e-10 H') (al n) =
      Spec.quad (Spec.dropSmall 1e-10 H - Spec.dropSmall 1e-10 H') (al n) := by
    simp only [Spec.quad, ← Finset.sum_sub_distrib, ← sub_smul, Matrix.sub_apply]
  rw [e]
  exact quad_bound (fun i j => by rw [Matrix.sub_apply]; exact dropSmall_near h i j) x

/-- C156. Changing no coefficient by more than `δ` changes the thermal state `generate_gaussian_state(n, H)` by at most `4 n² (δ + 2e-10)` in trace
distance. -/
theorem C156_thermal (hE : Spec.EigvalsOk eigvals) (hn : 3 ≤ n) {H H' : Op (n + n)} (hH : H.IsHermitian) (hH' : H'.IsHermitian) {δ : ℝ}
    (h : ∀ i j, ‖H i j - H' i j‖ ≤ δ) {g g' : Op (2 ^ n)} (hg : generateGaussianState n H none = .ok (some g))
    (hg' : generateGaussianState n H' none = .ok (some g')) :
    ∃ t : ℝ, traceDistance eigvals (.mat _ _ g) (.mat _ _ g') = .ok t ∧ t ≤ 4 * n ^ 2 * (δ + 2e-10) := by
  have hn1 : 1 ≤ n := by omega
  have hbo := buildOp_square H (al n) hn1
  have hbo' := buildOp_square H' (al n) hn1
  rw [← jordanWignerAlphas_eq] at hbo hbo'
  obtain ⟨a1, a2, a3⟩ := thermal_facts hn hH hbo hg
  obtain ⟨b1, b2, b3⟩ := thermal_facts hn hH' hbo' hg'
  refine ⟨_, traceDistance_eq hE (.inr (.inl ⟨a3, rfl⟩)) (.inr (.inl ⟨b3, rfl⟩)), ?_⟩
  have := gibbs_near a1 b1 a2 b2 a3 b3 (op_near hn1 h hbo hbo')
  linarith

/-- C156. Changing no coefficient by more than `δ` changes what becomes of a state in the time `t` by at most `4 n² |t| (δ + 2e-10)` in trace
distance. -/
theorem C156_evolution (hE : Spec.EigvalsOk eigvals) (hn : 1 ≤ n) {H H' : Op (n + n)} (hH : H.IsHermitian) (hH' : H'.IsHermitian) {δ : ℝ}
    (h : ∀ i j, ‖H i j - H' i j‖ ≤ δ) {Q Q' ρ W W' : Op (2 ^ n)} (hQ : buildOp n H (jordanWignerAlphas n) false = .ok Q)
    (hQ' : buildOp n H' (jordanWignerAlphas n) false = .ok Q') (t : ℝ) (hW : W = expm ((-Complex.I * t) • Q))
    (hW' : W' = expm ((-Complex.I * t) • Q')) (hρ : Spec.IsDensity ρ) :
    ∃ s : ℝ, traceDistance eigvals (.mat _ _ (W * ρ * Wᴴ)) (.mat _ _ (W' * ρ * W'ᴴ)) = .ok s ∧ s ≤ 4 * n ^ 2 * |t| * (δ + 2e-10) := by
  have herm : ∀ {H : Op (n + n)} {Q : Op (2 ^ n)}, H.IsHermitian → buildOp n H (jordanWignerAlphas n) false = .ok Q → Q.IsHermitian :=
    fun {H Q} hH hQ => by
      rw [jordanWignerAlphas_eq, buildOp_square _ _ hn] at hQ
      rw [← Except.ok.inj hQ]
      exact quad_herm (drop_herm hH _) _
  have skew : ∀ {Q : Op (2 ^ n)}, Q.IsHermitian → ((-Complex.I * t) • Q)ᴴ = -((-Complex.I * t) • Q) := fun {Q} hQ => by
    rw [conjTranspose_smul, hQ.eq, ← neg_smul]
    congr 1
    simp
  have s1 := skew (herm hH hQ)
  have s2 := skew (herm hH' hQ')
  have u1 : W * Wᴴ = 1 := by rw [hW]; exact expm_unitary s1
  have u2 : W' * W'ᴴ = 1 := by rw [hW']; exact expm_unitary s2
  have dens : ∀ {V : Op (2 ^ n)}, V * Vᴴ = 1 → Spec.IsDensity (V * ρ * Vᴴ) := fun {V} hV =>
    ⟨hρ.psd.mul_mul_conjTranspose_same V, by rw [trace_mul_comm, ← Matrix.mul_assoc, mul_eq_one_comm.1 hV, one_mul, hρ.trace_one]⟩
  refine ⟨_, traceDistance_eq hE (.inr (.inl ⟨dens u1, rfl⟩)) (.inr (.inl ⟨dens u2, rfl⟩)), ?_⟩
  have := evolve_near u1 u2 hρ (c := 4 * n ^ 2 * |t| * (δ + 2e-10)) fun x => by
    rw [sub_mulVec, hW, hW']
    refine expm_close s1 s2 (fun x => ?_) x
    rw [← smul_sub, smul_mulVec, vnorm_smul, norm_mul, norm_neg, Complex.norm_I, one_mul, Complex.norm_real, Real.norm_eq_abs]
    refine (mul_le_mul_of_nonneg_left (op_near hn h hQ hQ' x) (abs_nonneg t)).trans (le_of_eq (by ring))
  linarith

/-- The hypotheses are met by three sites with on-site energy 1, whose hopping is changed from 2 to 2.01. -/
example : ∃ (e : {n : ℕ} → Op n → List ℂ) (H H' : Op (3 + 3)) (Q Q' g g' : Op (2 ^ 3)), Spec.EigvalsOk e ∧ H.IsHermitian ∧ H'.IsHermitian ∧ H ≠ H' ∧
    (∀ i j, ‖H i j - H' i j‖ ≤ 1 / 100) ∧ generateGaussianState 3 H none = .ok (some g) ∧ generateGaussianState 3 H' none = .ok (some g') ∧
    buildOp 3 H (jordanWignerAlphas 3) false = .ok Q ∧ buildOp 3 H' (jordanWignerAlphas 3) false = .ok Q' ∧ Spec.IsDensity g := by
  have hH : ∀ c : ℝ, (Matrix.of fun i j : Fin (3 + 3) => if i = j then (1 : ℂ) else (c : ℂ)).IsHermitian := fun c => by
    ext i j
    simp only [conjTranspose_apply, of_apply, eq_comm (a := j)]
    split_ifs <;> simp
  obtain ⟨e, he⟩ := eigvals_exist
  obtain ⟨Q, ρ, h1, h2, -, hp, ht⟩ := C41_coefficients_partial 3 le_rfl _ (hH 2) (al 3)
  obtain ⟨Q', ρ', h1', h2', -⟩ := C41_coefficients_partial 3 le_rfl _ (hH 2.01) (al 3)
  refine ⟨e, _, _, Q, Q', ρ, ρ', he, hH 2, hH 2.01, fun h => ?_, fun i j => ?_, by rw [C41_default, jordanWignerAlphas_eq]; exact h2,
    by rw [C41_default, jordanWignerAlphas_eq]; exact h2', by rw [jordanWignerAlphas_eq]; exact h1, by rw [jordanWignerAlphas_eq]; exact h1',
    ⟨hp.posSemidef, ht⟩⟩
  · have := congrFun (congrFun h 0) 1
    norm_num at this
  · simp only [of_apply]
    split_ifs
    · norm_num
    · rw [← Complex.ofReal_sub, Complex.norm_real]; norm_num [abs_of_nonneg]

end FF.Props
