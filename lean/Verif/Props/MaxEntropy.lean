import Verif.Proofs.Klein
import Verif.Proofs.Subadditive
import Verif.Props.Info
import Verif.Props.GaussSpectrum

/-! # Property C150: thermal and free-fermion states have the largest entropy -/

namespace FF.Props

open Matrix
open scoped ComplexOrder

variable {n : ℕ}

theorem gibbs_bound {N : ℕ} {Q ρ : Op N} (hQ : Q.IsHermitian) (hρ : Spec.IsDensity ρ) {l : Fin N → ℝ} (hl : Spec.IsSpectrum ρ l) :
    Spec.renyi l 1 ≤ (ρ * Q).trace.re + Real.log (expm (-Q)).trace.re ∧
      (Spec.renyi l 1 = (ρ * Q).trace.re + Real.log (expm (-Q)).trace.re ↔ ρ = (expm (-Q)).trace⁻¹ • expm (-Q)) := by
  obtain ⟨V, ε, hV, hQV⟩ := diag_of_herm hQ
  have hV' : Vᴴ * V = 1 := mul_eq_one_comm.1 hV
  have hN : 0 < N := by
    rcases Nat.eq_zero_or_pos N with rfl | h
    · have := hρ.trace_one
      simp [Matrix.trace] at this
    · exact h
  haveI : Nonempty (Fin N) := ⟨⟨0, hN⟩⟩
  obtain ⟨Z, hZ⟩ : ∃ Z : ℝ, Z = ∑ x, Real.exp (-ε x) := ⟨_, rfl⟩
  have hZ0 : 0 < Z := by rw [hZ]; exact Finset.sum_pos (fun _ _ => Real.exp_pos _) Finset.univ_nonempty
  have hE : expm (-Q) = V * diagonal (fun x => ((Real.exp (-ε x) : ℝ) : ℂ)) * Vᴴ := by
    have := exp_conj_diag (d := ε) hV (-1)
    rw [neg_one_smul, ← hQV] at this
    rw [expm, this]
    congr 3
    funext x
    push_cast
    congr 1; ring
  have hT : (expm (-Q)).trace = ((Z : ℝ) : ℂ) := by
    rw [hE, trace_mul_comm, ← Matrix.mul_assoc, hV', one_mul, trace_diagonal, hZ]; push_cast; rfl
  have hG : (expm (-Q)).trace⁻¹ • expm (-Q) = V * diagonal (fun x => ((Real.exp (-ε x) / Z : ℝ) : ℂ)) * Vᴴ := by
    rw [hT, hE, ← smul_mul_assoc, ← mul_smul_comm, ← diagonal_smul]
    congr 3
    funext x
    simp only [Pi.smul_apply, smul_eq_mul]
    push_cast
    ring
  have hre : ∀ x, (((((Vᴴ * ρ * V) x x).re : ℝ)) : ℂ) = (Vᴴ * ρ * V) x x := fun x =>
    Complex.conj_eq_iff_re.1 ((hρ.psd.conjTranspose_mul_mul_same V).isHermitian.apply x x)
  have hsum : ∑ x, ((Vᴴ * ρ * V) x x).re = 1 := by
    have h : (Vᴴ * ρ * V).trace = 1 := by rw [trace_mul_comm, ← Matrix.mul_assoc, hV, one_mul, hρ.trace_one]
    have := congrArg Complex.re h
    rwa [Matrix.trace, Complex.re_sum, Complex.one_re] at this
  have hs : Spec.IsProb fun x => Real.exp (-ε x) / Z :=
    ⟨fun x => (div_pos (Real.exp_pos _) hZ0).le, by rw [← Finset.sum_div, ← hZ, div_self hZ0.ne']⟩
  obtain ⟨-, h1, h2⟩ := klein hρ hV hl hs hre fun x h => absurd h (div_pos (Real.exp_pos _) hZ0).ne'
  have hval : -∑ x, ((Vᴴ * ρ * V) x x).re * Real.log (Real.exp (-ε x) / Z) = (ρ * Q).trace.re + Real.log (expm (-Q)).trace.re := by
    have e1 : (ρ * Q).trace = ∑ x, (Vᴴ * ρ * V) x x * (ε x : ℂ) := by
      rw [hQV, show ρ * (V * diagonal (fun i => ((ε i : ℝ) : ℂ)) * Vᴴ) = (ρ * V * diagonal (fun i => ((ε i : ℝ) : ℂ))) * Vᴴ by
        simp only [Matrix.mul_assoc], trace_mul_comm, ← Matrix.mul_assoc, ← Matrix.mul_assoc, Matrix.trace]
      refine Finset.sum_congr rfl fun x _ => ?_
      rw [diag_apply, mul_diagonal]
    rw [e1, hT, Complex.ofReal_re, Complex.re_sum, ← Finset.sum_neg_distrib]
    simp only [Real.log_div (Real.exp_pos _).ne' hZ0.ne', Real.log_exp, Complex.re_mul_ofReal]
    calc _ = ∑ x, (((Vᴴ * ρ * V) x x).re * ε x + ((Vᴴ * ρ * V) x x).re * Real.log Z) := Finset.sum_congr rfl fun x _ => by ring
      _ = _ := by rw [Finset.sum_add_distrib, ← Finset.sum_mul, hsum, one_mul]
  rw [hval] at h1 h2
  rw [hG]
  exact ⟨h1, h2⟩

theorem thermal_facts (hn : 3 ≤ n) {H : Op (n + n)} (hH : H.IsHermitian) {Q g : Op (2 ^ n)}
    (hQ : buildOp n H (jordanWignerAlphas n) false = .ok Q) (hg : generateGaussianState n H none = .ok (some g)) :
    Q.IsHermitian ∧ g = (expm (-Q)).trace⁻¹ • expm (-Q) ∧ Spec.IsDensity g := by
  obtain ⟨Q', g', h1, h2, h3, h4, h5⟩ := C41_coefficients_partial n hn H hH (al n)
  rw [jordanWignerAlphas_eq, h1] at hQ
  rw [C41_default, jordanWignerAlphas_eq, h2] at hg
  obtain rfl : Q' = Q := by simpa using hQ
  obtain rfl : g' = g := by simpa using hg
  refine ⟨?_, h3, h4.posSemidef, h5⟩
  rw [buildOp_square _ _ (by omega)] at h1
  obtain rfl := Except.ok.inj h1
  exact quad_herm (drop_herm hH 1e-10) _

/-- C150. The thermal state has the least free energy: the entropy of any state `ρ` (the Shannon entropy of its eigenvalues) is at most
its energy plus the logarithm of the partition function, and only the result of `generate_gaussian_state` attains this. -/
theorem C150_free_energy (hn : 3 ≤ n) {H : Op (n + n)} (hH : H.IsHermitian) {Q g ρ : Op (2 ^ n)}
    (hQ : buildOp n H (jordanWignerAlphas n) false = .ok Q) (hg : generateGaussianState n H none = .ok (some g))
    (hρ : Spec.IsDensity ρ) {l : Fin (2 ^ n) → ℝ} (hl : Spec.IsSpectrum ρ l) {y : Arr} (hy : Spec.Represents y l) :
    ∃ S : ℝ, renyiEntropy y (.num 1) = .ok (S : EReal) ∧ S ≤ (ρ * Q).trace.re + Real.log (expm (-Q)).trace.re ∧
      (S = (ρ * Q).trace.re + Real.log (expm (-Q)).trace.re ↔ ρ = g) := by
  obtain ⟨h1, h2, -⟩ := thermal_facts hn hH hQ hg
  refine ⟨_, C64_formula hy 1 zero_le_one, ?_⟩
  rw [h2]
  exact gibbs_bound h1 hρ hl

/-- C150. Among the states with at most the energy of the thermal state, the thermal state alone has the largest entropy; among the states
with at least its entropy, it alone has the least energy. -/
theorem C150_extremal (hn : 3 ≤ n) {H : Op (n + n)} (hH : H.IsHermitian) {Q g ρ : Op (2 ^ n)}
    (hQ : buildOp n H (jordanWignerAlphas n) false = .ok Q) (hg : generateGaussianState n H none = .ok (some g))
    (hρ : Spec.IsDensity ρ) {l m : Fin (2 ^ n) → ℝ} (hl : Spec.IsSpectrum ρ l) (hm : Spec.IsSpectrum g m) {y z : Arr}
    (hy : Spec.Represents y l) (hz : Spec.Represents z m) :
    ∃ S T : ℝ, renyiEntropy y (.num 1) = .ok (S : EReal) ∧ renyiEntropy z (.num 1) = .ok (T : EReal) ∧
      ((ρ * Q).trace.re ≤ (g * Q).trace.re → S ≤ T ∧ (S = T ↔ ρ = g)) ∧
      (T ≤ S → (g * Q).trace.re ≤ (ρ * Q).trace.re ∧ ((g * Q).trace.re = (ρ * Q).trace.re ↔ ρ = g)) := by
  obtain ⟨S, hS, h1, h2⟩ := C150_free_energy hn hH hQ hg hρ hl hy
  obtain ⟨T, hT, -, h4⟩ := C150_free_energy hn hH hQ hg (thermal_facts hn hH hQ hg).2.2 hm hz
  have hTe := h4.2 rfl
  refine ⟨S, T, hS, hT, fun h => ⟨by linarith, fun e => h2.1 (by linarith), fun e => ?_⟩, fun h => ⟨by linarith, fun e => h2.1 (by linarith), fun e => by rw [e]⟩⟩
  have := h2.2 e
  rw [e] at this
  linarith

/-- The occupation of a mode in the basis in which the occupation numbers are diagonal. -/
theorem mode_marginal {ρ : Op (2 ^ n)} {U : Op (n + n)} {p : Fin n → ℝ} {V : Op (2 ^ n)} {e : (Fin n → Bool) ≃ Fin (2 ^ n)} (hU : U * Uᴴ = 1)
    (hP : corrP ρ = U * diagonal (Fin.append (fun k => ((p k : ℝ) : ℂ)) fun k => ((1 - p k : ℝ) : ℂ)) * Uᴴ)
    (hN : ∀ k : Fin n, comb (Uᴴ (Fin.castAdd n k)) * (comb (Uᴴ (Fin.castAdd n k)))ᴴ =
        V * diagonal (fun x => if e.symm x k then (1 : ℂ) else 0) * Vᴴ) (k : Fin n) :
    ∑ x, (if e.symm x k then (Vᴴ * ρ * V) x x else 0) = ((p k : ℝ) : ℂ) := by
  have hU' : Uᴴ * U = 1 := mul_eq_one_comm.1 hU
  have h1 := corr_quad Uᴴ ρ (Fin.castAdd n k) (Fin.castAdd n k)
  rw [conjTranspose_conjTranspose, hP, show ∀ D : Op (n + n), Uᴴ * (U * D * Uᴴ) * U = (Uᴴ * U) * D * (Uᴴ * U) from
    fun D => by simp only [Matrix.mul_assoc], hU', one_mul, mul_one, diagonal_apply_eq, Fin.append_left, hN] at h1
  rw [h1, show ∀ D : Op (2 ^ n), ρ * (V * D * Vᴴ) = (ρ * V * D) * Vᴴ from fun D => by simp only [Matrix.mul_assoc],
    trace_mul_comm, ← Matrix.mul_assoc, ← Matrix.mul_assoc, Matrix.trace]
  refine Finset.sum_congr rfl fun x _ => ?_
  rw [diag_apply, mul_diagonal]
  split_ifs <;> simp

/-- C150. The correlations bound the entropy: if `p_k, 1 - p_k` are the eigenvalues of the correlation matrix of any state `ρ`, its entropy is
at most the sum of the entropies of the distributions `(p_k, 1 - p_k)`, with equality exactly if the state obeys Wick's theorem. -/
theorem C150_correlations {f : Fin (n + n) → Op (2 ^ n)} (hf : jordanWignerAlphas n = List.ofFn f) {ρ : Op (2 ^ n)} (hρ : Spec.IsDensity ρ)
    {P : Op (n + n)} (hP : compute2Corr ρ n (jordanWignerAlphas n) (some 1) = .ok P) {p : Fin n → ℝ} (hp : IsOccupations P p)
    {l : Fin (2 ^ n) → ℝ} (hl : Spec.IsSpectrum ρ l) {x : Arr} (hx : Spec.Represents x l) {y : Fin n → Arr}
    (hy : ∀ k, Spec.Represents (y k) ![p k, 1 - p k]) :
    ∃ (S : ℝ) (s : Fin n → ℝ), renyiEntropy x (.num 1) = .ok (S : EReal) ∧ (∀ k, renyiEntropy (y k) (.num 1) = .ok ((s k : ℝ) : EReal)) ∧
      S ≤ ∑ k, s k ∧ (S = ∑ k, s k ↔ Spec.ObeysWick f ρ) := by
  have hr := C128_range hρ P hP p hp
  refine ⟨_, fun k => _, C64_formula hx 1 zero_le_one, fun k => C64_formula (hy k) 1 zero_le_one, ?_⟩
  obtain rfl := corrP_code hP
  rw [jordanWignerAlphas_eq] at hf
  obtain rfl := List.ofFn_injective hf
  obtain ⟨U, q, V, e, hU, hV, hPq, hN, hw, hc⟩ := gauss_of_corr (corr_herm hρ.psd.isHermitian.eq) (eq_sub_of_add_eq' (corr_ph hρ.trace_one))
  have hq := append_range hU hPq (corr_psd hρ.psd)
  obtain ⟨π, hπ⟩ := pairs_unique ((append_charpoly hU hPq).symm.trans hp)
  obtain ⟨E, hE⟩ := patP_relabel π hπ
  have hsum : ∑ k, Spec.renyi ![p k, 1 - p k] 1 = ∑ k, Spec.renyi ![q k, 1 - q k] 1 := by
    rw [← renyi_modes hr e, ← renyi_modes hq e, Spec.renyi, Spec.renyi, if_pos rfl, if_pos rfl,
      e.symm.sum_comp fun c => patP p c * Real.log (patP p c), e.symm.sum_comp fun c => patP q c * Real.log (patP q c),
      ← E.sum_comp fun c => patP p c * Real.log (patP p c)]
    simp only [hE]
  rw [hsum]
  have hre : ∀ x, (((((Vᴴ * ρ * V) x x).re : ℝ)) : ℂ) = (Vᴴ * ρ * V) x x := fun x =>
    Complex.conj_eq_iff_re.1 ((hρ.psd.conjTranspose_mul_mul_same V).isHermitian.apply x x)
  have hnn : ∀ x, 0 ≤ ((Vᴴ * ρ * V) x x).re := fun x => by
    have := (hρ.psd.conjTranspose_mul_mul_same V).diag_nonneg (i := x)
    rw [← hre x] at this
    exact Complex.zero_le_real.1 this
  have htot : ∑ x, ((Vᴴ * ρ * V) x x).re = 1 := by
    have h : (Vᴴ * ρ * V).trace = 1 := by rw [trace_mul_comm, ← Matrix.mul_assoc, hV, one_mul, hρ.trace_one]
    have := congrArg Complex.re h
    rwa [Matrix.trace, Complex.re_sum, Complex.one_re] at this
  have hm1 : ∀ k, ∑ x, (if e.symm x k then ((Vᴴ * ρ * V) x x).re else 0) = q k := fun k => by
    have := congrArg Complex.re (mode_marginal hU hPq hN k)
    rw [Complex.re_sum, Complex.ofReal_re] at this
    rw [← this]
    refine Finset.sum_congr rfl fun x _ => ?_
    split_ifs <;> simp
  have hm0 : ∀ k, ∑ x, (if e.symm x k then 0 else ((Vᴴ * ρ * V) x x).re) = 1 - q k := fun k => by
    rw [← hm1 k, ← htot, ← Finset.sum_sub_distrib]
    refine Finset.sum_congr rfl fun x _ => ?_
    split_ifs <;> simp
  have hs : Spec.IsProb fun x => patP q (e.symm x) :=
    ⟨fun x => patP_nonneg hq _, by rw [e.symm.sum_comp fun c => patP q c]; exact patP_sum q⟩
  have hfac : ∀ x, ((Vᴴ * ρ * V) x x).re ≠ 0 → ∀ k, (if e.symm x k then q k else 1 - q k) ≠ 0 := fun x hx k h => by
    apply hx
    split_ifs at h with hb
    · have := (Finset.sum_eq_zero_iff_of_nonneg fun x _ => by split_ifs <;> [exact hnn x; exact le_rfl]).1 ((hm1 k).trans h) x (Finset.mem_univ x)
      rwa [if_pos hb] at this
    · have := (Finset.sum_eq_zero_iff_of_nonneg fun x _ => by split_ifs <;> [exact le_rfl; exact hnn x]).1 ((hm0 k).trans h) x (Finset.mem_univ x)
      rwa [if_neg hb] at this
  have h0 : ∀ x, patP q (e.symm x) = 0 → ((Vᴴ * ρ * V) x x).re = 0 := fun x h => by
    by_contra hx
    obtain ⟨k, -, hk⟩ := Finset.prod_eq_zero_iff.1 h
    exact hfac x hx k hk
  obtain ⟨-, h1, h2⟩ := klein hρ hV hl hs hre h0
  have hval : -∑ x, ((Vᴴ * ρ * V) x x).re * Real.log (patP q (e.symm x)) = ∑ k, Spec.renyi ![q k, 1 - q k] 1 := by
    have e1 : ∀ x, ((Vᴴ * ρ * V) x x).re * Real.log (patP q (e.symm x)) =
        ∑ k, ((if e.symm x k then ((Vᴴ * ρ * V) x x).re else 0) * Real.log (q k) +
          (if e.symm x k then 0 else ((Vᴴ * ρ * V) x x).re) * Real.log (1 - q k)) := fun x => by
      by_cases hx : ((Vᴴ * ρ * V) x x).re = 0
      · simp [hx]
      · rw [patP, Real.log_prod fun k _ => hfac x hx k, Finset.mul_sum]
        refine Finset.sum_congr rfl fun k _ => ?_
        split_ifs <;> simp
    rw [Finset.sum_congr rfl fun x _ => e1 x, Finset.sum_comm, ← Finset.sum_neg_distrib]
    refine Finset.sum_congr rfl fun k _ => ?_
    rw [Finset.sum_add_distrib, ← Finset.sum_mul, ← Finset.sum_mul, hm1, hm0, Spec.renyi, if_pos rfl, Fin.sum_univ_two]
    rfl
  rw [hval] at h1 h2
  refine ⟨h1, h2.trans ⟨fun h => ?_, fun h => ?_⟩⟩
  · rw [h]; exact hw
  · refine wick_unique h hw ?_
    have hG : ∀ σ : Op (2 ^ n), gam (al n) σ = corrP σ * swapS n := fun σ => by
      ext i j
      rw [mul_swapS, corrP, of_apply, al_conjTranspose, fl_fl]; rfl
    rw [hG, hG]
    exact congrArg (· * swapS n) hc.symm

theorem sum_parts {a b : ℕ} {ρ : Op (a * b)} (hρ : Spec.IsDensity ρ) {R : Op a} (hR' : R = pt2 ρ ∨ R = reMat (pt2 ρ))
    {l : Fin (a * b) → ℝ} {k : Fin a → ℝ} {m : Fin b → ℝ} (hl : Spec.IsSpectrum ρ l) (hk : Spec.IsSpectrum R k)
    (hm : Spec.IsSpectrum (pt1 ρ) m) (kp : Spec.IsProb k) (mp : Spec.IsProb m) :
    Spec.renyi l 1 ≤ Spec.renyi k 1 + Spec.renyi m 1 ∧ (Spec.renyi l 1 = Spec.renyi k 1 + Spec.renyi m 1 ↔ ρ = npKron R (pt1 ρ)) := by
  obtain ⟨Y, hY, hRY, hYk⟩ := re_basis (pt2_psd hρ.psd).isHermitian hR' hk
  obtain ⟨X, hX, hSX, hXm⟩ := re_basis (pt1_psd hρ.psd).isHermitian (.inl rfl) hm
  obtain ⟨V, hVdef⟩ : ∃ V : Op (a * b), V = npKron Y X := ⟨_, rfl⟩
  have hV : V * Vᴴ = 1 := by rw [hVdef, npKron_conjTranspose, npKron_mul, hY, hX, npKron_one]
  have hre : ∀ x, (((((Vᴴ * ρ * V) x x).re : ℝ)) : ℂ) = (Vᴴ * ρ * V) x x := fun x =>
    Complex.conj_eq_iff_re.1 ((hρ.psd.conjTranspose_mul_mul_same V).isHermitian.apply x x)
  have hnn : ∀ x, 0 ≤ ((Vᴴ * ρ * V) x x).re := fun x => by
    have := (hρ.psd.conjTranspose_mul_mul_same V).diag_nonneg (i := x)
    rw [← hre x] at this
    exact Complex.zero_le_real.1 this
  have hm1 : ∀ i : Fin a, ∑ j : Fin b, ((Vᴴ * ρ * V) (finProdFinEquiv (i, j)) (finProdFinEquiv (i, j))).re = k i := fun i => by
    rw [← hYk, ← pt2_conj hX, ← hVdef, pt2, sum_apply2, Complex.re_sum]
    rfl
  have hm2 : ∀ j : Fin b, ∑ i : Fin a, ((Vᴴ * ρ * V) (finProdFinEquiv (i, j)) (finProdFinEquiv (i, j))).re = m j := fun j => by
    rw [← hXm, ← pt1_conj hY, ← hVdef, pt1, sum_apply2, Complex.re_sum]
    rfl
  have hs : Spec.IsProb (Spec.product k m) := prob_product kp mp
  have hprod : ∀ i j, Spec.product k m (finProdFinEquiv (i, j)) = k i * m j := fun i j => by
    have := finProdFinEquiv.symm_apply_apply (i, j)
    simp only [finProdFinEquiv_symm_apply, Prod.mk.injEq] at this
    rw [Spec.product, this.1, this.2]
  have hfac : ∀ i j, ((Vᴴ * ρ * V) (finProdFinEquiv (i, j)) (finProdFinEquiv (i, j))).re ≠ 0 → k i ≠ 0 ∧ m j ≠ 0 := fun i j hne =>
    ⟨fun h => hne ((Finset.sum_eq_zero_iff_of_nonneg fun j _ => hnn _).1 ((hm1 i).trans h) j (Finset.mem_univ j)),
      fun h => hne ((Finset.sum_eq_zero_iff_of_nonneg fun i _ => hnn _).1 ((hm2 j).trans h) i (Finset.mem_univ i))⟩
  have h0 : ∀ x, Spec.product k m x = 0 → ((Vᴴ * ρ * V) x x).re = 0 := fun x h => by
    obtain ⟨⟨i, j⟩, rfl⟩ := finProdFinEquiv.surjective x
    by_contra hne
    rw [hprod] at h
    exact mul_ne_zero (hfac i j hne).1 (hfac i j hne).2 h
  obtain ⟨-, h1, h2⟩ := klein hρ hV hl hs hre h0
  have hval : -∑ x, ((Vᴴ * ρ * V) x x).re * Real.log (Spec.product k m x) = Spec.renyi k 1 + Spec.renyi m 1 := by
    have e1 : ∀ i j, ((Vᴴ * ρ * V) (finProdFinEquiv (i, j)) (finProdFinEquiv (i, j))).re * Real.log (Spec.product k m (finProdFinEquiv (i, j))) =
        ((Vᴴ * ρ * V) (finProdFinEquiv (i, j)) (finProdFinEquiv (i, j))).re * Real.log (k i) +
        ((Vᴴ * ρ * V) (finProdFinEquiv (i, j)) (finProdFinEquiv (i, j))).re * Real.log (m j) := fun i j => by
      by_cases hne : ((Vᴴ * ρ * V) (finProdFinEquiv (i, j)) (finProdFinEquiv (i, j))).re = 0
      · simp [hne]
      · rw [hprod, Real.log_mul (hfac i j hne).1 (hfac i j hne).2, mul_add]
    rw [← finProdFinEquiv.sum_comp, Fintype.sum_prod_type]
    simp only [e1, Finset.sum_add_distrib, ← Finset.sum_mul, hm1]
    rw [Finset.sum_comm]
    simp only [← Finset.sum_mul, hm2]
    rw [Spec.renyi, Spec.renyi, if_pos rfl, if_pos rfl]
    ring
  rw [hval] at h1 h2
  refine ⟨h1, h2.trans ?_⟩
  have hD : V * diagonal (fun x => ((Spec.product k m x : ℝ) : ℂ)) * Vᴴ = npKron R (pt1 ρ) := by
    have : diagonal (fun x => ((Spec.product k m x : ℝ) : ℂ)) =
        npKron (diagonal fun i => ((k i : ℝ) : ℂ)) (diagonal fun j => ((m j : ℝ) : ℂ)) := by
      ext x y
      obtain ⟨⟨i, j⟩, rfl⟩ := finProdFinEquiv.surjective x
      obtain ⟨⟨i', j'⟩, rfl⟩ := finProdFinEquiv.surjective y
      rw [npKron_prod, diagonal_apply, diagonal_apply, diagonal_apply, hprod]
      by_cases hi : i = i' <;> by_cases hj : j = j' <;> simp [hi, hj]
    rw [this, hVdef, npKron_conjTranspose, npKron_mul, npKron_mul, ← hRY, ← hSX]
  rw [hD]

/-- C150. The entropy of a state is at most the sum of the entropies of its parts, which the partial traces return, with equality exactly if
it is the product of the parts. This holds for what the functions return: `partial_trace_over_2` may drop small imaginary parts. -/
theorem C150_parts {a b : ℕ} (ha : a ≠ 0) (hb : b ≠ 0) {ρ : Op (a * b)} (hρ : Spec.IsDensity ρ) :
    ∃ (R : Op a) (S : Op b), partialTraceOver2 ρ a = .ok R ∧ partialTraceOver1 ρ b = .ok S ∧
      ∀ {l : Fin (a * b) → ℝ} {k : Fin a → ℝ} {m : Fin b → ℝ} {x y z : Arr}, Spec.IsSpectrum ρ l → Spec.IsSpectrum R k → Spec.IsSpectrum S m →
        Spec.Represents x l → Spec.Represents y k → Spec.Represents z m →
        ∃ s u v : ℝ, renyiEntropy x (.num 1) = .ok (s : EReal) ∧ renyiEntropy y (.num 1) = .ok (u : EReal) ∧
          renyiEntropy z (.num 1) = .ok (v : EReal) ∧ s ≤ u + v ∧ (s = u + v ↔ ρ = npKron R S) := by
  classical
  refine ⟨_, _, partialTraceOver2_ok ha ρ, partialTraceOver1_ok hb ρ, fun {l k m x y z} hl hk hm hx hy hz =>
    ⟨_, _, _, C64_formula hx 1 zero_le_one, C64_formula hy 1 zero_le_one, C64_formula hz 1 zero_le_one, ?_⟩⟩
  obtain ⟨R, hR⟩ : ∃ R : Op a, R = if ∀ i j, |(pt2 ρ i j).im| ≤ 1e-8 then reMat (pt2 ρ) else pt2 ρ := ⟨_, rfl⟩
  have hR' : R = pt2 ρ ∨ R = reMat (pt2 ρ) := by rw [hR]; split_ifs <;> simp
  rw [← hR] at hk ⊢
  exact sum_parts hρ hR' hl hk hm (represents_cast hy).2 (represents_cast hz).2

/-- Every state has a list of eigenvalues and an argument that stands for it. -/
theorem has_spectrum {N : ℕ} {ρ : Op N} (hρ : Spec.IsDensity ρ) : ∃ (l : Fin N → ℝ) (y : Arr), Spec.IsSpectrum ρ l ∧ Spec.Represents y l := by
  have hh : ρ.IsHermitian := hρ.psd.isHermitian
  refine ⟨specDesc ρ, .mat N N (diagonal fun i => (specDesc ρ i : ℂ)), specDesc_isSpectrum hh,
    .inr (.inl ⟨_, ⟨?_, ?_⟩, rfl, fun i => by rw [diagonal_apply_eq]⟩)⟩
  · refine PosSemidef.diagonal fun i => ?_
    have : 0 ≤ specDesc ρ i := eigvalsh_nonneg (by rw [lowerHerm_eq hh]; exact hρ.psd) _
    exact Complex.zero_le_real.2 this
  · have h1 : ∑ i, (ρ i i).re = 1 := by
      have := congrArg Complex.re hρ.trace_one
      rwa [Matrix.trace, Complex.re_sum, Complex.one_re] at this
    rw [trace_diagonal, ← Complex.ofReal_sum, sum_specDesc hh, h1, Complex.ofReal_one]

theorem pair_represents {p : ℝ} (h : 0 ≤ p ∧ p ≤ 1) : Spec.Represents (.mat 2 2 (diagonal ![(p : ℂ), ((1 - p : ℝ) : ℂ)])) ![p, 1 - p] := by
  refine .inr (.inl ⟨_, ⟨PosSemidef.diagonal fun i => ?_, ?_⟩, rfl, fun i => ?_⟩)
  · fin_cases i
    · exact Complex.zero_le_real.2 h.1
    · exact Complex.zero_le_real.2 (sub_nonneg.2 h.2)
  · rw [trace_diagonal, Fin.sum_univ_two]; simp
  · rw [diagonal_apply_eq]
    fin_cases i <;> simp

theorem mixed_density {N : ℕ} (hN : N ≠ 0) : Spec.IsDensity ((N : ℂ)⁻¹ • (1 : Op N)) := by
  refine ⟨?_, ?_⟩
  · rw [smul_one_eq_diagonal]
    refine PosSemidef.diagonal fun i => ?_
    have : (0 : ℂ) ≤ (((N : ℝ)⁻¹ : ℝ) : ℂ) := Complex.zero_le_real.2 (by positivity)
    push_cast at this
    exact this
  · rw [trace_smul, trace_one, Fintype.card_fin, smul_eq_mul, inv_mul_cancel₀ (by exact_mod_cast hN)]

/-- The hypotheses of `C150_free_energy` and `C150_extremal` are met by the Kitaev chain of three sites and the maximally mixed state. -/
example : ∃ (Q g ρ : Op (2 ^ 3)) (l m : Fin (2 ^ 3) → ℝ) (y z : Arr), (kitaevChain 3 1 1 1).IsHermitian ∧
    buildOp 3 (kitaevChain 3 1 1 1) (jordanWignerAlphas 3) false = .ok Q ∧ generateGaussianState 3 (kitaevChain 3 1 1 1) none = .ok (some g) ∧
    Spec.IsDensity ρ ∧ Spec.IsSpectrum ρ l ∧ Spec.IsSpectrum g m ∧ Spec.Represents y l ∧ Spec.Represents z m := by
  have hH := (C36_structure 3 1 1 1).1
  obtain ⟨Q, g, h1, h2, -, h4, h5⟩ := C41_coefficients_partial 3 le_rfl _ hH (al 3)
  rw [← jordanWignerAlphas_eq] at h1
  rw [← jordanWignerAlphas_eq, ← C41_default] at h2
  obtain ⟨l, y, a1, a2⟩ := has_spectrum (mixed_density (N := 2 ^ 3) (by norm_num))
  obtain ⟨m, z, b1, b2⟩ := has_spectrum (ρ := g) ⟨h4.posSemidef, h5⟩
  exact ⟨Q, g, _, l, m, y, z, hH, h1, h2, mixed_density (by norm_num), a1, b1, a2, b2⟩

/-- The hypotheses of `C150_correlations` can be met for every state. -/
example {ρ : Op (2 ^ n)} (hρ : Spec.IsDensity ρ) : ∃ (f : Fin (n + n) → Op (2 ^ n)) (P : Op (n + n)) (p : Fin n → ℝ) (l : Fin (2 ^ n) → ℝ)
    (x : Arr) (y : Fin n → Arr), jordanWignerAlphas n = List.ofFn f ∧ compute2Corr ρ n (jordanWignerAlphas n) (some 1) = .ok P ∧
    IsOccupations P p ∧ Spec.IsSpectrum ρ l ∧ Spec.Represents x l ∧ ∀ k, Spec.Represents (y k) ![p k, 1 - p k] := by
  obtain ⟨P, hP⟩ : ∃ P, compute2Corr ρ n (jordanWignerAlphas n) (some 1) = .ok P := by
    rw [jordanWignerAlphas_eq]; exact ⟨_, (C43_entries ρ _ 1).2⟩
  obtain ⟨p, h1, h2⟩ := C128_pairs hρ P hP
  obtain ⟨l, x, a1, a2⟩ := has_spectrum hρ
  exact ⟨al n, P, p, l, x, _, jordanWignerAlphas_eq n, hP, h2, a1, a2, fun k => pair_represents (h1 k)⟩

/-- The hypotheses of `C150_parts` can be met for every state, here for the maximally mixed state of a pair of a three-level and a two-level system. -/
example : ∃ (ρ : Op (3 * 2)) (R : Op 3) (S : Op 2) (l : Fin (3 * 2) → ℝ) (k : Fin 3 → ℝ) (m : Fin 2 → ℝ) (x y z : Arr), Spec.IsDensity ρ ∧
    partialTraceOver2 ρ 3 = .ok R ∧ partialTraceOver1 ρ 2 = .ok S ∧ Spec.IsSpectrum ρ l ∧ Spec.IsSpectrum R k ∧ Spec.IsSpectrum S m ∧
    Spec.Represents x l ∧ Spec.Represents y k ∧ Spec.Represents z m := by
  have hρ := mixed_density (N := 3 * 2) (by norm_num)
  obtain ⟨⟨S, h1, h2⟩, R, h3, h4⟩ := C14_states_to_states (by norm_num) (by norm_num) _ hρ
  obtain ⟨l, x, a1, a2⟩ := has_spectrum hρ
  obtain ⟨k, y, b1, b2⟩ := has_spectrum h4
  obtain ⟨m, z, c1, c2⟩ := has_spectrum h2
  exact ⟨_, R, S, l, k, m, x, y, z, hρ, h3, h1, a1, b1, c1, a2, b2, c2⟩

end FF.Props
