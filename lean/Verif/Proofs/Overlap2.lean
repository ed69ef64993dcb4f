import Verif.Proofs.Overlap

/-! # Proofs: the overlap of two states that obey Wick's theorem -/

namespace FF

open Matrix
open scoped ComplexOrder

variable {n : ℕ}

theorem gam_corr (σ : Op (2 ^ n)) : gam (al n) σ = corrP σ * swapS n := by
  ext i j
  rw [mul_swapS, corrP, of_apply, al_conjTranspose, fl_fl]; rfl

/-- A state without empty or certainly filled modes is a thermal state. -/
theorem thermal_of_wick {ρ : Op (2 ^ n)} (ht : ρ.trace = 1) (hw : Spec.ObeysWick (al n) ρ) (h0 : (corrP ρ).PosDef)
    (h1 : (1 - corrP ρ).PosDef) : ∃ R : Op (n + n), R.IsHermitian ∧ swapS n * Rᵀ * swapS n = -R ∧
      ρ = (expm (Spec.quad R (al n))).trace⁻¹ • expm (Spec.quad R (al n)) ∧ corrP ρ * (1 + expm ((2 : ℂ) • R)) = 1 := by
  obtain ⟨K, hK, hPK⟩ := fermi_exists h0 h1
  have hS := eq_sub_of_add_eq' (corr_ph ht)
  have hKp : swapS n * Kᵀ * swapS n = -K := by
    have h2 : 1 - corrP ρ = (1 + expm K)⁻¹ := by
      rw [hPK, sub_eq_iff_eq_add']
      exact (fermi_add hK).symm
    have h3 := fermi_swap (-K)
    rw [← hPK, hS, h2, transpose_neg, Matrix.mul_neg, Matrix.neg_mul] at h3
    have hKS : (swapS n * Kᵀ * swapS n).IsHermitian := by
      have ht : Kᵀᴴ = Kᵀ := hK.transpose.eq
      rw [IsHermitian, conjTranspose_mul, conjTranspose_mul, swapS_conjTranspose, ht, mul_assoc]
    have h4 := fermi_inj (K := -K) (L := swapS n * Kᵀ * swapS n) hK.neg hKS (by rw [neg_neg]; exact h3)
    exact h4.symm
  set R : Op (n + n) := ((-1 / 2 : ℝ) : ℂ) • K with hRdef
  have hR2 : (2 : ℂ) • R = -K := by rw [hRdef, smul_smul]; norm_num
  have hR : R.IsHermitian := herm_smul hK _
  have hRp : swapS n * Rᵀ * swapS n = -R := ph_smul hKp _
  have hcorr : corrP ρ * (1 + expm ((2 : ℂ) • R)) = 1 := by
    rw [hPK, hR2]
    exact Matrix.nonsing_inv_mul _ ((one_add_expm_posDef hK.neg).isUnit.map detMonoidHom)
  refine ⟨R, hR, hRp, ?_, hcorr⟩
  set E := expm (Spec.quad R (al n)) with hE
  have : Nonempty (Fin (2 ^ n)) := ⟨⟨0, by positivity⟩⟩
  have hE0 : 0 < E.trace := (expm_posDef (quad_herm hR _)).trace_pos
  have hg := gauss_thermal hR E.trace⁻¹ (-1)
  rw [Complex.ofReal_neg, Complex.ofReal_one, neg_neg, one_smul, ← hE] at hg
  have htr : (E.trace⁻¹ • E).trace = 1 := by rw [trace_smul, smul_eq_mul, inv_mul_cancel₀ hE0.ne']
  refine wick_unique hw (fun m L => IsGauss.wick al_anticomm hg htr m L) ?_
  rw [gam_corr, gam_corr]
  congr 1
  have hk := kms_corr htr (A := expm ((2 : ℂ) • R)) (B := 1) fun k => by
    have := thermal_kms R E.trace⁻¹ 1 k
    rw [one_smul, one_smul, adM_ph hRp, ← hE] at this
    rw [this]
    simp [Matrix.one_apply]
  change (_ + 1) * corrP (E.trace⁻¹ • E) = 1 at hk
  rw [add_comm (expm _) 1] at hk
  calc corrP ρ = corrP ρ * ((1 + expm ((2 : ℂ) • R)) * corrP (E.trace⁻¹ • E)) := by rw [hk, mul_one]
    _ = _ := by rw [← mul_assoc, hcorr, one_mul]

/-- The overlap of two such states. -/
theorem overlap_faithful {ρ σ : Op (2 ^ n)} (ht : ρ.trace = 1) (hw : Spec.ObeysWick (al n) ρ) (h0 : (corrP ρ).PosDef)
    (h1 : (1 - corrP ρ).PosDef) (ht' : σ.trace = 1) (hw' : Spec.ObeysWick (al n) σ) (h0' : (corrP σ).PosDef) (h1' : (1 - corrP σ).PosDef) :
    (ρ * σ).trace ^ 2 = (corrP ρ * corrP σ + (1 - corrP ρ) * (1 - corrP σ)).det := by
  obtain ⟨R, hR, hRp, hρ, hP⟩ := thermal_of_wick ht hw h0 h1
  obtain ⟨T, hT, hTp, hσ, hQ⟩ := thermal_of_wick ht' hw' h0' h1'
  have hQ' : (1 + expm ((2 : ℂ) • T)) * corrP σ = 1 := mul_eq_one_comm.1 hQ
  have e1 : 1 - corrP ρ = corrP ρ * expm ((2 : ℂ) • R) := by
    rw [mul_add, mul_one] at hP
    rw [← hP]; abel
  have e2 : 1 - corrP σ = expm ((2 : ℂ) • T) * corrP σ := by
    rw [add_mul, one_mul] at hQ'
    conv_lhs => rw [← hQ']
    abel
  have e3 : corrP ρ * corrP σ + (1 - corrP ρ) * (1 - corrP σ) =
      corrP ρ * (1 + expm ((2 : ℂ) • R) * expm ((2 : ℂ) • T)) * corrP σ := by
    rw [e1, e2, mul_add, mul_one, add_mul]
    simp only [mul_assoc]
  have d1 := congrArg det hP
  have d2 := congrArg det hQ'
  rw [det_mul, det_one, ← quad_trace_sq hR hRp] at d1
  rw [det_mul, det_one, ← quad_trace_sq hT hTp] at d2
  have p := product_trace hR hRp hT hTp
  have e4 : (ρ * σ).trace = (expm (Spec.quad R (al n))).trace⁻¹ * (expm (Spec.quad T (al n))).trace⁻¹ *
      (expm (Spec.quad R (al n)) * expm (Spec.quad T (al n))).trace := by
    conv_lhs => rw [hρ, hσ]
    rw [Matrix.smul_mul, Matrix.mul_smul, trace_smul, trace_smul, smul_eq_mul, smul_eq_mul, mul_assoc]
  rw [e3, det_mul, det_mul, e4, mul_pow, mul_pow, p]
  have f1 : (corrP ρ).det = ((expm (Spec.quad R (al n))).trace⁻¹) ^ 2 := by
    rw [inv_pow]; exact eq_inv_of_mul_eq_one_left d1
  have f2 : (corrP σ).det = ((expm (Spec.quad T (al n))).trace⁻¹) ^ 2 := by
    rw [inv_pow]; exact eq_inv_of_mul_eq_one_right d2
  rw [f1, f2]
  ring

/-- The modes of a canonical rotation, filled independently with any probabilities. -/
theorem gauss_of_modes {U : Op (n + n)} (hc : IsCanonicalU U) (hU : U * Uᴴ = 1) {V : Op (2 ^ n)} {e : (Fin n → Bool) ≃ Fin (2 ^ n)} (hV : V * Vᴴ = 1)
    (hN : ∀ k : Fin n, (fun k => if h : k < n then comb (Uᴴ (Fin.castAdd n ⟨k, h⟩)) else 0 : ℕ → Op (2 ^ n)) k *
      ((fun k => if h : k < n then comb (Uᴴ (Fin.castAdd n ⟨k, h⟩)) else 0 : ℕ → Op (2 ^ n)) k)ᴴ =
        V * diagonal (fun x => if e.symm x k then (1 : ℂ) else 0) * Vᴴ) (p : Fin n → ℝ) :
    Spec.ObeysWick (al n) (modeState V e p) ∧ corrP (modeState V e p) =
      U * diagonal (Fin.append (fun k => ((p k : ℝ) : ℂ)) fun k => ((1 - p k : ℝ) : ℂ)) * Uᴴ := by
  have hU' : Uᴴ * U = 1 := mul_eq_one_comm.1 hU
  obtain ⟨hcar, hconj⟩ := modes_car hc hU
  have hV' : Vᴴ * V = 1 := mul_eq_one_comm.1 hV
  set D : Fin (n + n) → ℂ := Fin.append (fun k => ((p k : ℝ) : ℂ)) fun k => ((1 - p k : ℝ) : ℂ) with hD
  obtain ⟨P, hPU⟩ : ∃ P, P = U * diagonal D * Uᴴ := ⟨_, rfl⟩
  set ρ := modeState V e p with hρ
  have hk1 : ∀ k : Fin n, ((1 - p k : ℝ) : ℂ) • (ρ * comb (Uᴴ (Fin.castAdd n k))) = (p k : ℂ) • (comb (Uᴴ (Fin.castAdd n k)) * ρ) := by
    intro k
    have := mode_kms hcar hV hN p k
    simp only [dif_pos k.2] at this
    exact this
  have hk2 : ∀ k : Fin n, (p k : ℂ) • (ρ * comb (Uᴴ (Fin.natAdd n k))) = ((1 - p k : ℝ) : ℂ) • (comb (Uᴴ (Fin.natAdd n k)) * ρ) := by
    intro k
    have := congrArg conjTranspose (hk1 k)
    rw [conjTranspose_smul, conjTranspose_smul, conjTranspose_mul, conjTranspose_mul, hρ, modeState_herm, ← hρ, hconj,
      Complex.star_def, Complex.conj_ofReal, Complex.conj_ofReal] at this
    exact this.symm
  have hk : ∀ i : Fin (n + n), (1 - D i) • (ρ * comb (Uᴴ i)) = D i • (comb (Uᴴ i) * ρ) := by
    intro i
    refine Fin.addCases (fun k => ?_) (fun k => ?_) i
    · rw [hD, Fin.append_left]; have := hk1 k; push_cast at this; exact this
    · rw [hD, Fin.append_right]; have := hk2 k; push_cast at this ⊢; rw [sub_sub_cancel]; exact this
  have hkms : ∀ k, ∑ l, ((1 - diagonal D) * Uᴴ) k l • (ρ * al n l) = ∑ l, (diagonal D * Uᴴ) k l • (al n l * ρ) := by
    intro i
    have h1 := hk i
    rw [comb, Matrix.mul_sum, Matrix.sum_mul, Finset.smul_sum, Finset.smul_sum] at h1
    convert h1 using 2 with m _ m _
    · rw [Matrix.mul_smul, smul_smul, Matrix.sub_mul, one_mul, Matrix.sub_apply, diagonal_mul]; congr 1; ring
    · rw [Matrix.smul_mul, smul_smul, diagonal_mul]
  have hpar : Spec.parity n * ρ = ρ * Spec.parity n := by
    have hcomb : ∀ v : Fin (n + n) → ℂ, Spec.parity n * comb v = -(comb v * Spec.parity n) := fun v => by
      rw [comb, Matrix.mul_sum, Matrix.sum_mul, ← Finset.sum_neg_distrib]
      refine Finset.sum_congr rfl fun l _ => ?_
      rw [Matrix.mul_smul, parity_al, Matrix.smul_mul, smul_neg]
    have hX : ∀ k : Fin n, (Vᴴ * Spec.parity n * V) * diagonal (fun x => if e.symm x k then (1 : ℂ) else 0) =
        diagonal (fun x => if e.symm x k then (1 : ℂ) else 0) * (Vᴴ * Spec.parity n * V) := by
      intro k
      have h1 := hN k
      simp only [dif_pos k.2] at h1
      rw [hconj] at h1
      have h2 : diagonal (fun x => if e.symm x k then (1 : ℂ) else 0) =
          Vᴴ * (comb (Uᴴ (Fin.castAdd n k)) * comb (Uᴴ (Fin.natAdd n k))) * V := by
        rw [h1]
        rw [show ∀ Z : Op (2 ^ n), Vᴴ * (V * Z * Vᴴ) * V = (Vᴴ * V) * Z * (Vᴴ * V) from fun Z => by simp only [Matrix.mul_assoc],
          hV', one_mul, mul_one]
      rw [h2]
      set b1 := comb (Uᴴ (Fin.castAdd n k))
      set b2 := comb (Uᴴ (Fin.natAdd n k))
      have e1 : Spec.parity n * (b1 * b2) = b1 * b2 * Spec.parity n := by
        rw [← Matrix.mul_assoc, hcomb, Matrix.neg_mul, Matrix.mul_assoc, hcomb, Matrix.mul_neg, neg_neg, Matrix.mul_assoc]
      rw [show ∀ X Y : Op (2 ^ n), Vᴴ * X * V * (Vᴴ * Y * V) = Vᴴ * (X * (V * Vᴴ) * Y) * V from
        fun X Y => by simp only [Matrix.mul_assoc], show ∀ X Y : Op (2 ^ n), Vᴴ * X * V * (Vᴴ * Y * V) = Vᴴ * (X * (V * Vᴴ) * Y) * V from
        fun X Y => by simp only [Matrix.mul_assoc], hV, mul_one, mul_one, e1]
    have hdg := diag_of_commute hX
    set w : Fin (2 ^ n) → ℂ := fun x => (Vᴴ * Spec.parity n * V) x x with hw
    have hpw : Spec.parity n = V * diagonal w * Vᴴ := by
      rw [← hdg]
      calc Spec.parity n = (V * Vᴴ) * Spec.parity n * (V * Vᴴ) := by rw [hV, one_mul, mul_one]
        _ = _ := by simp only [Matrix.mul_assoc]
    rw [hρ, modeState, hpw]
    rw [show ∀ X Y : Op (2 ^ n), V * X * Vᴴ * (V * Y * Vᴴ) = V * (X * (Vᴴ * V) * Y) * Vᴴ from
        fun X Y => by simp only [Matrix.mul_assoc], show ∀ X Y : Op (2 ^ n), V * X * Vᴴ * (V * Y * Vᴴ) = V * (X * (Vᴴ * V) * Y) * Vᴴ from
        fun X Y => by simp only [Matrix.mul_assoc], hV', mul_one, mul_one, diagonal_mul_diagonal, diagonal_mul_diagonal]
    congr 3
    funext x
    exact mul_comm _ _
  have htr : ρ.trace = 1 := modeState_trace hV p
  have hg : IsGauss (al n) ρ := by
    refine ⟨(1 - diagonal D) * Uᴴ, diagonal D * Uᴴ, ?_, hkms, .inr ⟨Spec.parity n, parity_sq n, parity_al, hpar⟩⟩
    rw [← Matrix.add_mul, sub_add_cancel, one_mul]
    exact IsUnit.of_mul_eq_one _ hU'
  have hcorr : corrP ρ = P := by
    have h1 : Uᴴ * corrP ρ * U = diagonal D := by
      ext i j
      have h2 := corr_quad Uᴴ ρ i j
      rw [conjTranspose_conjTranspose] at h2
      rw [h2]
      set b := comb (Uᴴ i) with hb
      set c := (comb (Uᴴ j))ᴴ with hcdef
      have h3 := congrArg (fun Z => (Z * c).trace) (hk i)
      simp only [Matrix.smul_mul, trace_smul, smul_eq_mul] at h3
      have h4 : (b * ρ * c).trace = (ρ * (c * b)).trace := by rw [Matrix.mul_assoc, trace_mul_comm, Matrix.mul_assoc]
      rw [h4, Matrix.mul_assoc] at h3
      have hac : b * c + c * b = if i = j then 1 else 0 := by
        have h5 : c = comb (fun l => star (Uᴴ j (fl l))) := comb_conj _
        rw [h5, comb_anticomm, dot_swapS]
        have h6 : ∑ l, Uᴴ i l * star (Uᴴ j (fl (fl l))) = (Uᴴ * U) i j := by
          rw [mul_apply]
          refine Finset.sum_congr rfl fun l _ => ?_
          rw [fl_fl, conjTranspose_apply U l j, star_star]
        rw [h6, hU', one_apply]
        split_ifs <;> simp
      have h7 : (ρ * (c * b)).trace = (if i = j then 1 else 0) - (ρ * (b * c)).trace := by
        rw [show c * b = (if i = j then 1 else 0) - b * c by rw [← hac]; abel, Matrix.mul_sub, trace_sub]
        split_ifs
        · rw [mul_one, htr]
        · simp
      rw [h7] at h3
      rw [diagonal_apply]
      split_ifs with hij
      · rw [if_pos hij] at h3; linear_combination h3
      · rw [if_neg hij] at h3; linear_combination h3
    rw [hPU, ← h1]
    calc corrP ρ = (U * Uᴴ) * corrP ρ * (U * Uᴴ) := by rw [hU, one_mul, mul_one]
      _ = _ := by simp only [Matrix.mul_assoc]
  exact ⟨fun m L => IsGauss.wick al_anticomm hg htr m L, hcorr.trans hPU⟩

/-- Every state that obeys Wick's theorem is the limit of states without empty or certainly filled modes. -/
theorem wick_family {ρ : Op (2 ^ n)} (hρ : Spec.IsDensity ρ) (hw : Spec.ObeysWick (al n) ρ) :
    ∃ r : ℝ → Op (2 ^ n), r 0 = ρ ∧ Continuous r ∧ (Continuous fun t => corrP (r t)) ∧ ∀ t, 0 < t → t < 1 →
      (r t).trace = 1 ∧ Spec.ObeysWick (al n) (r t) ∧ (corrP (r t)).PosDef ∧ (1 - corrP (r t)).PosDef := by
  have hHc := corr_herm hρ.psd.isHermitian.eq
  have hPc := eq_sub_of_add_eq' (corr_ph hρ.trace_one)
  have hH0 : (corrP ρ - (1 / 2 : ℂ) • (1 : Op (n + n))).IsHermitian := by
    rw [IsHermitian, conjTranspose_sub, hHc, conjTranspose_smul, conjTranspose_one]
    simp
  have hP0 : swapS n * (corrP ρ - (1 / 2 : ℂ) • (1 : Op (n + n)))ᵀ * swapS n = -(corrP ρ - (1 / 2 : ℂ) • 1) := by
    rw [transpose_sub, transpose_smul, transpose_one, Matrix.mul_sub, Matrix.sub_mul, hPc, Matrix.mul_smul, mul_one,
      Matrix.smul_mul, swapS_sq]
    module
  obtain ⟨U, s, hc, hU, hL⟩ := exists_canonical hH0 hP0
  have hU' : Uᴴ * U = 1 := mul_eq_one_comm.1 hU
  obtain ⟨hcar, hconj⟩ := modes_car hc hU
  obtain ⟨V, e, hV, hN⟩ := many_body hcar
  set p : Fin n → ℝ := fun k => 1 / 2 - s k with hp
  have hPD : Uᴴ * corrP ρ * U = diagonal (Fin.append (fun k => ((p k : ℝ) : ℂ)) fun k => ((1 - p k : ℝ) : ℂ)) := by
    have h1 : Uᴴ * corrP ρ * U = Spec.standardForm s + (1 / 2 : ℂ) • 1 := by
      rw [← hL, Matrix.mul_sub, Matrix.sub_mul, Matrix.mul_smul, mul_one, Matrix.smul_mul, hU', sub_add_cancel]
    rw [h1, Spec.standardForm, smul_one_eq_diagonal, diagonal_add]
    congr 1
    funext k
    refine Fin.addCases (fun i => ?_) (fun i => ?_) k
    · rw [Fin.append_left, Fin.append_left, hp]; push_cast; ring
    · rw [Fin.append_right, Fin.append_right, hp]; push_cast; ring
  have hPU : corrP ρ = U * diagonal (Fin.append (fun k => ((p k : ℝ) : ℂ)) fun k => ((1 - p k : ℝ) : ℂ)) * Uᴴ := by
    rw [← hPD]
    calc corrP ρ = (U * Uᴴ) * corrP ρ * (U * Uᴴ) := by rw [hU, one_mul, mul_one]
      _ = _ := by simp only [Matrix.mul_assoc]
  have hrange := append_range hU hPU (corr_psd hρ.psd)
  have hmode := gauss_of_modes hc hU hV hN
  set q : ℝ → Fin n → ℝ := fun t k => (1 - t) * p k + t / 2 with hq
  have hqc : ∀ k, Continuous fun t => q t k := fun k => by simp only [hq]; fun_prop
  have hDc : Continuous fun t => Fin.append (fun k => ((q t k : ℝ) : ℂ)) (fun k => ((1 - q t k : ℝ) : ℂ)) := by
    refine continuous_pi fun i => ?_
    refine Fin.addCases (fun k => ?_) (fun k => ?_) i
    · simp only [Fin.append_left]
      exact Complex.continuous_ofReal.comp (hqc k)
    · simp only [Fin.append_right]
      exact Complex.continuous_ofReal.comp (continuous_const.sub (hqc k))
  refine ⟨fun t => modeState V e (q t), ?_, ?_, ?_, fun t h0 h1 => ?_⟩
  · have h1 : q 0 = p := by funext k; simp [hq]
    simp only [h1]
    refine wick_unique (hmode p).1 hw ?_
    rw [gam_corr, gam_corr, (hmode p).2, ← hPU]
  · unfold modeState
    refine (continuous_const.matrix_mul (Continuous.matrix_diagonal (continuous_pi fun x => ?_))).matrix_mul continuous_const
    refine Complex.continuous_ofReal.comp ?_
    unfold patP
    refine continuous_finsetProd _ fun k _ => ?_
    split_ifs
    · exact hqc k
    · exact continuous_const.sub (hqc k)
  · simp only [fun t => (hmode (q t)).2]
    exact (continuous_const.matrix_mul hDc.matrix_diagonal).matrix_mul continuous_const
  · have hq0 : ∀ k, 0 < q t k := fun k => by
      have := (hrange k).1
      simp only [hq]
      nlinarith
    have hq1 : ∀ k, 0 < 1 - q t k := fun k => by
      have := (hrange k).2
      simp only [hq]
      nlinarith
    have hpos : ∀ d : Fin (n + n) → ℂ, (∀ i, 0 < d i) → (U * diagonal d * Uᴴ).PosDef := fun d hd => by
      have h1 : (diagonal d).PosDef := PosDef.diagonal hd
      have h2 := h1.mul_mul_conjTranspose_same (B := U)
        (Matrix.vecMul_injective_of_isUnit (IsUnit.of_mul_eq_one _ hU))
      exact h2
    refine ⟨modeState_trace hV _, (hmode _).1, ?_, ?_⟩
    · rw [(hmode _).2]
      refine hpos _ fun i => ?_
      refine Fin.addCases (fun k => ?_) (fun k => ?_) i
      · rw [Fin.append_left]; exact_mod_cast hq0 k
      · rw [Fin.append_right]; exact_mod_cast hq1 k
    · have h2 : 1 - corrP (modeState V e (q t)) =
          U * diagonal (Fin.append (fun k => ((1 - q t k : ℝ) : ℂ)) fun k => ((q t k : ℝ) : ℂ)) * Uᴴ := by
        rw [(hmode _).2, ← hU]
        have : U * Uᴴ = U * diagonal (fun _ => (1 : ℂ)) * Uᴴ := by rw [diagonal_one, mul_one]
        rw [this, ← Matrix.sub_mul, ← Matrix.mul_sub, diagonal_sub]
        congr 3
        funext i
        refine Fin.addCases (fun k => ?_) (fun k => ?_) i
        · rw [Fin.append_left, Fin.append_left]; push_cast; ring
        · rw [Fin.append_right, Fin.append_right]; push_cast; ring
      rw [h2]
      refine hpos _ fun i => ?_
      refine Fin.addCases (fun k => ?_) (fun k => ?_) i
      · rw [Fin.append_left]; exact_mod_cast hq1 k
      · rw [Fin.append_right]; exact_mod_cast hq0 k

/-- The overlap of two states that obey Wick's theorem. -/
theorem wick_overlap {ρ σ : Op (2 ^ n)} (hρ : Spec.IsDensity ρ) (hw : Spec.ObeysWick (al n) ρ) (hσ : Spec.IsDensity σ)
    (hw' : Spec.ObeysWick (al n) σ) : (ρ * σ).trace ^ 2 = (corrP ρ * corrP σ + (1 - corrP ρ) * (1 - corrP σ)).det := by
  obtain ⟨r, hr0, hrc, hrP, hr⟩ := wick_family hρ hw
  obtain ⟨u, hu0, huc, huP, hu⟩ := wick_family hσ hw'
  have hcl : IsClosed {t : ℝ | (r t * u t).trace ^ 2 = (corrP (r t) * corrP (u t) + (1 - corrP (r t)) * (1 - corrP (u t))).det} := by
    refine isClosed_eq ((hrc.matrix_mul huc).matrix_trace.pow 2) ?_
    exact ((hrP.matrix_mul huP).add ((continuous_const.sub hrP).matrix_mul (continuous_const.sub huP))).matrix_det
  have hsub : Set.Ioo (0 : ℝ) 1 ⊆ {t : ℝ | (r t * u t).trace ^ 2 = (corrP (r t) * corrP (u t) + (1 - corrP (r t)) * (1 - corrP (u t))).det} := by
    intro t ht
    obtain ⟨a1, a2, a3, a4⟩ := hr t ht.1 ht.2
    obtain ⟨b1, b2, b3, b4⟩ := hu t ht.1 ht.2
    exact overlap_faithful a1 a2 a3 a4 b1 b2 b3 b4
  have h0 : (0 : ℝ) ∈ closure (Set.Ioo (0 : ℝ) 1) := by
    rw [closure_Ioo zero_ne_one]
    exact ⟨le_rfl, zero_le_one⟩
  have := closure_minimal hsub hcl h0
  simp only [Set.mem_ofPred_eq, hr0, hu0] at this
  exact this

end FF
