import Verif.Proofs.TightBinding
import Verif.Proofs.ManyBody
import Verif.Proofs.Span

/-! # Proofs: the eigenvalues of a Gaussian state from its correlation matrix -/

namespace FF

open Matrix
open scoped ComplexOrder

variable {n : ℕ}

/-- The probability of the pattern `c` if mode `k` is occupied with probability `p_k`, independently. -/
noncomputable def patP (p : Fin n → ℝ) (c : Fin n → Bool) : ℝ := ∏ k, if c k then p k else 1 - p k

theorem patP_sum (p : Fin n → ℝ) : ∑ c : Fin n → Bool, patP p c = 1 := by
  have h := Finset.prod_univ_sum (fun _ : Fin n => (Finset.univ : Finset Bool)) fun k b => if b then p k else 1 - p k
  rw [Fintype.piFinset_univ] at h
  unfold patP
  rw [← h]
  refine Finset.prod_eq_one fun k _ => ?_
  simp

theorem patP_flip (p : Fin n → ℝ) {c c' : Fin n → Bool} {k : Fin n} (hk : c k = true) (hk' : c' k = false)
    (h : ∀ j, j ≠ k → c j = c' j) : (1 - p k) * patP p c = p k * patP p c' := by
  rw [patP, patP, ← Finset.mul_prod_erase _ _ (Finset.mem_univ k), ← Finset.mul_prod_erase _ _ (Finset.mem_univ k), hk, hk']
  have : ∏ j ∈ Finset.univ.erase k, (if c j then p j else 1 - p j) = ∏ j ∈ Finset.univ.erase k, (if c' j then p j else 1 - p j) :=
    Finset.prod_congr rfl fun j hj => by rw [h j (Finset.ne_of_mem_erase hj)]
  rw [this]
  simp
  ring

theorem eq_pat_of {c c' : Fin n → Bool} (h : ∀ k, c k = c' k) : c = c' := funext h

/-- A matrix that commutes with all the occupation numbers is diagonal. -/
theorem diag_of_commute {e : (Fin n → Bool) ≃ Fin (2 ^ n)} {X : Op (2 ^ n)}
    (h : ∀ k : Fin n, X * diagonal (fun x => if e.symm x k then (1 : ℂ) else 0) =
      diagonal (fun x => if e.symm x k then (1 : ℂ) else 0) * X) : X = diagonal fun x => X x x := by
  ext x y
  rw [diagonal_apply]
  split_ifs with hxy
  · rw [hxy]
  · obtain ⟨k, hk⟩ := Function.ne_iff.1 fun h' => hxy (e.symm.injective h')
    have h1 := congrFun (congrFun (h k) x) y
    rw [mul_diagonal, diagonal_mul] at h1
    cases hx : e.symm x k <;> cases hy : e.symm y k <;> simp_all

section
variable {g : ℕ → Op (2 ^ n)} {V : Op (2 ^ n)} {e : (Fin n → Bool) ≃ Fin (2 ^ n)}

/-- The state in which the modes are occupied independently. -/
noncomputable def modeState (V : Op (2 ^ n)) (e : (Fin n → Bool) ≃ Fin (2 ^ n)) (p : Fin n → ℝ) : Op (2 ^ n) :=
  V * diagonal (fun x => ((patP p (e.symm x) : ℝ) : ℂ)) * Vᴴ

theorem modeState_trace (hV : V * Vᴴ = 1) (p : Fin n → ℝ) : (modeState V e p).trace = 1 := by
  rw [modeState, trace_mul_comm, ← Matrix.mul_assoc, mul_eq_one_comm.1 hV, one_mul, trace_diagonal,
    e.symm.sum_comp fun c => ((patP p c : ℝ) : ℂ)]
  exact_mod_cast patP_sum p

theorem modeState_herm (p : Fin n → ℝ) : (modeState V e p)ᴴ = modeState V e p := by
  rw [modeState, conjTranspose_mul, conjTranspose_mul, conjTranspose_conjTranspose, diagonal_conjTranspose, Matrix.mul_assoc]
  congr 3
  funext x
  simp

/-- A mode connects a pattern only with the one in which this mode is emptied. -/
theorem mode_kms (h : IsCAR g n) (hV : V * Vᴴ = 1)
    (hN : ∀ k : Fin n, g k * (g k)ᴴ = V * diagonal (fun x => if e.symm x k then (1 : ℂ) else 0) * Vᴴ) (p : Fin n → ℝ) (k : Fin n) :
    ((1 - p k : ℝ) : ℂ) • (modeState V e p * g k) = (p k : ℂ) • (g k * modeState V e p) := by
  have hV' : Vᴴ * V = 1 := mul_eq_one_comm.1 hV
  set B : Op (2 ^ n) := Vᴴ * g k * V with hB
  have hgB : g k = V * B * Vᴴ := by
    rw [hB]
    calc g k = (V * Vᴴ) * g k * (V * Vᴴ) := by rw [hV, one_mul, mul_one]
      _ = _ := by simp only [Matrix.mul_assoc]
  -- the occupation numbers and the mode
  have hconj : ∀ (X Y : Op (2 ^ n)), Vᴴ * (V * X * Vᴴ * Y) * V = X * (Vᴴ * Y * V) := fun X Y => by
    rw [show Vᴴ * (V * X * Vᴴ * Y) * V = (Vᴴ * V) * X * (Vᴴ * Y * V) by simp only [Matrix.mul_assoc], hV', one_mul]
  have hconj' : ∀ (X Y : Op (2 ^ n)), Vᴴ * (Y * (V * X * Vᴴ)) * V = (Vᴴ * Y * V) * X := fun X Y => by
    rw [show Vᴴ * (Y * (V * X * Vᴴ)) * V = (Vᴴ * Y * V) * X * (Vᴴ * V) by simp only [Matrix.mul_assoc], hV', mul_one]
  have hself : g k * (g k)ᴴ * g k = g k := by
    have h1 := h.mixed k k.2 k k.2
    rw [if_pos rfl] at h1
    have h0 : g k * g k = 0 := by
      have := h.anti k k.2 k k.2
      have h2 : (2 : ℂ) • (g k * g k) = 0 := by rw [two_smul]; exact this
      exact (smul_eq_zero.1 h2).resolve_left two_ne_zero
    rw [Matrix.mul_assoc, eq_sub_iff_add_eq.2 h1, Matrix.mul_sub, mul_one, ← Matrix.mul_assoc, h0,
      zero_mul, sub_zero]
  have hself' : g k * (g k * (g k)ᴴ) = 0 := by
    have h0 : g k * g k = 0 := by
      have := h.anti k k.2 k k.2
      have h2 : (2 : ℂ) • (g k * g k) = 0 := by rw [two_smul]; exact this
      exact (smul_eq_zero.1 h2).resolve_left two_ne_zero
    rw [← Matrix.mul_assoc, h0, zero_mul]
  have hother : ∀ j : Fin n, j ≠ k → g j * (g j)ᴴ * g k = g k * (g j * (g j)ᴴ) := by
    intro j hj
    have hj' : (j : ℕ) ≠ k := fun h => hj (Fin.ext h)
    have h1 := h.mixed j j.2 k k.2
    rw [if_neg hj', ] at h1
    have h2 := h.anti j j.2 k k.2
    rw [Matrix.mul_assoc, eq_neg_of_add_eq_zero_left h1, Matrix.mul_neg, ← Matrix.mul_assoc, eq_neg_of_add_eq_zero_left h2,
      Matrix.neg_mul, neg_neg, Matrix.mul_assoc]
  have hB1 : ∀ x y, B x y ≠ 0 → e.symm x k = true ∧ e.symm y k = false ∧ ∀ j, j ≠ k → e.symm x j = e.symm y j := by
    intro x y hxy
    refine ⟨?_, ?_, fun j hj => ?_⟩
    · have h1 := congrArg (fun Z => Vᴴ * Z * V) hself
      simp only [hN, hconj] at h1
      have h2 := congrFun (congrFun h1 x) y
      rw [diagonal_mul] at h2
      by_contra hc
      rw [if_neg hc, zero_mul] at h2
      exact hxy h2.symm
    · have h1 := congrArg (fun Z => Vᴴ * Z * V) hself'
      simp only [hN, hconj', Matrix.mul_zero, Matrix.zero_mul] at h1
      have h2 := congrFun (congrFun h1 x) y
      rw [mul_diagonal] at h2
      by_contra hc
      rw [Bool.not_eq_false] at hc
      rw [if_pos hc, mul_one] at h2
      exact hxy h2
    · have h1 := congrArg (fun Z => Vᴴ * Z * V) (hother j hj)
      simp only [hN, hconj, hconj'] at h1
      have h2 := congrFun (congrFun h1 x) y
      rw [mul_diagonal, diagonal_mul] at h2
      change _ * B x y = B x y * _ at h2
      rw [mul_comm] at h2
      have h3 := mul_left_cancel₀ hxy h2
      cases hx : e.symm x j <;> cases hy : e.symm y j <;> simp [hx, hy] at h3 ⊢
  have key : ((1 - p k : ℝ) : ℂ) • (diagonal (fun x => ((patP p (e.symm x) : ℝ) : ℂ)) * B) =
      (p k : ℂ) • (B * diagonal (fun x => ((patP p (e.symm x) : ℝ) : ℂ))) := by
    ext x y
    rw [Matrix.smul_apply, Matrix.smul_apply, diagonal_mul, mul_diagonal, smul_eq_mul, smul_eq_mul]
    by_cases hxy : B x y = 0
    · rw [hxy]; ring
    · obtain ⟨a1, a2, a3⟩ := hB1 x y hxy
      have e1 : ((1 - p k : ℝ) : ℂ) * (patP p (e.symm x) : ℝ) = (p k : ℂ) * (patP p (e.symm y) : ℝ) := by
        exact_mod_cast patP_flip p a1 a2 a3
      linear_combination B x y * e1
  have e1 : modeState V e p * g k = V * (diagonal (fun x => ((patP p (e.symm x) : ℝ) : ℂ)) * B) * Vᴴ := by
    rw [modeState, hgB, show ∀ D : Op (2 ^ n), V * D * Vᴴ * (V * B * Vᴴ) = V * D * (Vᴴ * V) * B * Vᴴ from
      fun D => by simp only [Matrix.mul_assoc], hV', mul_one]
    simp only [Matrix.mul_assoc]
  have e2 : g k * modeState V e p = V * (B * diagonal (fun x => ((patP p (e.symm x) : ℝ) : ℂ))) * Vᴴ := by
    rw [modeState, hgB, show ∀ D : Op (2 ^ n), (V * B * Vᴴ) * (V * D * Vᴴ) = V * B * (Vᴴ * V) * D * Vᴴ from
      fun D => by simp only [Matrix.mul_assoc], hV', mul_one]
    simp only [Matrix.mul_assoc]
  rw [e1, e2, ← Matrix.smul_mul, ← Matrix.mul_smul, key, Matrix.mul_smul, Matrix.smul_mul]

end

/-- Every correlation matrix belongs to a Gaussian state: the modes of the matrix, occupied independently. -/
theorem gauss_of_corr {P : Op (n + n)} (hH : P.IsHermitian) (hP : swapS n * Pᵀ * swapS n = 1 - P) :
    ∃ (U : Op (n + n)) (p : Fin n → ℝ) (V : Op (2 ^ n)) (e : (Fin n → Bool) ≃ Fin (2 ^ n)),
      U * Uᴴ = 1 ∧ V * Vᴴ = 1 ∧
      P = U * diagonal (Fin.append (fun k => ((p k : ℝ) : ℂ)) fun k => ((1 - p k : ℝ) : ℂ)) * Uᴴ ∧
      (∀ k : Fin n, comb (Uᴴ (Fin.castAdd n k)) * (comb (Uᴴ (Fin.castAdd n k)))ᴴ =
        V * diagonal (fun x => if e.symm x k then (1 : ℂ) else 0) * Vᴴ) ∧
      Spec.ObeysWick (al n) (modeState V e p) ∧ corrP (modeState V e p) = P := by
  have hH0 : (P - (1 / 2 : ℂ) • (1 : Op (n + n))).IsHermitian := by
    rw [IsHermitian, conjTranspose_sub, hH.eq, conjTranspose_smul, conjTranspose_one]
    simp
  have hP0 : swapS n * (P - (1 / 2 : ℂ) • (1 : Op (n + n)))ᵀ * swapS n = -(P - (1 / 2 : ℂ) • 1) := by
    rw [transpose_sub, transpose_smul, transpose_one, Matrix.mul_sub, Matrix.sub_mul, hP, Matrix.mul_smul, mul_one,
      Matrix.smul_mul, swapS_sq]
    module
  obtain ⟨U, s, hc, hU, hL⟩ := exists_canonical hH0 hP0
  have hU' : Uᴴ * U = 1 := mul_eq_one_comm.1 hU
  obtain ⟨hcar, hconj⟩ := modes_car hc hU
  obtain ⟨V, e, hV, hN⟩ := many_body hcar
  have hV' : Vᴴ * V = 1 := mul_eq_one_comm.1 hV
  set p : Fin n → ℝ := fun k => 1 / 2 - s k with hp
  set D : Fin (n + n) → ℂ := Fin.append (fun k => ((p k : ℝ) : ℂ)) fun k => ((1 - p k : ℝ) : ℂ) with hD
  have hPD : Uᴴ * P * U = diagonal D := by
    have h1 : Uᴴ * P * U = Spec.standardForm s + (1 / 2 : ℂ) • 1 := by
      rw [← hL, Matrix.mul_sub, Matrix.sub_mul, Matrix.mul_smul, mul_one, Matrix.smul_mul, hU', sub_add_cancel]
    rw [h1, Spec.standardForm, smul_one_eq_diagonal, diagonal_add]
    congr 1
    funext k
    refine Fin.addCases (fun i => ?_) (fun i => ?_) k
    · rw [hD, Fin.append_left, Fin.append_left, hp]; push_cast; ring
    · rw [hD, Fin.append_right, Fin.append_right, hp]; push_cast; ring
  have hPU : P = U * diagonal D * Uᴴ := by
    rw [← hPD]
    calc P = (U * Uᴴ) * P * (U * Uᴴ) := by rw [hU, one_mul, mul_one]
      _ = _ := by simp only [Matrix.mul_assoc]
  set ρ := modeState V e p with hρ
  have hk1 : ∀ k : Fin n, ((1 - p k : ℝ) : ℂ) • (ρ * comb (Uᴴ (Fin.castAdd n k))) = (p k : ℂ) • (comb (Uᴴ (Fin.castAdd n k)) * ρ) := by
    intro k
    have := mode_kms hcar hV hN p k
    simp only [dif_pos k.2] at this
    exact this
  have hk2 : ∀ k : Fin n, (p k : ℂ) • (ρ * comb (Uᴴ (Fin.natAdd n k))) = ((1 - p k : ℝ) : ℂ) • (comb (Uᴴ (Fin.natAdd n k)) * ρ) := by
    intro k
    have := congrArg conjTranspose (hk1 k)
    rw [conjTranspose_smul, conjTranspose_smul, conjTranspose_mul, conjTranspose_mul, hρ, modeState_herm, ← hρ, hconj,
      Complex.star_def, Complex.conj_ofReal, Complex.conj_ofReal] at this
    exact this.symm
  have hk : ∀ i : Fin (n + n), (1 - D i) • (ρ * comb (Uᴴ i)) = D i • (comb (Uᴴ i) * ρ) := by
    intro i
    refine Fin.addCases (fun k => ?_) (fun k => ?_) i
    · rw [hD, Fin.append_left]; have := hk1 k; push_cast at this; exact this
    · rw [hD, Fin.append_right]; have := hk2 k; push_cast at this ⊢; rw [sub_sub_cancel]; exact this
  have hkms : ∀ k, ∑ l, ((1 - diagonal D) * Uᴴ) k l • (ρ * al n l) = ∑ l, (diagonal D * Uᴴ) k l • (al n l * ρ) := by
    intro i
    have h1 := hk i
    rw [comb, Matrix.mul_sum, Matrix.sum_mul, Finset.smul_sum, Finset.smul_sum] at h1
    convert h1 using 2 with m _ m _
    · rw [Matrix.mul_smul, smul_smul, Matrix.sub_mul, one_mul, Matrix.sub_apply, diagonal_mul]; congr 1; ring
    · rw [Matrix.smul_mul, smul_smul, diagonal_mul]
  have hpar : Spec.parity n * ρ = ρ * Spec.parity n := by
    have hcomb : ∀ v : Fin (n + n) → ℂ, Spec.parity n * comb v = -(comb v * Spec.parity n) := fun v => by
      rw [comb, Matrix.mul_sum, Matrix.sum_mul, ← Finset.sum_neg_distrib]
      refine Finset.sum_congr rfl fun l _ => ?_
      rw [Matrix.mul_smul, parity_al, Matrix.smul_mul, smul_neg]
    have hX : ∀ k : Fin n, (Vᴴ * Spec.parity n * V) * diagonal (fun x => if e.symm x k then (1 : ℂ) else 0) =
        diagonal (fun x => if e.symm x k then (1 : ℂ) else 0) * (Vᴴ * Spec.parity n * V) := by
      intro k
      have h1 := hN k
      simp only [dif_pos k.2] at h1
      rw [hconj] at h1
      have h2 : diagonal (fun x => if e.symm x k then (1 : ℂ) else 0) =
          Vᴴ * (comb (Uᴴ (Fin.castAdd n k)) * comb (Uᴴ (Fin.natAdd n k))) * V := by
        rw [h1]
        rw [show ∀ Z : Op (2 ^ n), Vᴴ * (V * Z * Vᴴ) * V = (Vᴴ * V) * Z * (Vᴴ * V) from fun Z => by simp only [Matrix.mul_assoc],
          hV', one_mul, mul_one]
      rw [h2]
      set b1 := comb (Uᴴ (Fin.castAdd n k))
      set b2 := comb (Uᴴ (Fin.natAdd n k))
      have e1 : Spec.parity n * (b1 * b2) = b1 * b2 * Spec.parity n := by
        rw [← Matrix.mul_assoc, hcomb, Matrix.neg_mul, Matrix.mul_assoc, hcomb, Matrix.mul_neg, neg_neg, Matrix.mul_assoc]
      rw [show ∀ X Y : Op (2 ^ n), Vᴴ * X * V * (Vᴴ * Y * V) = Vᴴ * (X * (V * Vᴴ) * Y) * V from
        fun X Y => by simp only [Matrix.mul_assoc], show ∀ X Y : Op (2 ^ n), Vᴴ * X * V * (Vᴴ * Y * V) = Vᴴ * (X * (V * Vᴴ) * Y) * V from
        fun X Y => by simp only [Matrix.mul_assoc], hV, mul_one, mul_one, e1]
    have hdg := diag_of_commute hX
    set w : Fin (2 ^ n) → ℂ := fun x => (Vᴴ * Spec.parity n * V) x x with hw
    have hpw : Spec.parity n = V * diagonal w * Vᴴ := by
      rw [← hdg]
      calc Spec.parity n = (V * Vᴴ) * Spec.parity n * (V * Vᴴ) := by rw [hV, one_mul, mul_one]
        _ = _ := by simp only [Matrix.mul_assoc]
    rw [hρ, modeState, hpw]
    rw [show ∀ X Y : Op (2 ^ n), V * X * Vᴴ * (V * Y * Vᴴ) = V * (X * (Vᴴ * V) * Y) * Vᴴ from
        fun X Y => by simp only [Matrix.mul_assoc], show ∀ X Y : Op (2 ^ n), V * X * Vᴴ * (V * Y * Vᴴ) = V * (X * (Vᴴ * V) * Y) * Vᴴ from
        fun X Y => by simp only [Matrix.mul_assoc], hV', mul_one, mul_one, diagonal_mul_diagonal, diagonal_mul_diagonal]
    congr 3
    funext x
    exact mul_comm _ _
  have htr : ρ.trace = 1 := modeState_trace hV p
  have hg : IsGauss (al n) ρ := by
    refine ⟨(1 - diagonal D) * Uᴴ, diagonal D * Uᴴ, ?_, hkms, .inr ⟨Spec.parity n, parity_sq n, parity_al, hpar⟩⟩
    rw [← Matrix.add_mul, sub_add_cancel, one_mul]
    exact IsUnit.of_mul_eq_one _ hU'
  have hcorr : corrP ρ = P := by
    have h1 : Uᴴ * corrP ρ * U = diagonal D := by
      ext i j
      have h2 := corr_quad Uᴴ ρ i j
      rw [conjTranspose_conjTranspose] at h2
      rw [h2]
      set b := comb (Uᴴ i) with hb
      set c := (comb (Uᴴ j))ᴴ with hcdef
      have h3 := congrArg (fun Z => (Z * c).trace) (hk i)
      simp only [Matrix.smul_mul, trace_smul, smul_eq_mul] at h3
      have h4 : (b * ρ * c).trace = (ρ * (c * b)).trace := by rw [Matrix.mul_assoc, trace_mul_comm, Matrix.mul_assoc]
      rw [h4, Matrix.mul_assoc] at h3
      have hac : b * c + c * b = if i = j then 1 else 0 := by
        have h5 : c = comb (fun l => star (Uᴴ j (fl l))) := comb_conj _
        rw [h5, comb_anticomm, dot_swapS]
        have h6 : ∑ l, Uᴴ i l * star (Uᴴ j (fl (fl l))) = (Uᴴ * U) i j := by
          rw [mul_apply]
          refine Finset.sum_congr rfl fun l _ => ?_
          rw [fl_fl, conjTranspose_apply U l j, star_star]
        rw [h6, hU', one_apply]
        split_ifs <;> simp
      have h7 : (ρ * (c * b)).trace = (if i = j then 1 else 0) - (ρ * (b * c)).trace := by
        rw [show c * b = (if i = j then 1 else 0) - b * c by rw [← hac]; abel, Matrix.mul_sub, trace_sub]
        split_ifs
        · rw [mul_one, htr]
        · simp
      rw [h7] at h3
      rw [diagonal_apply]
      split_ifs with hij
      · rw [if_pos hij] at h3; linear_combination h3
      · rw [if_neg hij] at h3; linear_combination h3
    rw [hPU, ← h1]
    calc corrP ρ = (U * Uᴴ) * corrP ρ * (U * Uᴴ) := by rw [hU, one_mul, mul_one]
      _ = _ := by simp only [Matrix.mul_assoc]
  refine ⟨U, p, V, e, hU, hV, hPU, fun k => ?_, fun m L => IsGauss.wick al_anticomm hg htr m L, hcorr⟩
  have := hN k
  simp only [dif_pos k.2] at this
  exact this

end FF
