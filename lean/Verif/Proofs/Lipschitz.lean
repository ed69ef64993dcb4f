import Verif.Props.PureGauss
import Verif.Props.Weyl
import Verif.Props.Dynamics
import Mathlib.Analysis.Calculus.MeanValue
import Mathlib.Analysis.SpecialFunctions.Trigonometric.Bounds

/-! # Lemmas for C149: functions of Hermitian matrices are as Lipschitz as functions of numbers, in the Frobenius norm -/

namespace FF

open Matrix Finset
open scoped ComplexOrder

variable {N n : ℕ}

/-- the sum of the squared moduli of the entries -/
noncomputable def frob (M : Op N) : ℝ := ∑ i, ∑ j, ‖M i j‖ ^ 2

theorem frob_nonneg (M : Op N) : 0 ≤ frob M := sum_nonneg fun _ _ => sum_nonneg fun _ _ => by positivity

theorem frob_trace (M : Op N) : ((frob M : ℝ) : ℂ) = (M * Mᴴ).trace := by
  rw [trace, frob, Complex.ofReal_sum]
  refine sum_congr rfl fun i _ => ?_
  rw [diag_apply, mul_apply, Complex.ofReal_sum]
  refine sum_congr rfl fun j _ => ?_
  rw [conjTranspose_apply, Complex.star_def, Complex.mul_conj, Complex.normSq_eq_norm_sq]

theorem frob_unitary {U V : Op N} (hU : U * Uᴴ = 1) (hV : V * Vᴴ = 1) (M : Op N) : frob (Uᴴ * M * V) = frob M := by
  have : ((frob (Uᴴ * M * V) : ℝ) : ℂ) = ((frob M : ℝ) : ℂ) := by
    rw [frob_trace, frob_trace]
    have e : Uᴴ * M * V * (Uᴴ * M * V)ᴴ = Uᴴ * (M * (V * Vᴴ) * Mᴴ * U) := by
      rw [conjTranspose_mul, conjTranspose_mul, conjTranspose_conjTranspose]; simp only [mul_assoc]
    rw [e, hV, mul_one, trace_mul_comm, mul_assoc, hU, mul_one]
  exact_mod_cast this

theorem entry_le_frob (M : Op N) (i j : Fin N) : ‖M i j‖ ^ 2 ≤ frob M :=
  (single_le_sum (f := fun j => ‖M i j‖ ^ 2) (fun _ _ => by positivity) (mem_univ j)).trans
    (single_le_sum (f := fun i => ∑ j, ‖M i j‖ ^ 2) (fun _ _ => sum_nonneg fun _ _ => by positivity) (mem_univ i))

theorem frob_le {M : Op N} {δ : ℝ} (h : ∀ i j, ‖M i j‖ ≤ δ) : frob M ≤ (N * δ) ^ 2 := by
  have : frob M ≤ ∑ _i : Fin N, ∑ _j : Fin N, δ ^ 2 := sum_le_sum fun i _ => sum_le_sum fun j _ => pow_le_pow_left₀ (norm_nonneg _) (h i j) 2
  refine this.trans_eq ?_
  simp only [sum_const, card_univ, Fintype.card_fin, nsmul_eq_mul]
  ring

theorem frob_lipschitz {U U' : Op N} {d d' : Fin N → ℝ} (hU : U * Uᴴ = 1) (hU' : U' * U'ᴴ = 1) {f : ℝ → ℂ} {L : ℝ}
    (hf : ∀ x y, ‖f x - f y‖ ≤ L * |x - y|) :
    frob (U * diagonal (fun i => f (d i)) * Uᴴ - U' * diagonal (fun i => f (d' i)) * U'ᴴ) ≤
      L ^ 2 * frob (U * diagonal (fun i => ((d i : ℝ) : ℂ)) * Uᴴ - U' * diagonal (fun i => ((d' i : ℝ) : ℂ)) * U'ᴴ) := by
  have hU1 : Uᴴ * U = 1 := mul_eq_one_comm.1 hU
  have hU2 : U'ᴴ * U' = 1 := mul_eq_one_comm.1 hU'
  have key : ∀ (a b : Fin N → ℂ) (i j), (Uᴴ * (U * diagonal a * Uᴴ - U' * diagonal b * U'ᴴ) * U') i j = (a i - b j) * (Uᴴ * U') i j := by
    intro a b i j
    have : Uᴴ * (U * diagonal a * Uᴴ - U' * diagonal b * U'ᴴ) * U' = (Uᴴ * U) * diagonal a * (Uᴴ * U') - (Uᴴ * U') * diagonal b * (U'ᴴ * U') := by
      rw [mul_sub, sub_mul]; simp only [mul_assoc]
    rw [this, hU1, hU2, one_mul, mul_one, Matrix.sub_apply, diagonal_mul, mul_diagonal]
    ring
  rw [← frob_unitary hU hU', ← frob_unitary hU hU' (U * diagonal (fun i => ((d i : ℝ) : ℂ)) * Uᴴ - _), frob, frob, mul_sum]
  refine sum_le_sum fun i _ => ?_
  rw [mul_sum]
  refine sum_le_sum fun j _ => ?_
  rw [key, key, norm_mul, norm_mul, ← Complex.ofReal_sub, Complex.norm_real, Real.norm_eq_abs]
  have := pow_le_pow_left₀ (by positivity) (mul_le_mul_of_nonneg_right (hf (d i) (d' j)) (norm_nonneg ((Uᴴ * U') i j))) 2
  refine this.trans_eq (by ring)

theorem diag_of_herm {H : Op N} (hH : H.IsHermitian) : ∃ (U : Op N) (d : Fin N → ℝ), U * Uᴴ = 1 ∧ H = U * diagonal (fun i => ((d i : ℝ) : ℂ)) * Uᴴ := by
  refine ⟨hH.eigenvectorUnitary, hH.eigenvalues, ?_, ?_⟩
  · exact Unitary.coe_mul_star_self hH.eigenvectorUnitary
  · have := hH.spectral_theorem
    rw [Unitary.conjStarAlgAut_apply] at this
    exact this

theorem exp_conj_diag {U : Op N} {d : Fin N → ℝ} (hU : U * Uᴴ = 1) (c : ℂ) :
    NormedSpace.exp (c • (U * diagonal (fun i => ((d i : ℝ) : ℂ)) * Uᴴ)) = U * diagonal (fun i => Complex.exp (c * d i)) * Uᴴ := by
  have hinv : U⁻¹ = Uᴴ := inv_eq_right_inv hU
  have hu : IsUnit U := (isUnit_iff_isUnit_det U).2 (isUnit_det_of_right_inverse hU)
  have e : c • (U * diagonal (fun i => ((d i : ℝ) : ℂ)) * Uᴴ) = U * diagonal (fun i => c * (d i : ℂ)) * U⁻¹ := by
    rw [hinv, ← smul_mul_assoc, ← mul_smul_comm, ← diagonal_smul]
    rfl
  rw [e, Matrix.exp_conj _ _ hu, Matrix.exp_diagonal, hinv]
  congr 3
  funext i
  rw [Pi.coe_exp, Complex.exp_eq_exp_ℂ]

theorem fermi_conj_diag {U : Op N} {d : Fin N → ℝ} (hU : U * Uᴴ = 1) (c : ℝ) :
    (1 + NormedSpace.exp ((c : ℂ) • (U * diagonal (fun i => ((d i : ℝ) : ℂ)) * Uᴴ)))⁻¹ =
      U * diagonal (fun i => ((1 / (1 + Real.exp (c * d i)) : ℝ) : ℂ)) * Uᴴ := by
  have hU1 : Uᴴ * U = 1 := mul_eq_one_comm.1 hU
  refine inv_eq_right_inv ?_
  have e1 : (1 : Op N) + NormedSpace.exp ((c : ℂ) • (U * diagonal (fun i => ((d i : ℝ) : ℂ)) * Uᴴ)) =
      U * diagonal (fun i => ((1 + Real.exp (c * d i) : ℝ) : ℂ)) * Uᴴ := by
    rw [exp_conj_diag hU]
    have : (diagonal (fun i => ((1 + Real.exp (c * d i) : ℝ) : ℂ)) : Op N) = 1 + diagonal (fun i => Complex.exp (c * d i)) := by
      rw [← diagonal_one, diagonal_add]
      congr 1
      funext i
      push_cast
      rfl
    rw [this, mul_add, add_mul, mul_one, hU]
  rw [e1]
  have e2 : ∀ a b : Fin N → ℂ, U * diagonal a * Uᴴ * (U * diagonal b * Uᴴ) = U * diagonal (fun i => a i * b i) * Uᴴ := fun a b => by
    have : U * diagonal a * Uᴴ * (U * diagonal b * Uᴴ) = U * (diagonal a * (Uᴴ * U) * diagonal b) * Uᴴ := by simp only [mul_assoc]
    rw [this, hU1, mul_one, diagonal_mul_diagonal]
  rw [e2]
  have e3 : (fun i => ((1 + Real.exp (c * d i) : ℝ) : ℂ) * ((1 / (1 + Real.exp (c * d i)) : ℝ) : ℂ)) = fun _ => 1 := by
    funext i
    rw [← Complex.ofReal_mul, mul_one_div_cancel (by positivity), Complex.ofReal_one]
  rw [e3, diagonal_one, mul_one, hU]

/-- the Fermi function -/
theorem fermi_lipschitz (x y : ℝ) : |1 / (1 + Real.exp (-2 * x)) - 1 / (1 + Real.exp (-2 * y))| ≤ 1 / 2 * |x - y| := by
  have hd : ∀ z : ℝ, HasDerivAt (fun x : ℝ => 1 / (1 + Real.exp (-2 * x))) (2 * Real.exp (-2 * z) / (1 + Real.exp (-2 * z)) ^ 2) z := by
    intro z
    have h1 : HasDerivAt (fun x : ℝ => 1 + Real.exp (-2 * x)) (Real.exp (-2 * z) * (-2 * 1)) z :=
      (((hasDerivAt_id z).const_mul (-2)).exp).const_add 1
    have h2 := h1.inv (by positivity)
    simp only [one_div]
    refine h2.congr_deriv ?_
    ring
  have := Convex.norm_image_sub_le_of_norm_hasDerivWithin_le (f := fun x : ℝ => 1 / (1 + Real.exp (-2 * x))) (C := 1 / 2) (s := Set.univ)
    (fun z _ => (hd z).hasDerivWithinAt) (fun z _ => ?_) convex_univ (Set.mem_univ y) (Set.mem_univ x)
  · simpa only [Real.norm_eq_abs] using this
  · have he := Real.exp_pos (-2 * z)
    rw [Real.norm_eq_abs, abs_of_nonneg (by positivity), div_le_iff₀ (by positivity)]
    nlinarith [sq_nonneg (1 - Real.exp (-2 * z))]

theorem phase_lipschitz (t x y : ℝ) : ‖Complex.exp (-2 * Complex.I * t * x) - Complex.exp (-2 * Complex.I * t * y)‖ ≤ 2 * |t| * |x - y| := by
  have e : ∀ z : ℝ, -2 * Complex.I * t * z = Complex.I * ((-2 * t * z : ℝ) : ℂ) := fun z => by push_cast; ring
  have h : Complex.exp (-2 * Complex.I * t * x) - Complex.exp (-2 * Complex.I * t * y) =
      Complex.exp (-2 * Complex.I * t * y) * (Complex.exp (Complex.I * ((-2 * t * (x - y) : ℝ) : ℂ)) - 1) := by
    rw [mul_sub, mul_one, ← Complex.exp_add]
    congr 2
    push_cast
    ring
  rw [h, norm_mul, e y, mul_comm Complex.I, Complex.norm_exp_ofReal_mul_I, one_mul]
  refine (Real.norm_exp_I_mul_ofReal_sub_one_le (x := -2 * t * (x - y))).trans_eq ?_
  rw [Real.norm_eq_abs, abs_mul, abs_mul]
  norm_num

theorem frob_conjTranspose (M : Op N) : frob Mᴴ = frob M := by
  rw [frob, frob, sum_comm]
  exact sum_congr rfl fun i _ => sum_congr rfl fun j _ => by rw [conjTranspose_apply, norm_star]

/-- a Hermitian matrix between 0 and 1, shifted to the middle, halves lengths -/
theorem frob_half {P : Op N} (h0 : P.PosSemidef) (h1 : (1 - P).PosSemidef) (X : Op N) : frob (X * (P - (1 / 2 : ℂ) • 1)) ≤ 1 / 4 * frob X := by
  obtain ⟨U, d, hU, hP⟩ := diag_of_herm h0.isHermitian
  have hU1 : Uᴴ * U = 1 := mul_eq_one_comm.1 hU
  have e0 : Uᴴ * P * U = diagonal fun i => ((d i : ℝ) : ℂ) := by
    have : Uᴴ * P * U = (Uᴴ * U) * diagonal (fun i => ((d i : ℝ) : ℂ)) * (Uᴴ * U) := by rw [hP]; simp only [mul_assoc]
    rw [this, hU1, one_mul, mul_one]
  have hd0 : ∀ i, 0 ≤ d i := fun i => by
    have := (h0.conjTranspose_mul_mul_same U).diag_nonneg (i := i)
    rw [e0, diagonal_apply_eq] at this
    exact_mod_cast this
  have hd1 : ∀ i, d i ≤ 1 := fun i => by
    have := (h1.conjTranspose_mul_mul_same U).diag_nonneg (i := i)
    rw [mul_sub, sub_mul, mul_one, hU1, e0, Matrix.sub_apply, one_apply_eq, diagonal_apply_eq] at this
    have h2 : (0 : ℂ) ≤ ((1 - d i : ℝ) : ℂ) := by push_cast; exact this
    have h3 : 0 ≤ 1 - d i := by exact_mod_cast h2
    linarith
  have e1 : P - (1 / 2 : ℂ) • 1 = U * diagonal (fun i => ((d i - 1 / 2 : ℝ) : ℂ)) * Uᴴ := by
    have : (diagonal (fun i => ((d i - 1 / 2 : ℝ) : ℂ)) : Op N) = diagonal (fun i => ((d i : ℝ) : ℂ)) - (1 / 2 : ℂ) • 1 := by
      rw [smul_one_eq_diagonal, diagonal_sub]
      congr 1
      funext i
      push_cast
      rfl
    rw [this, mul_sub, sub_mul, ← hP, mul_smul_comm, smul_mul_assoc, mul_one, hU]
  have h1' : (1 : Op N) * (1 : Op N)ᴴ = 1 := by simp
  have e2 : X * (P - (1 / 2 : ℂ) • 1) = (1 : Op N)ᴴ * ((X * U) * diagonal (fun i => ((d i - 1 / 2 : ℝ) : ℂ))) * Uᴴ := by
    rw [e1, conjTranspose_one, one_mul]; simp only [mul_assoc]
  have e3 : frob X = frob (X * U) := by
    have := frob_unitary h1' hU X
    rw [conjTranspose_one, one_mul] at this
    exact this.symm
  rw [e2, frob_unitary h1' (by rw [conjTranspose_conjTranspose]; exact hU1), e3, frob, frob, mul_sum]
  refine sum_le_sum fun i _ => ?_
  rw [mul_sum]
  refine sum_le_sum fun j _ => ?_
  rw [mul_diagonal, norm_mul, Complex.norm_real, Real.norm_eq_abs, mul_pow, sq_abs, mul_comm]
  refine mul_le_mul_of_nonneg_right ?_ (by positivity)
  nlinarith [hd0 j, hd1 j]

theorem conj_near {E E' P : Op N} (hE : E * Eᴴ = 1) (hE' : E' * E'ᴴ = 1) (h0 : P.PosSemidef) (h1 : (1 - P).PosSemidef) {c : ℝ} (hc : 0 ≤ c)
    (h : frob (E - E') ≤ c ^ 2) (i j : Fin N) : ‖(E * P * Eᴴ - E' * P * E'ᴴ) i j‖ ≤ c := by
  obtain ⟨M, hM⟩ : ∃ M, M = P - (1 / 2 : ℂ) • 1 := ⟨_, rfl⟩
  have hMh : Mᴴ = M := by
    rw [hM, conjTranspose_sub, h0.isHermitian.eq, conjTranspose_smul, conjTranspose_one]
    norm_num
  have e : E * P * Eᴴ - E' * P * E'ᴴ = (E - E') * M * Eᴴ + E' * ((E - E') * M)ᴴ := by
    have hP : P = M + (1 / 2 : ℂ) • 1 := by rw [hM]; abel
    have a : ∀ E : Op N, E * Eᴴ = 1 → E * P * Eᴴ = E * M * Eᴴ + (1 / 2 : ℂ) • 1 := fun E hE => by
      rw [hP, mul_add, add_mul, mul_smul_comm, smul_mul_assoc, mul_one, hE]
    rw [a E hE, a E' hE', conjTranspose_mul, hMh, conjTranspose_sub]
    noncomm_ring
  have hb : frob ((E - E') * M) ≤ (c / 2) ^ 2 := by
    have := frob_half h0 h1 (E - E')
    rw [← hM] at this
    nlinarith
  have h1' : (1 : Op N) * (1 : Op N)ᴴ = 1 := by simp
  have b1 : ‖((E - E') * M * Eᴴ) i j‖ ≤ c / 2 := by
    refine abs_le_of_sq_le_sq' ?_ (by positivity) |>.2
    refine (entry_le_frob _ i j).trans ?_
    have := frob_unitary h1' (V := Eᴴ) (by rw [conjTranspose_conjTranspose]; exact mul_eq_one_comm.1 hE) ((E - E') * M)
    rw [conjTranspose_one, one_mul] at this
    rw [this]; exact hb
  have b2 : ‖(E' * ((E - E') * M)ᴴ) i j‖ ≤ c / 2 := by
    refine abs_le_of_sq_le_sq' ?_ (by positivity) |>.2
    refine (entry_le_frob _ i j).trans ?_
    have := frob_unitary (U := E'ᴴ) (by rw [conjTranspose_conjTranspose]; exact mul_eq_one_comm.1 hE') h1' ((E - E') * M)ᴴ
    rw [conjTranspose_conjTranspose, mul_one, frob_conjTranspose] at this
    rw [this]; exact hb
  rw [e, Matrix.add_apply]
  exact (norm_add_le _ _).trans (by linarith)

theorem fermi_near {H H' : Op N} (hH : H.IsHermitian) (hH' : H'.IsHermitian) {δ : ℝ} (h : ∀ i j, ‖(H - H') i j‖ ≤ δ) :
    frob ((1 + NormedSpace.exp (-(2 : ℂ) • H))⁻¹ - (1 + NormedSpace.exp (-(2 : ℂ) • H'))⁻¹) ≤ (N * δ / 2) ^ 2 := by
  obtain ⟨U, d, hU, rfl⟩ := diag_of_herm hH
  obtain ⟨U', d', hU', rfl⟩ := diag_of_herm hH'
  have e : -(2 : ℂ) = ((-2 : ℝ) : ℂ) := by norm_num
  rw [e, fermi_conj_diag hU, fermi_conj_diag hU']
  refine (frob_lipschitz hU hU' (f := fun x => ((1 / (1 + Real.exp (-2 * x)) : ℝ) : ℂ)) (L := 1 / 2) fun x y => ?_).trans ?_
  · rw [← Complex.ofReal_sub, Complex.norm_real]
    exact fermi_lipschitz x y
  · have := frob_le h
    nlinarith

theorem expm_near {H H' : Op N} (hH : H.IsHermitian) (hH' : H'.IsHermitian) {δ : ℝ} (h : ∀ i j, ‖(H - H') i j‖ ≤ δ) (t : ℝ) :
    frob (expm ((-2 * Complex.I * t) • H) - expm ((-2 * Complex.I * t) • H')) ≤ (2 * |t| * (N * δ)) ^ 2 := by
  obtain ⟨U, d, hU, rfl⟩ := diag_of_herm hH
  obtain ⟨U', d', hU', rfl⟩ := diag_of_herm hH'
  rw [expm, expm, exp_conj_diag hU, exp_conj_diag hU']
  refine (frob_lipschitz hU hU' (f := fun x => Complex.exp (-2 * Complex.I * t * x)) (L := 2 * |t|) fun x y => phase_lipschitz t x y).trans ?_
  rw [mul_pow (2 * |t|)]
  exact mul_le_mul_of_nonneg_left (frob_le h) (by positivity)

end FF
