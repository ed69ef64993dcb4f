import Verif.Model.Eigen
import Verif.Spec.Eigen
import Verif.Proofs.Coefficients4
import Verif.Proofs.Utils

/-! # Helper lemmas for the eigensolvers -/

namespace FF

open Matrix
open scoped ComplexConjugate

/-! ## real arrays -/

section toC
variable {m k l : ℕ}

theorem toC_apply (M : Matrix (Fin m) (Fin k) ℝ) (i j) : toC M i j = (M i j : ℂ) := rfl

theorem toC_mul (M : Matrix (Fin m) (Fin k) ℝ) (N : Matrix (Fin k) (Fin l) ℝ) :
    toC (M * N) = toC M * toC N := by
  ext i j; simp [toC, mul_apply]

theorem toC_transpose (M : Matrix (Fin m) (Fin k) ℝ) : (toC M)ᵀ = toC Mᵀ := rfl

theorem toC_conjTranspose (M : Matrix (Fin m) (Fin k) ℝ) : (toC M)ᴴ = toC Mᵀ := by
  ext i j; simp [toC]

theorem toC_one : toC (1 : RMat m) = 1 := by
  ext i j; simp only [toC, map_apply, Matrix.one_apply]; split_ifs <;> simp

theorem toC_neg (M : Matrix (Fin m) (Fin k) ℝ) : toC (-M) = -toC M := by
  ext i j; simp [toC]

theorem toC_injective : Function.Injective (toC (m := m) (k := k)) := by
  intro M N h
  ext i j
  have := congrFun (congrFun h i) j
  exact Complex.ofReal_injective this

theorem cj_toC (M : Matrix (Fin m) (Fin k) ℝ) : cj (toC M) = toC M := by
  ext i j; simp [toC, cj]

theorem reArr_toC (M : Matrix (Fin m) (Fin k) ℝ) : reArr (toC M) = M := by
  ext i j; simp [toC, reArr]

theorem toC_reArr {M : Matrix (Fin m) (Fin k) ℂ} (h : cj M = M) : toC (reArr M) = M := by
  ext i j
  have := congrFun (congrFun h i) j
  simp only [cj, map_apply] at this
  simp only [toC, reArr, map_apply]
  exact Complex.conj_eq_iff_re.1 this

theorem cj_mul (M : Matrix (Fin m) (Fin k) ℂ) (N : Matrix (Fin k) (Fin l) ℂ) : cj (M * N) = cj M * cj N := by
  ext i j; simp [cj, mul_apply]

theorem cj_cj (M : Matrix (Fin m) (Fin k) ℂ) : cj (cj M) = M := by
  ext i j; simp [cj]

theorem cj_smul (c : ℂ) (M : Matrix (Fin m) (Fin k) ℂ) : cj (c • M) = conj c • cj M := by
  ext i j; simp [cj]

end toC

/-! ## conjugation of Omega -/

theorem cj_omega (n : ℕ) : cj (buildOmega n) = buildOmega n * swapS n := by
  simp only [buildOmega, swapS, blk_mul]
  ext x y
  refine Fin.addCases (fun i => ?_) (fun i => ?_) x <;>
    refine Fin.addCases (fun j => ?_) (fun j => ?_) y <;>
    simp only [cj, map_apply, blk_11, blk_12, blk_21, blk_22, Matrix.smul_apply, Matrix.one_apply] <;>
    by_cases h : i = j <;> simp [h, nu_conj]

theorem cj_omega_dag (n : ℕ) : cj (buildOmega n)ᴴ = swapS n * (buildOmega n)ᴴ := by
  have h : cj (buildOmega n)ᴴ = (cj (buildOmega n))ᴴ := rfl
  rw [h, cj_omega, conjTranspose_mul, swapS_conjTranspose]

theorem cj_swapS (n : ℕ) : cj (swapS n) = swapS n := by
  have : cj (swapS n) = (swapS n)ᴴᵀ := by ext; rfl
  rw [this, swapS_conjTranspose, swapS_transpose]

/-- Matrices of the form `[[s, t*], [t, s*]]`. -/
def IsCanonicalU {n : ℕ} (U : Op (n + n)) : Prop := swapS n * cj U * swapS n = U

theorem canonicalU_mul {n : ℕ} {U V : Op (n + n)} (hU : IsCanonicalU U) (hV : IsCanonicalU V) :
    IsCanonicalU (U * V) := by
  unfold IsCanonicalU at *
  calc swapS n * cj (U * V) * swapS n
      = (swapS n * cj U * swapS n) * (swapS n * cj V * swapS n) := by
        rw [cj_mul]
        have : swapS n * cj U * swapS n * (swapS n * cj V * swapS n) =
            swapS n * cj U * (swapS n * swapS n) * cj V * swapS n := by simp only [mul_assoc]
        rw [this, swapS_sq, mul_one, ← mul_assoc (swapS n)]
    _ = U * V := by rw [hU, hV]

/-- A real matrix conjugated by Omega. -/
theorem canonicalU_omega {n : ℕ} (O : RMat (n + n)) :
    IsCanonicalU ((buildOmega n)ᴴ * toC O * buildOmega n) := by
  unfold IsCanonicalU
  rw [cj_mul, cj_mul, cj_omega, cj_omega_dag, cj_toC]
  have : swapS n * (swapS n * (buildOmega n)ᴴ * toC O * (buildOmega n * swapS n)) * swapS n =
      (swapS n * swapS n) * (buildOmega n)ᴴ * toC O * buildOmega n * (swapS n * swapS n) := by
    simp only [mul_assoc]
  rw [this, swapS_sq, one_mul, mul_one]

theorem canonicalU_entries {n : ℕ} {U : Op (n + n)} (hU : IsCanonicalU U) (x y : Fin (n + n)) :
    U (fl x) (fl y) = conj (U x y) := by
  conv_lhs => rw [← hU]
  rw [mul_swapS, swapS_mul, fl_fl, fl_fl]
  rfl

/-- Symplectic and unitary follow from canonical and unitary. -/
theorem symp_of_canonical {n : ℕ} {U : Op (n + n)} (hU : IsCanonicalU U) (h1 : U * Uᴴ = 1) :
    Spec.IsSymplectic U := by
  rw [symp_iff]
  have h2 : Uᵀ = swapS n * Uᴴ * swapS n := by
    have := congrArg (fun M => Mᵀ) hU
    simp only [transpose_mul, swapS_transpose] at this
    rw [← this]
    rw [show (cj U)ᵀ = Uᴴ from rfl, mul_assoc]
  rw [h2]
  calc U * swapS n * (swapS n * Uᴴ * swapS n) = U * (swapS n * swapS n) * Uᴴ * swapS n := by
        simp only [mul_assoc]
    _ = swapS n := by rw [swapS_sq, mul_one, h1, one_mul]

/-! ## the phases -/

theorem phasesU_norm {m : ℕ} (U : Op m) (i : Fin m) : conj (phasesU U i) * phasesU U i = 1 := by
  rw [phasesU]
  split_ifs with h
  · have h0 : (‖conj (U i i)‖ : ℂ) ≠ 0 := by
      have : 0 < ‖conj (U i i)‖ := lt_trans (by norm_num) h
      exact_mod_cast this.ne'
    have h1 : conj (conj (U i i)) * conj (U i i) = (‖conj (U i i)‖ : ℂ) ^ 2 := by
      rw [Complex.conj_mul']
    rw [map_div₀, Complex.conj_ofReal, div_mul_div_comm, h1]
    field_simp
  · simp

theorem phases_unitary {m : ℕ} (U : Op m) : (diagonal (phasesU U)) * (diagonal (phasesU U))ᴴ = 1 := by
  rw [diagonal_conjTranspose, diagonal_mul_diagonal, ← diagonal_one]
  congr 1
  funext i
  rw [mul_comm]
  exact phasesU_norm U i

theorem canonicalU_phases {n : ℕ} {U : Op (n + n)} (hU : IsCanonicalU U) :
    IsCanonicalU (diagonal (phasesU U)) := by
  unfold IsCanonicalU
  ext x y
  rw [mul_swapS, swapS_mul]
  have hp : conj (phasesU U (fl x)) = phasesU U x := by
    simp only [phasesU]
    rw [canonicalU_entries hU]
    simp only [Complex.conj_conj, RCLike.norm_conj]
    split_ifs
    · simp
    · simp
  simp only [cj, map_apply, diagonal_apply]
  by_cases h : x = y
  · subst h; simpa using hp
  · have : fl x ≠ fl y := fun e => h (by rw [← fl_fl x, e, fl_fl])
    simp [h, this]

/-! ## the Majorana form -/

theorem ih_facts {n : ℕ} {H : Op (n + n)} (hH : H.IsHermitian) (hP : swapS n * Hᵀ * swapS n = -H) :
    ∃ M : RMat (n + n), Mᵀ = -M ∧ Complex.I • buildOmega n * H * (buildOmega n)ᴴ = toC M := by
  set N := Complex.I • buildOmega n * H * (buildOmega n)ᴴ with hN
  have hN' : N = Complex.I • (buildOmega n * H * (buildOmega n)ᴴ) := by
    rw [hN, Matrix.smul_mul, Matrix.smul_mul]
  have hcH : cj H = Hᵀ := by
    have : cj H = Hᴴᵀ := by ext; rfl
    rw [this, hH.eq]
  have hc : cj N = N := by
    rw [hN', cj_smul, cj_mul, cj_mul, cj_omega, cj_omega_dag, hcH]
    have : buildOmega n * swapS n * Hᵀ * (swapS n * (buildOmega n)ᴴ) =
        buildOmega n * (swapS n * Hᵀ * swapS n) * (buildOmega n)ᴴ := by simp only [mul_assoc]
    rw [this, hP, Complex.conj_I, Matrix.mul_neg, Matrix.neg_mul, smul_neg, neg_smul, neg_neg]
  have hs : Nᴴ = -N := by
    rw [hN', conjTranspose_smul, conjTranspose_mul, conjTranspose_mul, conjTranspose_conjTranspose, hH.eq]
    simp [mul_assoc]
  refine ⟨reArr N, ?_, (toC_reArr hc).symm⟩
  apply toC_injective
  rw [← toC_transpose, toC_neg, toC_reArr hc]
  have : Nᵀ = cj Nᴴ := by ext i j; simp [cj]
  rw [this, hs]
  have : cj (-N) = - cj N := by ext i j; simp [cj]
  rw [this, hc]

/-- The reordering matrix as a real array. -/
noncomputable def rReord (n : ℕ) : RMat (n + n) := Matrix.of fun x y => if y = reord n x then 1 else 0

theorem toC_rReord (n : ℕ) : toC (rReord n) = buildReordering n := by
  ext x y
  rw [reordering_apply, toC_apply, rReord, of_apply]
  split_ifs <;> simp

theorem rReord_orth (n : ℕ) : rReord n * (rReord n)ᵀ = 1 := by
  apply toC_injective
  rw [toC_mul, ← toC_transpose, toC_rReord, reordering_mul_transpose, toC_one]

theorem rReord_conj {n : ℕ} (R : RMat (n + n)) (x y : Fin (n + n)) :
    (rReord n * R * (rReord n)ᵀ) x y = R (reord n x) (reord n y) := by
  have h1 (M : RMat (n + n)) (x y) : (rReord n * M) x y = M (reord n x) y := by
    rw [mul_apply, Finset.sum_eq_single (reord n x)]
    · simp [rReord]
    · intro b _ hb; simp [rReord, hb]
    · simp
  rw [mul_apply, Finset.sum_eq_single (reord n y)]
  · rw [h1]; simp [rReord]
  · intro b _ hb; simp [rReord, hb]
  · simp

theorem omega_dag_eq (n : ℕ) : (buildOmega n)ᴴ = blk (nu • 1) ((-Complex.I * nu) • 1) (nu • 1)
    ((Complex.I * nu) • 1) := by
  rw [buildOmega, blk_conjTranspose]
  apply blk_congr <;> simp [conjTranspose_smul, nu_conj]

theorem omega_conj_entries {n : ℕ} (a b c d : Op n) :
    (-Complex.I) • ((buildOmega n)ᴴ * blk a b c d * buildOmega n) =
      (1 / 2 : ℂ) • blk (b - c - Complex.I • (a + d)) (-b - c - Complex.I • (a - d))
        (b + c - Complex.I • (a - d)) (c - b - Complex.I • (a + d)) := by
  rw [omega_dag_eq, buildOmega, blk_mul, blk_mul, blk_smul, blk_smul]
  have h : nu ^ 2 = 1 / 2 := by rw [pow_two, nu_sq]
  have hI := Complex.I_sq
  have hI3 := Complex.I_pow_three
  apply blk_congr <;> ext i j <;>
    simp only [Matrix.smul_mul, Matrix.mul_smul, Matrix.one_mul, Matrix.mul_one, Matrix.smul_apply,
      Matrix.add_apply, Matrix.sub_apply, Matrix.neg_apply, smul_eq_mul] <;>
    ring_nf <;> simp only [h, hI, hI3] <;> ring

theorem finish_eq {n : ℕ} {H : Op (n + n)} {ih O R : RMat (n + n)} (hO : O * Oᵀ = 1)
    (hih : Complex.I • buildOmega n * H * (buildOmega n)ᴴ = toC ih) (hR : O * R * Oᵀ = ih) :
    ∃ d : Fin (n + n) → ℂ, (∀ i, conj (d i) * d i = 1) ∧
      (eighFinish H O).2 * (eighFinish H O).2ᴴ = 1 ∧ IsCanonicalU (eighFinish H O).2 ∧
      (eighFinish H O).1 = (eighFinish H O).2ᴴ * H * (eighFinish H O).2 ∧
      (eighFinish H O).1 = (diagonal d)ᴴ *
        ((-Complex.I) • ((buildOmega n)ᴴ * toC (rReord n * R * (rReord n)ᵀ) * buildOmega n)) * diagonal d := by
  set W := buildOmega n with hW
  have hWW : Wᴴ * W = 1 := omega_unitary n
  have hWW' : W * Wᴴ = 1 := omega_unitary' n
  set U0 := Wᴴ * toC O * W * (buildK n)ᴴ with hU0
  have hU0' : U0 = Wᴴ * toC (O * (rReord n)ᵀ) * W := by
    rw [hU0, buildK_eq, conjTranspose_mul, conjTranspose_mul, conjTranspose_conjTranspose, reordering_real,
      ← toC_rReord, toC_transpose, toC_mul]
    have : Wᴴ * toC O * W * (Wᴴ * (toC (rReord n)ᵀ * W)) = Wᴴ * toC O * (W * Wᴴ) * toC (rReord n)ᵀ * W := by
      simp only [mul_assoc]
    rw [← hW, this, hWW', mul_one, ← mul_assoc Wᴴ]
  have hcan : IsCanonicalU U0 := by rw [hU0']; exact canonicalU_omega _
  set D := diagonal (phasesU U0) with hD
  have hfin : (eighFinish H O).2 = U0 * D := rfl
  have hfin1 : (eighFinish H O).1 = (U0 * D)ᴴ * H * (U0 * D) := rfl
  have hQ : (O * (rReord n)ᵀ) * (O * (rReord n)ᵀ)ᵀ = 1 := by
    rw [transpose_mul, transpose_transpose]
    have h1 : (rReord n)ᵀ * rReord n = 1 := mul_eq_one_comm.1 (rReord_orth n)
    calc O * (rReord n)ᵀ * (rReord n * Oᵀ) = O * ((rReord n)ᵀ * rReord n) * Oᵀ := by
          simp only [mul_assoc]
      _ = 1 := by rw [h1, mul_one, hO]
  have hU0U : U0 * U0ᴴ = 1 := by
    rw [hU0', conjTranspose_mul, conjTranspose_mul, conjTranspose_conjTranspose, toC_conjTranspose]
    calc Wᴴ * toC (O * (rReord n)ᵀ) * W * (Wᴴ * (toC (O * (rReord n)ᵀ)ᵀ * W))
        = Wᴴ * toC (O * (rReord n)ᵀ) * (W * Wᴴ) * toC (O * (rReord n)ᵀ)ᵀ * W := by simp only [mul_assoc]
      _ = 1 := by rw [hWW', mul_one, mul_assoc Wᴴ, ← toC_mul, hQ, toC_one, mul_one, hWW]
  refine ⟨phasesU U0, phasesU_norm U0, ?_, ?_, ?_, ?_⟩
  · rw [hfin, conjTranspose_mul]
    calc U0 * D * (Dᴴ * U0ᴴ) = U0 * (D * Dᴴ) * U0ᴴ := by simp only [mul_assoc]
      _ = 1 := by rw [hD, phases_unitary, mul_one, hU0U]
  · rw [hfin]; exact canonicalU_mul hcan (canonicalU_phases hcan)
  · rw [hfin, hfin1]
  · rw [hfin1, conjTranspose_mul]
    have hmid : U0ᴴ * H * U0 = (-Complex.I) • (Wᴴ * toC (rReord n * R * (rReord n)ᵀ) * W) := by
      have hHih : W * H * Wᴴ = (-Complex.I) • toC ih := by
        rw [← hih, Matrix.smul_mul, Matrix.smul_mul, smul_smul]; simp
      have hRih : Oᵀ * ih * O = R := by
        rw [← hR]
        have h1 : Oᵀ * O = 1 := mul_eq_one_comm.1 hO
        calc Oᵀ * (O * R * Oᵀ) * O = (Oᵀ * O) * R * (Oᵀ * O) := by simp only [mul_assoc]
          _ = R := by rw [h1, one_mul, mul_one]
      rw [hU0', conjTranspose_mul, conjTranspose_mul, conjTranspose_conjTranspose, toC_conjTranspose]
      calc Wᴴ * (toC (O * (rReord n)ᵀ)ᵀ * W) * H * (Wᴴ * toC (O * (rReord n)ᵀ) * W)
          = Wᴴ * toC (O * (rReord n)ᵀ)ᵀ * (W * H * Wᴴ) * toC (O * (rReord n)ᵀ) * W := by
            simp only [mul_assoc]
        _ = (-Complex.I) • (Wᴴ * toC ((O * (rReord n)ᵀ)ᵀ * ih * (O * (rReord n)ᵀ)) * W) := by
            generalize O * (rReord n)ᵀ = X
            rw [hHih, toC_mul, toC_mul]
            simp only [Matrix.mul_smul, Matrix.smul_mul, mul_assoc]
        _ = _ := by
            congr 4
            rw [transpose_mul, transpose_transpose]
            calc rReord n * Oᵀ * ih * (O * (rReord n)ᵀ) = rReord n * (Oᵀ * ih * O) * (rReord n)ᵀ := by
                  simp only [mul_assoc]
              _ = _ := by rw [hRih]
    calc Dᴴ * U0ᴴ * H * (U0 * D) = Dᴴ * (U0ᴴ * H * U0) * D := by simp only [mul_assoc]
      _ = _ := by rw [hmid]

theorem finish_form {n : ℕ} {H : Op (n + n)} {ih O R : RMat (n + n)} (hO : O * Oᵀ = 1)
    (hih : Complex.I • buildOmega n * H * (buildOmega n)ᴴ = toC ih) (hR : O * R * Oᵀ = ih)
    (hs : Rᵀ = -R) (ε : ℝ) (hε : ∀ x y : Fin (n + n), (x : ℕ) / 2 ≠ (y : ℕ) / 2 → |R x y| ≤ ε)
    (x y : Fin (n + n)) (hε0 : 0 ≤ ε) :
    ‖(eighFinish H O).1 x y - Spec.standardForm (fun i : Fin n => - R ⟨2 * i, by omega⟩ ⟨2 * i + 1, by omega⟩) x y‖
      ≤ 2 * ε := by
  obtain ⟨d, hd, -, -, -, hL⟩ := finish_eq hO hih hR
  set N := rReord n * R * (rReord n)ᵀ with hN
  have hNe : ∀ x y, N x y = R (reord n x) (reord n y) := rReord_conj R
  have hskew : ∀ x y, R x y = - R y x := fun x y => by
    have := congrFun (congrFun hs y) x
    simpa using this
  obtain ⟨a, b, c, e, hblk⟩ := exists_blk (toC N)
  have ha : ∀ i j, a i j = (N (Fin.castAdd n i) (Fin.castAdd n j) : ℂ) := fun i j => by
    rw [← toC_apply, hblk, blk_11]
  have hb : ∀ i j, b i j = (N (Fin.castAdd n i) (Fin.natAdd n j) : ℂ) := fun i j => by
    rw [← toC_apply, hblk, blk_12]
  have hc : ∀ i j, c i j = (N (Fin.natAdd n i) (Fin.castAdd n j) : ℂ) := fun i j => by
    rw [← toC_apply, hblk, blk_21]
  have he : ∀ i j, e i j = (N (Fin.natAdd n i) (Fin.natAdd n j) : ℂ) := fun i j => by
    rw [← toC_apply, hblk, blk_22]
  have hdn : ∀ i, ‖d i‖ = 1 := fun i => by
    have h1 := congrArg norm (hd i)
    rw [norm_mul, RCLike.norm_conj, norm_one] at h1
    nlinarith [norm_nonneg (d i)]
  set Q := (-Complex.I) • ((buildOmega n)ᴴ * toC N * buildOmega n) with hQ
  have hLe : ∀ x y, (eighFinish H O).1 x y = conj (d x) * Q x y * d y := fun x y => by
    rw [hL, mul_diagonal, diagonal_conjTranspose, diagonal_mul]; rfl
  have hQe : Q = (1 / 2 : ℂ) • blk (b - c - Complex.I • (a + e)) (-b - c - Complex.I • (a - e))
        (b + c - Complex.I • (a - e)) (c - b - Complex.I • (a + e)) := by
    rw [hQ, hblk, omega_conj_entries]
  -- off-diagonal entries and the diagonal
  have hdiag : ∀ x, Q x x = Spec.standardForm
      (fun i : Fin n => - R ⟨2 * i, by omega⟩ ⟨2 * i + 1, by omega⟩) x x := by
    intro x
    refine Fin.addCases (fun i => ?_) (fun i => ?_) x
    · rw [hQe, Spec.standardForm, diagonal_apply_eq, Fin.append_left, Matrix.smul_apply, blk_11]
      simp only [Matrix.sub_apply, Matrix.smul_apply, Matrix.add_apply, ha, hb, hc, he, hNe, reord_left,
        reord_right, smul_eq_mul]
      have h0 := hskew ⟨2 * i, by omega⟩ ⟨2 * i, by omega⟩
      have h1 := hskew ⟨2 * i + 1, by omega⟩ ⟨2 * i + 1, by omega⟩
      have h2 := hskew ⟨2 * i + 1, by omega⟩ ⟨2 * i, by omega⟩
      rw [show R ⟨2 * i, by omega⟩ ⟨2 * i, by omega⟩ = 0 by linarith,
        show R ⟨2 * i + 1, by omega⟩ ⟨2 * i + 1, by omega⟩ = 0 by linarith, h2]
      push_cast; ring
    · rw [hQe, Spec.standardForm, diagonal_apply_eq, Fin.append_right, Matrix.smul_apply, blk_22]
      simp only [Matrix.sub_apply, Matrix.smul_apply, Matrix.add_apply, ha, hb, hc, he, hNe, reord_left,
        reord_right, smul_eq_mul]
      have h0 := hskew ⟨2 * i, by omega⟩ ⟨2 * i, by omega⟩
      have h1 := hskew ⟨2 * i + 1, by omega⟩ ⟨2 * i + 1, by omega⟩
      have h2 := hskew ⟨2 * i + 1, by omega⟩ ⟨2 * i, by omega⟩
      rw [show R ⟨2 * i, by omega⟩ ⟨2 * i, by omega⟩ = 0 by linarith,
        show R ⟨2 * i + 1, by omega⟩ ⟨2 * i + 1, by omega⟩ = 0 by linarith, h2]
      push_cast; ring
  have hsmall : ∀ i j : Fin n, i ≠ j → ‖a i j‖ ≤ ε ∧ ‖b i j‖ ≤ ε ∧ ‖c i j‖ ≤ ε ∧ ‖e i j‖ ≤ ε := by
    intro i j hij
    have hij' : (i : ℕ) ≠ j := fun h => hij (Fin.ext h)
    simp only [ha, hb, hc, he, hNe, reord_left, reord_right, Complex.norm_real, Real.norm_eq_abs]
    refine ⟨hε _ _ ?_, hε _ _ ?_, hε _ _ ?_, hε _ _ ?_⟩ <;> simp only <;> omega
  have hdd : ∀ i j : Fin n, i = j → a i j = 0 ∧ e i j = 0 ∧ b i j + c i j = 0 := by
    rintro i j rfl
    simp only [ha, hb, hc, he, hNe, reord_left, reord_right]
    have h0 := hskew ⟨2 * i, by omega⟩ ⟨2 * i, by omega⟩
    have h1 := hskew ⟨2 * i + 1, by omega⟩ ⟨2 * i + 1, by omega⟩
    have h2 := hskew ⟨2 * i + 1, by omega⟩ ⟨2 * i, by omega⟩
    refine ⟨?_, ?_, ?_⟩
    · exact_mod_cast (by linarith : R ⟨2 * i, by omega⟩ ⟨2 * i, by omega⟩ = 0)
    · exact_mod_cast (by linarith : R ⟨2 * i + 1, by omega⟩ ⟨2 * i + 1, by omega⟩ = 0)
    · rw [h2]; push_cast; ring
  have hfour : ∀ p q r s : ℂ, ‖p‖ ≤ ε → ‖q‖ ≤ ε → ‖r‖ ≤ ε → ‖s‖ ≤ ε →
      ‖(1 / 2 : ℂ) * (p + q + Complex.I * (r + s))‖ ≤ 2 * ε := by
    intro p q r s hp hq hr hs
    rw [norm_mul]
    have h1 : ‖p + q + Complex.I * (r + s)‖ ≤ (‖p‖ + ‖q‖) + (‖r‖ + ‖s‖) := by
      refine (norm_add_le _ _).trans (add_le_add (norm_add_le _ _) ?_)
      rw [norm_mul, Complex.norm_I, one_mul]; exact norm_add_le _ _
    have h2 : ‖(1 / 2 : ℂ)‖ = 1 / 2 := by norm_num
    rw [h2]; linarith
  have hoff : ∀ x y, x ≠ y → ‖Q x y‖ ≤ 2 * ε := by
    intro x y
    refine Fin.addCases (fun i => ?_) (fun i => ?_) x <;>
      refine Fin.addCases (fun j => ?_) (fun j => ?_) y <;> intro hxy <;>
      rw [hQe, Matrix.smul_apply, smul_eq_mul] <;>
      simp only [blk_11, blk_12, blk_21, blk_22, Matrix.sub_apply, Matrix.add_apply, Matrix.neg_apply,
        Matrix.smul_apply, smul_eq_mul]
    · have hij : i ≠ j := fun h => hxy (by rw [h])
      obtain ⟨h1, h2, h3, h4⟩ := hsmall i j hij
      have := hfour (b i j) (-c i j) (-a i j) (-e i j) h2 (by rwa [norm_neg]) (by rwa [norm_neg]) (by rwa [norm_neg])
      convert this using 3; ring
    · by_cases hij : i = j
      · obtain ⟨h1, h2, h3⟩ := hdd i j hij
        rw [h1, h2, show -b i j - c i j - Complex.I * (0 - 0) = -(b i j + c i j) by ring, h3]
        simp; exact hε0
      · obtain ⟨h1, h2, h3, h4⟩ := hsmall i j hij
        have := hfour (-b i j) (-c i j) (-a i j) (e i j) (by rwa [norm_neg]) (by rwa [norm_neg]) (by rwa [norm_neg]) h4
        convert this using 3; ring
    · by_cases hij : i = j
      · obtain ⟨h1, h2, h3⟩ := hdd i j hij
        rw [h1, h2, show b i j + c i j - Complex.I * (0 - 0) = (b i j + c i j) by ring, h3]
        simp; exact hε0
      · obtain ⟨h1, h2, h3, h4⟩ := hsmall i j hij
        have := hfour (b i j) (c i j) (-a i j) (e i j) h2 h3 (by rwa [norm_neg]) h4
        convert this using 3; ring
    · have hij : i ≠ j := fun h => hxy (by rw [h])
      obtain ⟨h1, h2, h3, h4⟩ := hsmall i j hij
      have := hfour (c i j) (-b i j) (-a i j) (-e i j) h3 (by rwa [norm_neg]) (by rwa [norm_neg]) (by rwa [norm_neg])
      convert this using 3; ring
  rw [hLe]
  by_cases hxy : x = y
  · subst hxy
    rw [mul_right_comm, hd, one_mul, hdiag, sub_self, norm_zero]; positivity
  · rw [Spec.standardForm, diagonal_apply_ne _ hxy, sub_zero, norm_mul, norm_mul, RCLike.norm_conj, hdn, hdn,
      one_mul, mul_one]
    exact hoff x y hxy

end FF
