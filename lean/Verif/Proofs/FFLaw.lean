import Verif.Proofs.HaarNull
import Verif.Proofs.LogRot
import Verif.Proofs.LogExists
import Verif.Proofs.Span
import Verif.Proofs.Reach
import Mathlib.Analysis.InnerProductSpace.PiL2

/-! # Unitaries that perform orbital rotations: existence, continuity, stability -/

namespace FF

open Matrix MeasureTheory Spec
open scoped ComplexConjugate

/-! ## norms -/

theorem vnorm_toLp {d : ℕ} (v : Fin d → ℂ) : vnorm v = ‖(WithLp.toLp 2 v : EuclideanSpace ℂ (Fin d))‖ := by
  rw [EuclideanSpace.norm_eq]
  rfl

theorem vnorm_add_le {d : ℕ} (v w : Fin d → ℂ) : vnorm (v + w) ≤ vnorm v + vnorm w := by
  rw [vnorm_toLp, vnorm_toLp, vnorm_toLp, WithLp.toLp_add]
  exact norm_add_le _ _

theorem vnorm_smul {d : ℕ} (c : ℂ) (v : Fin d → ℂ) : vnorm (c • v) = ‖c‖ * vnorm v := by
  rw [vnorm_toLp, vnorm_toLp, WithLp.toLp_smul, norm_smul]

theorem vnorm_sum_le {d : ℕ} {ι : Type} (s : Finset ι) (f : ι → Fin d → ℂ) : vnorm (∑ i ∈ s, f i) ≤ ∑ i ∈ s, vnorm (f i) := by
  classical
  induction s using Finset.induction_on with
  | empty => simp [vnorm]
  | insert a s ha ih =>
    rw [Finset.sum_insert ha, Finset.sum_insert ha]
    exact (vnorm_add_le _ _).trans (add_le_add_right ih _)

theorem inner_le_vnorm {d : ℕ} (x y : Fin d → ℂ) : ‖Spec.inner x y‖ ≤ vnorm x * vnorm y := by
  have h : Spec.inner x y = inner ℂ (WithLp.toLp 2 x : EuclideanSpace ℂ (Fin d)) (WithLp.toLp 2 y) := by
    rw [PiLp.inner_apply, Spec.inner]
    exact Finset.sum_congr rfl fun i _ => by simp [mul_comm]
  rw [h, vnorm_toLp, vnorm_toLp]
  exact norm_inner_le_norm _ _

theorem vnorm_sq {d : ℕ} (v : Fin d → ℂ) : vnorm v ^ 2 = ∑ i, ‖v i‖ ^ 2 := by
  rw [vnorm, Real.sq_sqrt (Finset.sum_nonneg fun i _ => by positivity)]

theorem vnorm_unitary {d : ℕ} {U : Op d} (hU : Uᴴ * U = 1) (v : Fin d → ℂ) : vnorm (U *ᵥ v) = vnorm v := by
  have h := inner_unitary hU v v
  rw [inner_self_vnorm, inner_self_vnorm] at h
  have h' : vnorm (U *ᵥ v) ^ 2 = vnorm v ^ 2 := by exact_mod_cast h
  exact (sq_eq_sq₀ (Real.sqrt_nonneg _) (Real.sqrt_nonneg _)).1 h'

/-- `‖exp(A) v - exp(B) v‖ ≤ ‖A - B‖ ‖v‖` for skew-Hermitian matrices. -/
theorem expm_close {d : ℕ} {A B : Op d} (hA : Aᴴ = -A) (hB : Bᴴ = -B) {δ : ℝ} (hδ : ∀ x, vnorm ((A - B) *ᵥ x) ≤ δ * vnorm x)
    (v : Fin d → ℂ) : vnorm (expm A *ᵥ v - expm B *ᵥ v) ≤ δ * vnorm v := by
  have hsk : ∀ (t : ℝ) {M : Op d}, Mᴴ = -M → ((t : ℂ) • M)ᴴ = -((t : ℂ) • M) := by
    intro t M hM
    rw [conjTranspose_smul, hM]
    simp
  have hun : ∀ (t : ℝ) {M : Op d}, Mᴴ = -M → (expm ((t : ℂ) • M))ᴴ * expm ((t : ℂ) • M) = 1 := fun t M hM =>
    mul_eq_one_comm.1 (expm_unitary (hsk t hM))
  set w := expm A *ᵥ v - expm B *ᵥ v with hw
  have hpair : ∀ M : Op d, Spec.inner w (M *ᵥ v) = ∑ k, ∑ l, star (w k) * v l * M k l := by
    intro M
    simp only [Spec.inner, mulVec, dotProduct, Finset.mul_sum]
    exact Finset.sum_congr rfl fun k _ => Finset.sum_congr rfl fun l _ => by ring
  have hder : ∀ t : ℝ, HasDerivAt (fun t : ℝ => Spec.inner w ((expm ((t : ℂ) • A) * expm (((1 - t : ℝ) : ℂ) • B)) *ᵥ v))
      (Spec.inner w ((expm ((t : ℂ) • A) * (A - B) * expm (((1 - t : ℝ) : ℂ) • B)) *ᵥ v)) t := by
    intro t
    simp only [hpair]
    exact HasDerivAt.fun_sum fun k _ => HasDerivAt.fun_sum fun l _ => (expm_deriv A B t k l).const_mul _
  have hb : ∀ t ∈ Set.Ico (0 : ℝ) 1, ‖Spec.inner w ((expm ((t : ℂ) • A) * (A - B) * expm (((1 - t : ℝ) : ℂ) • B)) *ᵥ v)‖ ≤
      vnorm w * (δ * vnorm v) := by
    intro t _
    refine (inner_le_vnorm _ _).trans (mul_le_mul_of_nonneg_left ?_ (Real.sqrt_nonneg _))
    rw [mul_assoc, ← mulVec_mulVec, vnorm_unitary (hun t hA), ← mulVec_mulVec]
    refine (hδ _).trans ?_
    rw [vnorm_unitary (hun (1 - t) hB)]
  have h := norm_image_sub_le_of_norm_deriv_le_segment_01' (fun t _ => (hder t).hasDerivWithinAt) hb
  have e0 : expm (0 : Op d) = 1 := NormedSpace.exp_zero
  have e1 : Spec.inner w (expm A *ᵥ v) - Spec.inner w (expm B *ᵥ v) = Spec.inner w w := by
    have e2 : Spec.inner w (expm A *ᵥ v - expm B *ᵥ v) = Spec.inner w (expm A *ᵥ v) - Spec.inner w (expm B *ᵥ v) := by
      simp only [Spec.inner, Pi.sub_apply, mul_sub, Finset.sum_sub_distrib]
    rw [← e2]
  simp only [Complex.ofReal_one, one_smul, sub_self, Complex.ofReal_zero, zero_smul, e0, mul_one, sub_zero, one_mul, e1] at h
  rw [inner_self_vnorm] at h
  have h2 : vnorm w * vnorm w ≤ vnorm w * (δ * vnorm v) := by
    rw [← Complex.ofReal_pow, Complex.norm_real, Real.norm_eq_abs, abs_of_nonneg (by positivity), sq] at h
    exact h
  rcases (Real.sqrt_nonneg _ : 0 ≤ vnorm w).eq_or_lt with h0 | h0
  · have := hδ v
    have h3 : 0 ≤ vnorm ((A - B) *ᵥ v) := Real.sqrt_nonneg _
    change (0 : ℝ) = vnorm w at h0
    rw [← h0]
    exact h3.trans this
  · exact le_of_mul_le_mul_left h2 h0

theorem al_contract {n : ℕ} (k : Fin (n + n)) (x : Fin (2 ^ n) → ℂ) : vnorm (al n k *ᵥ x) ≤ vnorm x := by
  have h1 : Spec.inner (al n k *ᵥ x) (al n k *ᵥ x) + Spec.inner (al n (fl k) *ᵥ x) (al n (fl k) *ᵥ x) = Spec.inner x x := by
    rw [inner_mul_left, inner_mul_left, ← inner_add_right, al_conjTranspose, al_conjTranspose, fl_fl, mulVec_mulVec, mulVec_mulVec, ← add_mulVec,
      al_anticomm, swapS_apply, if_pos (fl_fl k).symm, one_smul, one_mulVec]
  rw [inner_self_vnorm, inner_self_vnorm, inner_self_vnorm] at h1
  have h2 : vnorm (al n k *ᵥ x) ^ 2 + vnorm (al n (fl k) *ᵥ x) ^ 2 = vnorm x ^ 2 := by exact_mod_cast h1
  have h3 : vnorm (al n k *ᵥ x) ^ 2 ≤ vnorm x ^ 2 := by nlinarith [sq_nonneg (vnorm (al n (fl k) *ᵥ x))]
  exact (sq_le_sq₀ (Real.sqrt_nonneg _) (Real.sqrt_nonneg _)).1 h3

theorem quad_bound {n : ℕ} {R : Op (n + n)} {ε : ℝ} (h : ∀ i j, ‖R i j‖ ≤ ε) (x : Fin (2 ^ n) → ℂ) :
    vnorm (Spec.quad R (al n) *ᵥ x) ≤ 4 * n ^ 2 * ε * vnorm x := by
  have hx : 0 ≤ vnorm x := Real.sqrt_nonneg _
  have h1 : Spec.quad R (al n) *ᵥ x = ∑ p : Fin (n + n) × Fin (n + n), R p.1 p.2 • (al n (fl p.1) *ᵥ (al n p.2 *ᵥ x)) := by
    rw [Spec.quad, Fintype.sum_prod_type, sum_mulVec]
    refine Finset.sum_congr rfl fun i _ => ?_
    rw [sum_mulVec]
    refine Finset.sum_congr rfl fun j _ => ?_
    rw [smul_mulVec, al_conjTranspose, mulVec_mulVec]
  rw [h1]
  refine (vnorm_sum_le _ _).trans ((Finset.sum_le_card_nsmul _ _ (ε * vnorm x) fun p _ => ?_).trans (le_of_eq ?_))
  · rw [vnorm_smul]
    exact mul_le_mul (h _ _) ((al_contract _ _).trans (al_contract _ _)) (Real.sqrt_nonneg _) ((norm_nonneg _).trans (h p.1 p.2))
  · rw [Finset.card_univ, Fintype.card_prod, Fintype.card_fin, nsmul_eq_mul]
    push_cast
    ring

/-! ## performing a rotation -/

/-- `W` performs the orbital rotation `C`. -/
structure Performs {n : ℕ} (W : Op (2 ^ n)) (C : Op (n + n)) : Prop where
  unitary : W * Wᴴ = 1
  orbital : C * Cᴴ = 1
  heis : ∀ k, Wᴴ * al n k * W = ∑ l, C k l • al n l

theorem Performs.mul {n : ℕ} {W W' : Op (2 ^ n)} {C C' : Op (n + n)} (h : Performs W C) (h' : Performs W' C') : Performs (W * W') (C * C') := by
  refine ⟨?_, ?_, fun k => ?_⟩
  · rw [conjTranspose_mul, mul_assoc, ← mul_assoc W', h'.unitary, one_mul, h.unitary]
  · rw [conjTranspose_mul, mul_assoc, ← mul_assoc C', h'.orbital, one_mul, h.orbital]
  · have e : (W * W')ᴴ * al n k * (W * W') = W'ᴴ * (Wᴴ * al n k * W) * W' := by rw [conjTranspose_mul]; simp only [mul_assoc]
    rw [e, h.heis, Finset.mul_sum, Finset.sum_mul]
    have e2 : ∀ l, W'ᴴ * (C k l • al n l) * W' = ∑ j, (C k l * C' l j) • al n j := by
      intro l
      rw [Matrix.mul_smul, Matrix.smul_mul, h'.heis, Finset.smul_sum]
      exact Finset.sum_congr rfl fun j _ => smul_smul _ _ _
    simp only [e2]
    rw [Finset.sum_comm]
    refine Finset.sum_congr rfl fun j _ => ?_
    rw [← Finset.sum_smul, mul_apply]

theorem Performs.back {n : ℕ} {W : Op (2 ^ n)} {C : Op (n + n)} (h : Performs W C) (l : Fin (n + n)) :
    W * al n l * Wᴴ = ∑ k, Cᴴ l k • al n k := by
  have h1 : ∑ k, Cᴴ l k • (Wᴴ * al n k * W) = al n l := by
    simp only [h.heis, Finset.smul_sum, smul_smul]
    rw [Finset.sum_comm]
    simp only [← Finset.sum_smul, ← mul_apply, mul_eq_one_comm.1 h.orbital]
    rw [Finset.sum_eq_single l]
    · simp
    · intro b _ hb
      rw [one_apply_ne hb.symm, zero_smul]
    · simp
  conv_lhs => rw [← h1]
  rw [Finset.mul_sum, Finset.sum_mul]
  refine Finset.sum_congr rfl fun k _ => ?_
  rw [Matrix.mul_smul, Matrix.smul_mul]
  congr 1
  rw [← mul_assoc, ← mul_assoc, h.unitary, one_mul, mul_assoc, h.unitary, mul_one]

/-- Whatever `W` performs `C`, the operator `W X W†` is a continuous function of `C`. -/
def Follows {n : ℕ} (X : Op (2 ^ n)) : Prop :=
  ∃ φ : Op (n + n) → Op (2 ^ n), Continuous φ ∧ ∀ W C, Performs W C → W * X * Wᴴ = φ C

theorem follows_prods {n : ℕ} {X : Op (2 ^ n)} (h : X ∈ alProds n) : Follows X := by
  induction h using Submonoid.closure_induction with
  | mem x hx =>
    obtain ⟨k, rfl⟩ := hx
    refine ⟨fun C => ∑ l, Cᴴ k l • al n l, ?_, fun W C h => h.back k⟩
    refine continuous_finset_sum _ fun l _ => Continuous.fun_smul (f := fun C : Op (n + n) => Cᴴ k l) (g := fun _ => al n l) ?_ continuous_const
    exact (continuous_id.matrix_conjTranspose).matrix_elem k l
  | one => exact ⟨fun _ => 1, continuous_const, fun W C h => by rw [mul_one, h.unitary]⟩
  | mul x y _ _ hx hy =>
    obtain ⟨φ, h1, h2⟩ := hx
    obtain ⟨χ, h3, h4⟩ := hy
    refine ⟨fun C => φ C * χ C, h1.matrix_mul h3, fun W C h => ?_⟩
    simp only [← h2 W C h, ← h4 W C h]
    have : Wᴴ * W = 1 := mul_eq_one_comm.1 h.unitary
    calc W * (x * y) * Wᴴ = W * x * (Wᴴ * W) * y * Wᴴ := by rw [this, mul_one]; simp only [mul_assoc]
      _ = _ := by simp only [mul_assoc]

theorem follows_smul {n : ℕ} {X : Op (2 ^ n)} (h : Follows X) (c : ℂ) : Follows (c • X) := by
  obtain ⟨φ, h1, h2⟩ := h
  exact ⟨fun C => c • φ C, h1.const_smul c, fun W C h => by rw [Matrix.mul_smul, Matrix.smul_mul, h2 W C h]⟩

theorem follows_fock {n : ℕ} (b b' : Fin n → Fin 2) : Follows (vecMulVec (Spec.fock b) (star (Spec.fock b'))) := by
  obtain ⟨X, hX, c, hc, h1⟩ := create_fock b
  obtain ⟨Y, hY, c', hc', h2⟩ := create_fock b'
  have h3 := follows_prods (mul_mem (mul_mem hX (vacuum_mem n)) (prods_conj hY))
  have h4 : X * Spec.proj (Spec.fock fun _ : Fin n => 0) * Yᴴ = (c * star c') • vecMulVec (Spec.fock b) (star (Spec.fock b')) := by
    rw [show Spec.proj (Spec.fock fun _ : Fin n => 0) = vecMulVec (Spec.fock fun _ : Fin n => 0)
      (star (Spec.fock fun _ : Fin n => 0)) from rfl, mul_vecMulVec, vecMulVec_mul, ← star_mulVec, h1, h2, star_smul,
      smul_vecMulVec, vecMulVec_smul, smul_smul]
  rw [h4] at h3
  have h5 := follows_smul h3 (c * star c')⁻¹
  rwa [smul_smul, inv_mul_cancel₀ (mul_ne_zero hc (star_ne_zero.2 hc')), one_smul] at h5

theorem follows_unit {n : ℕ} (x y : Fin (2 ^ n)) : Follows (Matrix.single x y (1 : ℂ)) := by
  have := follows_fock (Spec.digit 2 n x) (Spec.digit 2 n y)
  rw [fock_eq, fock_eq, ← (eq_bIdx x _).2 rfl, ← (eq_bIdx y _).2 rfl] at this
  have e : vecMulVec (Pi.single x (1 : ℂ)) (star (Pi.single y (1 : ℂ))) = Matrix.single x y (1 : ℂ) := by
    ext i j
    simp [vecMulVec_apply, Pi.single_apply, Matrix.single_apply, and_comm]
    aesop
  rw [← e]
  exact this

/-- The action of the orbital rotations on operators. -/
noncomputable def rotAct {n : ℕ} (C : Op (n + n)) (X : Op (2 ^ n)) : Op (2 ^ n) := ∑ x, ∑ y, X x y • (follows_unit x y).choose C

theorem rotAct_eq {n : ℕ} {W : Op (2 ^ n)} {C : Op (n + n)} (h : Performs W C) (X : Op (2 ^ n)) : rotAct C X = W * X * Wᴴ := by
  have hX : X = ∑ x, ∑ y, X x y • Matrix.single x y (1 : ℂ) := by
    conv_lhs => rw [matrix_eq_sum_single X]
    simp [Matrix.smul_single]
  conv_rhs => rw [hX]
  rw [rotAct, Finset.mul_sum, Finset.sum_mul]
  refine Finset.sum_congr rfl fun x _ => ?_
  rw [Finset.mul_sum, Finset.sum_mul]
  refine Finset.sum_congr rfl fun y _ => ?_
  rw [← (follows_unit x y).choose_spec.2 W C h, Matrix.mul_smul, Matrix.smul_mul]

theorem rotAct_continuous (n : ℕ) : Continuous fun p : Op (n + n) × Op (2 ^ n) => rotAct p.1 p.2 := by
  refine continuous_finset_sum _ fun x _ => continuous_finset_sum _ fun y _ =>
    Continuous.fun_smul (f := fun p : Op (n + n) × Op (2 ^ n) => p.2 x y) (g := fun p => (follows_unit x y).choose p.1) ?_ ?_
  · exact continuous_snd.matrix_elem x y
  · exact (follows_unit x y).choose_spec.1.comp continuous_fst

/-! ## every rotation is performed -/

theorem orb_noMinus {n : ℕ} {O : RMat (n + n)} (h : (1 + O).det ≠ 0) : Spec.NoMinusOne (orb O) := by
  intro v hv
  have e : (1 + orb O).det ≠ 0 := by
    have h1 : (toC (1 + O)).det = (((1 + O).det : ℝ) : ℂ) := (RingHom.map_det Complex.ofRealHom _).symm
    have h2 : 1 + orb O = (buildOmega n)ᴴ * toC (1 + O) * buildOmega n := by
      rw [show toC (1 + O) = 1 + toC O by ext i j; simp only [toC, map_apply, Matrix.add_apply, Matrix.one_apply]; split_ifs <;> simp,
        mul_add, add_mul, mul_one, omega_unitary, orb]
    have h3 : (buildOmega n)ᴴ.det * (buildOmega n).det = 1 := by rw [← det_mul, omega_unitary, det_one]
    have h4 : (1 + orb O).det = (((1 + O).det : ℝ) : ℂ) := by
      rw [h2, det_mul, det_mul, h1]
      linear_combination (((1 + O).det : ℝ) : ℂ) * h3
    rw [h4]
    exact_mod_cast h
  by_contra hv0
  exact e (exists_mulVec_eq_zero_iff.1 ⟨v, hv0, by rw [add_mulVec, one_mulVec, hv, add_neg_cancel]⟩)

theorem performs_log {n : ℕ} {C L : Op (n + n)} (hC : C * Cᴴ = 1) (hcan : IsCanonicalU C) (hne : Spec.NoMinusOne C)
    (hL : Spec.IsPrincipalLog C L) : Performs (expm ((-Complex.I) • Spec.quad (genMat L) (al n))) C := by
  have hs := log_skew hC hL
  have hG : (Spec.quad (genMat L) (al n)).IsHermitian := quad_herm (genMat_herm hs) _
  refine ⟨expm_unitary ?_, hC, fun k => ?_⟩
  · rw [conjTranspose_smul, hG.eq]
    simp
  · rw [rot_heisenberg (log_canonical hC hcan hne hL) hs k]
    rw [show expm L = C from hL.exp_eq]

theorem performs_even {n : ℕ} {O : RMat (n + n)} (hO : O ∈ rotations (n + n)) :
    ∃ W, Performs W (orb O) ∧ W * Spec.parity n = Spec.parity n * W := by
  have key : ∀ O : RMat (n + n), O ∈ rotations (n + n) → (1 + O).det ≠ 0 →
      ∃ W, Performs W (orb O) ∧ W * Spec.parity n = Spec.parity n * W := by
    intro O hO hne
    obtain ⟨L, hL⟩ := log_exists (orb_unitary hO.1)
    refine ⟨_, performs_log (orb_unitary hO.1) (orb_canonical O) (orb_noMinus hne) hL, expm_comm ?_⟩
    rw [Matrix.smul_mul, Matrix.mul_smul, quad_commute _ (al n) (Spec.parity n) parity_al
      (fun i => by rw [al_conjTranspose]; exact parity_al _)]
  obtain ⟨K, hK, hne⟩ := cayley_exists hO
  have hr := cayley_rot hK
  set V := cayley K with hV
  have hVt : Vᵀ ∈ rotations (n + n) := ⟨by rw [transpose_transpose]; exact mul_eq_one_comm.1 hr.1, by rw [det_transpose]; exact hr.2⟩
  have h1 : (1 + Vᵀ).det ≠ 0 := by
    have := cayley_minus hK
    rwa [← det_transpose, transpose_add, transpose_one] at this
  have h2 : (1 + V * O).det ≠ 0 := fun h => hne ((cayley_det hK O).1 h)
  have hVO : V * O ∈ rotations (n + n) := ⟨by rw [transpose_mul, mul_assoc, ← mul_assoc O, hO.1, one_mul, hr.1], by rw [det_mul, hr.2, hO.2, one_mul]⟩
  obtain ⟨W, hW, hc⟩ := key _ hVt h1
  obtain ⟨W', hW', hc'⟩ := key _ hVO h2
  refine ⟨W * W', ?_, by rw [mul_assoc, hc', ← mul_assoc, hc, mul_assoc]⟩
  have := hW.mul hW'
  have e : Vᵀ * V = 1 := mul_eq_one_comm.1 hr.1
  rwa [← orb_mul, ← mul_assoc, e, one_mul] at this

theorem performs_exists {n : ℕ} {O : RMat (n + n)} (hO : O ∈ rotations (n + n)) : ∃ W, Performs W (orb O) :=
  (performs_even hO).imp fun _ h => h.1

/-- The rotation the code builds is close to the one that performs the drawn orbital rotation. -/
theorem rot_near {n : ℕ} {L : Op (n + n)} (hs : Lᴴ = -L) (z : ℂ) (hz : z = Complex.I ∨ z = -Complex.I) (x : Fin (2 ^ n) → ℂ) :
    vnorm (expm (z • Spec.quad (Spec.dropSmall 1e-10 (genMat L)) (al n)) *ᵥ x -
      expm (z • Spec.quad (genMat L) (al n)) *ᵥ x) ≤ 4e-10 * n ^ 2 * vnorm x := by
  have hz1 : ‖z‖ = 1 := by rcases hz with rfl | rfl <;> simp
  have hz2 : star z = -z := by rcases hz with rfl | rfl <;> simp
  have hsk : ∀ {R : Op (n + n)}, R.IsHermitian → (z • Spec.quad R (al n))ᴴ = -(z • Spec.quad R (al n)) := by
    intro R hR
    rw [conjTranspose_smul, (quad_herm hR _).eq, hz2, neg_smul]
  refine expm_close (hsk ?_) (hsk (genMat_herm hs)) (fun y => ?_) x
  · rw [drop_genMat]
    exact genMat_herm (drop_skewHerm hs)
  · have e : z • Spec.quad (Spec.dropSmall 1e-10 (genMat L)) (al n) - z • Spec.quad (genMat L) (al n) =
        z • Spec.quad (Spec.dropSmall 1e-10 (genMat L) - genMat L) (al n) := by
      rw [← smul_sub]
      congr 1
      simp only [Spec.quad, ← Finset.sum_sub_distrib, ← sub_smul, Matrix.sub_apply]
    rw [e, smul_mulVec, vnorm_smul, hz1, one_mul]
    refine (quad_bound (ε := 1e-10) (fun i j => ?_) y).trans (le_of_eq (by ring))
    rw [Matrix.sub_apply, dropSmall_apply]
    split_ifs with h
    · rw [zero_sub, norm_neg]; exact h.le
    · rw [sub_self, norm_zero]; norm_num

/-! ## changing two occupations -/

/-- `a_j + a_j†`. -/
noncomputable def maj {n : ℕ} (j : Fin n) : Op (2 ^ n) := al n (Fin.castAdd n j) + al n (Fin.natAdd n j)

/-- The coefficients of `a_j + a_j†`. -/
def majVec {n : ℕ} (j : Fin n) : Fin (n + n) → ℂ := fun k => if k = Fin.castAdd n j ∨ k = Fin.natAdd n j then 1 else 0

theorem maj_herm {n : ℕ} (j : Fin n) : (maj j)ᴴ = maj j := by
  rw [maj, conjTranspose_add, al_conjTranspose, al_conjTranspose, fl_left, fl_right, add_comm]

theorem al_maj {n : ℕ} (j : Fin n) (k : Fin (n + n)) : al n k * maj j + maj j * al n k = majVec j k • (1 : Op (2 ^ n)) := by
  have h1 := al_anticomm k (Fin.castAdd n j)
  have h2 := al_anticomm k (Fin.natAdd n j)
  have e : al n k * maj j + maj j * al n k = (al n k * al n (Fin.castAdd n j) + al n (Fin.castAdd n j) * al n k) +
      (al n k * al n (Fin.natAdd n j) + al n (Fin.natAdd n j) * al n k) := by rw [maj]; noncomm_ring
  rw [e, h1, h2, ← add_smul, swapS_apply, swapS_apply, majVec]
  congr 1
  have hne := castAdd_ne_natAdd j j
  have ha : Fin.castAdd n j = fl k ↔ k = Fin.natAdd n j :=
    ⟨fun h => by rw [← fl_fl k, ← h, fl_left], fun h => by rw [h, fl_right]⟩
  have hb : Fin.natAdd n j = fl k ↔ k = Fin.castAdd n j :=
    ⟨fun h => by rw [← fl_fl k, ← h, fl_right], fun h => by rw [h, fl_left]⟩
  simp only [ha, hb]
  by_cases h1 : k = Fin.castAdd n j
  · have h2 : k ≠ Fin.natAdd n j := h1 ▸ hne
    rw [if_neg h2, if_pos h1, if_pos (Or.inl h1), zero_add]
  · by_cases h2 : k = Fin.natAdd n j
    · rw [if_pos h2, if_neg h1, if_pos (Or.inr h2), add_zero]
    · rw [if_neg h2, if_neg h1, if_neg (not_or.2 ⟨h1, h2⟩), add_zero]

theorem maj_sq {n : ℕ} (j : Fin n) : maj j * maj j = (1 : Op (2 ^ n)) := by
  have h1 := al_maj j (Fin.castAdd n j)
  have h2 := al_maj j (Fin.natAdd n j)
  have e : (2 : ℂ) • (maj j * maj j) = (2 : ℂ) • (1 : Op (2 ^ n)) := by
    have : (2 : ℂ) • (maj j * maj j) = (al n (Fin.castAdd n j) * maj j + maj j * al n (Fin.castAdd n j)) +
      (al n (Fin.natAdd n j) * maj j + maj j * al n (Fin.natAdd n j)) := by rw [two_smul, maj]; noncomm_ring
    rw [this, h1, h2, ← add_smul]
    simp [majVec]
    norm_num
  exact smul_right_injective _ two_ne_zero e

theorem majVec_sum {n : ℕ} (j : Fin n) : ∑ l, majVec j l • al n l = maj j := by
  have := castAdd_ne_natAdd j j
  rw [← Finset.sum_subset (Finset.subset_univ {Fin.castAdd n j, Fin.natAdd n j}), Finset.sum_pair this]
  · simp [majVec, maj]
  · intro x _ hx
    rw [majVec, if_neg (by simpa using hx), zero_smul]

theorem majVec_dot {n : ℕ} (j : Fin n) : majVec j ⬝ᵥ majVec j = 2 := by
  have := castAdd_ne_natAdd j j
  rw [dotProduct, ← Finset.sum_subset (Finset.subset_univ {Fin.castAdd n j, Fin.natAdd n j}), Finset.sum_pair this]
  · simp [majVec]; norm_num
  · intro x _ hx
    rw [majVec, if_neg (by simpa using hx), zero_mul]

theorem majVec_star {n : ℕ} (j : Fin n) : star (majVec j) = majVec j := by
  funext k
  simp only [Pi.star_apply, majVec]
  split_ifs <;> simp

theorem maj_performs {n : ℕ} (j : Fin n) : Performs (maj j) (vecMulVec (majVec j) (majVec j) - 1) := by
  refine ⟨by rw [maj_herm, maj_sq], ?_, fun k => ?_⟩
  · rw [conjTranspose_sub, conjTranspose_vecMulVec, majVec_star, conjTranspose_one, sub_mul, mul_sub, mul_sub, vecMulVec_mul_vecMulVec,
      majVec_dot, vecMulVec_smul, mul_one, one_mul, mul_one, two_smul]
    abel
  · have h := al_maj j k
    have e : (maj j)ᴴ * al n k * maj j = maj j * (al n k * maj j + maj j * al n k) - maj j * maj j * al n k := by
      rw [maj_herm]; noncomm_ring
    rw [e, h, maj_sq, one_mul, Matrix.mul_smul, mul_one]
    simp only [Matrix.sub_apply, sub_smul, Finset.sum_sub_distrib, vecMulVec_apply, mul_smul, ← Finset.smul_sum, majVec_sum]
    congr 1
    rw [Finset.sum_eq_single k]
    · simp
    · intro b _ hb
      rw [one_apply_ne hb.symm, zero_smul]
    · simp

theorem majVec_swap {n : ℕ} (j : Fin n) : swapS n *ᵥ majVec j = majVec j := by
  funext k
  rw [mulVec, dotProduct, Finset.sum_eq_single (fl k)]
  · rw [swapS_apply, if_pos rfl, one_mul, majVec, majVec]
    have ha : fl k = Fin.castAdd n j ↔ k = Fin.natAdd n j :=
      ⟨fun h => by rw [← fl_fl k, h, fl_left], fun h => by rw [h, fl_right]⟩
    have hb : fl k = Fin.natAdd n j ↔ k = Fin.castAdd n j :=
      ⟨fun h => by rw [← fl_fl k, h, fl_right], fun h => by rw [h, fl_left]⟩
    simp only [ha, hb, or_comm]
  · intro b _ hb
    rw [swapS_apply, if_neg hb, zero_mul]
  · simp

theorem maj_symp {n : ℕ} (j : Fin n) : Spec.IsSymplectic (vecMulVec (majVec j) (majVec j) - 1) := by
  rw [symp_iff, transpose_sub, transpose_vecMulVec, transpose_one, sub_mul, sub_mul, mul_sub, mul_sub, one_mul, mul_one, mul_one, mul_assoc,
    mul_vecMulVec, majVec_swap, vecMulVec_mul_vecMulVec, majVec_dot, vecMulVec_mul]
  have hT : majVec j ᵥ* swapS n = majVec j := by
    have := majVec_swap j
    rw [← vecMul_transpose] at this
    have hS : (swapS n)ᵀ = swapS n := by
      ext a b
      rw [transpose_apply, swapS_apply, swapS_apply]
      have : a = fl b ↔ b = fl a := ⟨fun h => by rw [h, fl_fl], fun h => by rw [h, fl_fl]⟩
      simp only [this]
    rwa [hS] at this
  rw [hT, vecMulVec_smul, two_smul]
  abel

theorem maj_det {n : ℕ} (j : Fin n) : (vecMulVec (majVec j) (majVec j) - 1).det = -1 := by
  have e : vecMulVec (majVec j) (majVec j) - 1 = -(1 + vecMulVec (-majVec j) (majVec j)) := by
    rw [neg_vecMulVec]; abel
  have h : (1 + vecMulVec (-majVec j) (majVec j)).det = -1 := by
    rw [vecMulVec_eq Unit, det_one_add_replicateCol_mul_replicateRow, dotProduct_neg, majVec_dot]
    norm_num
  rw [e, det_neg, h, Fintype.card_fin, Even.neg_one_pow ⟨n, rfl⟩, one_mul]

theorem maj_fock {n : ℕ} (j : Fin n) (b : Fin n → Fin 2) (hb : b j = 0) :
    ∃ c : ℂ, c * star c = 1 ∧ maj j *ᵥ Spec.fock b = c • Spec.fock (Function.update b j 1) := by
  refine ⟨(-1) ^ (∑ k : Fin n, if k < j then (b k : ℕ) else 0), ?_, ?_⟩
  · rw [star_pow, ← mul_pow]; simp
  · rw [maj, add_mulVec, al_left, al_right, jwRaise_fock, jwLower_fock, if_pos hb, if_neg (by rw [hb]; decide), add_zero]

/-! ## states -/

theorem vnorm_diag_le {d : ℕ} {p : Fin d → ℝ} (hp : Spec.IsProb p) (y : Fin d → ℂ) :
    vnorm (diagonal (fun i => ((p i : ℝ) : ℂ)) *ᵥ y) ≤ vnorm y := by
  have h1 : ∀ i, p i ≤ 1 := fun i => by
    rw [← hp.2]
    exact Finset.single_le_sum (f := p) (fun j _ => hp.1 j) (Finset.mem_univ i)
  refine Real.sqrt_le_sqrt (Finset.sum_le_sum fun i _ => ?_)
  rw [mulVec_diagonal, norm_mul, Complex.norm_real, Real.norm_eq_abs, abs_of_nonneg (hp.1 i)]
  have : p i * ‖y i‖ ≤ ‖y i‖ := mul_le_of_le_one_left (norm_nonneg _) (h1 i)
  exact pow_le_pow_left₀ (mul_nonneg (hp.1 i) (norm_nonneg _)) this 2

/-- Rotating a diagonal state by two nearby unitaries. -/
theorem rotated_near {d : ℕ} {W V : Op d} (hW : W * Wᴴ = 1) (hV : V * Vᴴ = 1) {δ : ℝ} (hδ : 0 ≤ δ)
    (h1 : ∀ x, vnorm (W *ᵥ x - V *ᵥ x) ≤ δ * vnorm x) (h2 : ∀ x, vnorm (Wᴴ *ᵥ x - Vᴴ *ᵥ x) ≤ δ * vnorm x) {p : Fin d → ℝ} (hp : Spec.IsProb p)
    (x : Fin d → ℂ) : vnorm ((W * diagonal (fun i => ((p i : ℝ) : ℂ)) * Wᴴ - V * diagonal (fun i => ((p i : ℝ) : ℂ)) * Vᴴ) *ᵥ x) ≤
      2 * δ * vnorm x := by
  set D : Op d := diagonal (fun i => ((p i : ℝ) : ℂ)) with hD
  have e : (W * D * Wᴴ - V * D * Vᴴ) *ᵥ x = W *ᵥ (D *ᵥ (Wᴴ *ᵥ x - Vᴴ *ᵥ x)) + (W *ᵥ (D *ᵥ (Vᴴ *ᵥ x)) - V *ᵥ (D *ᵥ (Vᴴ *ᵥ x))) := by
    simp only [mulVec_sub, mulVec_mulVec, sub_mulVec, mul_assoc]
    abel
  rw [e]
  have a1 : vnorm (W *ᵥ (D *ᵥ (Wᴴ *ᵥ x - Vᴴ *ᵥ x))) ≤ δ * vnorm x := by
    rw [vnorm_unitary (mul_eq_one_comm.1 hW)]
    exact (vnorm_diag_le hp _).trans (h2 x)
  have a2 : vnorm (W *ᵥ (D *ᵥ (Vᴴ *ᵥ x)) - V *ᵥ (D *ᵥ (Vᴴ *ᵥ x))) ≤ δ * vnorm x := by
    refine (h1 _).trans (mul_le_mul_of_nonneg_left ((vnorm_diag_le hp _).trans (le_of_eq ?_)) hδ)
    exact vnorm_unitary (by rw [conjTranspose_conjTranspose, hV]) x
  exact (vnorm_add_le _ _).trans (by linarith)

end FF
