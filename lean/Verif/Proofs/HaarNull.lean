import Verif.Proofs.Haar
import Mathlib.Algebra.MvPolynomial.SchwartzZippel
import Mathlib.LinearAlgebra.Matrix.SchurComplement
import Mathlib.LinearAlgebra.SymplecticGroup
import Mathlib.Analysis.InnerProductSpace.PiL2

/-! # Almost no rotation has the eigenvalue -1 -/

namespace FF

open Matrix MeasureTheory Spec

variable {m : ℕ}

/-- An orthonormal basis of the eigenspace of the eigenvalue -1. -/
theorem minus_basis (O : RMat m) : ∃ (r : ℕ) (B : Matrix (Fin m) (Fin r) ℝ), Bᵀ * B = 1 ∧ O * B = -B ∧
    ∀ x : Fin m → ℝ, O *ᵥ x = -x → B *ᵥ (Bᵀ *ᵥ x) = x := by
  set E : Submodule ℝ (EuclideanSpace ℝ (Fin m)) :=
    { carrier := {x | O *ᵥ x.ofLp = -x.ofLp}
      add_mem' := fun {a b} ha hb => by
        change O *ᵥ (a.ofLp + b.ofLp) = -(a.ofLp + b.ofLp)
        rw [mulVec_add, show O *ᵥ a.ofLp = -a.ofLp from ha, show O *ᵥ b.ofLp = -b.ofLp from hb, neg_add]
      zero_mem' := by change O *ᵥ (0 : Fin m → ℝ) = -0; simp
      smul_mem' := fun c x hx => by
        change O *ᵥ (c • x.ofLp) = -(c • x.ofLp)
        rw [mulVec_smul, show O *ᵥ x.ofLp = -x.ofLp from hx, smul_neg] } with hE
  set b := stdOrthonormalBasis ℝ E
  have hin : ∀ (x y : EuclideanSpace ℝ (Fin m)), inner ℝ x y = ∑ a, x.ofLp a * y.ofLp a := fun x y => by
    rw [PiLp.inner_apply]
    exact Finset.sum_congr rfl fun i _ => by simp [mul_comm]
  refine ⟨_, Matrix.of fun a i => (b i : EuclideanSpace ℝ (Fin m)).ofLp a, ?_, ?_, fun x hx => ?_⟩
  · ext i j
    rw [mul_apply]
    have h := orthonormal_iff_ite.1 b.orthonormal i j
    rw [one_apply, ← h]
    change _ = inner ℝ (b i : EuclideanSpace ℝ (Fin m)) (b j : EuclideanSpace ℝ (Fin m))
    rw [hin]
    rfl
  · ext a i
    have h : O *ᵥ (b i : EuclideanSpace ℝ (Fin m)).ofLp = -(b i : EuclideanSpace ℝ (Fin m)).ofLp := (b i).2
    exact congrFun h a
  · have hm : WithLp.toLp 2 x ∈ E := hx
    have h := b.sum_repr' ⟨WithLp.toLp 2 x, hm⟩
    have h2 := congrArg (fun y : E => (y : EuclideanSpace ℝ (Fin m)).ofLp) h
    funext a
    have h3 := congrFun h2 a
    simp only [Submodule.coe_sum, Submodule.coe_smul, WithLp.ofLp_sum, WithLp.ofLp_smul, Finset.sum_apply, Pi.smul_apply, smul_eq_mul] at h3
    rw [← h3]
    simp only [mulVec, dotProduct, of_apply, transpose_apply]
    refine Finset.sum_congr rfl fun i _ => ?_
    rw [mul_comm]
    congr 1
    change _ = inner ℝ (b i : EuclideanSpace ℝ (Fin m)) (WithLp.toLp 2 x)
    rw [hin]

/-- The eigenvalue -1 of a rotation has even multiplicity. -/
theorem minus_even {O : RMat m} (hO : O ∈ rotations m) {r : ℕ} {B : Matrix (Fin m) (Fin r) ℝ} (h1 : Bᵀ * B = 1) (h2 : O * B = -B)
    (h3 : ∀ x : Fin m → ℝ, O *ᵥ x = -x → B *ᵥ (Bᵀ *ᵥ x) = x) : Even r := by
  obtain ⟨hO1, hO2⟩ := hO
  have hO1' : Oᵀ * O = 1 := mul_eq_one_comm.1 hO1
  have h2' : Bᵀ * O = -Bᵀ := by
    have : Oᵀ * (O * B) = B := by rw [← Matrix.mul_assoc, hO1', Matrix.one_mul]
    rw [h2, Matrix.mul_neg] at this
    have h4 := congrArg transpose this
    rw [transpose_neg, transpose_mul, transpose_transpose] at h4
    rw [← neg_neg (Bᵀ * O), h4]
  set O' := O * (1 - (2 : ℝ) • (B * Bᵀ)) with hO'
  have e1 : O' = O + (2 : ℝ) • (B * Bᵀ) := by
    rw [hO', Matrix.mul_sub, Matrix.mul_one, Matrix.mul_smul, ← Matrix.mul_assoc, h2, Matrix.neg_mul, smul_neg, sub_neg_eq_add]
  have hR : (1 - (2 : ℝ) • (B * Bᵀ)) * (1 - (2 : ℝ) • (B * Bᵀ))ᵀ = 1 := by
    rw [transpose_sub, transpose_smul, transpose_mul, transpose_transpose, transpose_one]
    have : (B * Bᵀ) * (B * Bᵀ) = B * Bᵀ := by
      rw [Matrix.mul_assoc, ← Matrix.mul_assoc Bᵀ, h1, Matrix.one_mul]
    rw [Matrix.mul_sub, Matrix.mul_one, Matrix.sub_mul, Matrix.one_mul, Matrix.smul_mul, Matrix.mul_smul, this]
    module
  have hu : O' * O'ᵀ = 1 := by
    rw [hO', transpose_mul, Matrix.mul_assoc, ← Matrix.mul_assoc _ _ Oᵀ, hR, Matrix.one_mul, hO1]
  have hu' : O'ᵀ * O' = 1 := mul_eq_one_comm.1 hu
  have hne : (1 + O').det ≠ 0 := by
    intro h0
    obtain ⟨x, hx0, hx⟩ := exists_mulVec_eq_zero_iff.2 h0
    rw [add_mulVec, one_mulVec] at hx
    have hB : Bᵀ *ᵥ x = 0 := by
      have h4 : Bᵀ *ᵥ (O' *ᵥ x) = Bᵀ *ᵥ x := by
        rw [mulVec_mulVec, e1, Matrix.mul_add, h2', Matrix.mul_smul, ← Matrix.mul_assoc, h1, Matrix.one_mul]
        congr 1
        module
      have h5 : O' *ᵥ x = -x := (neg_eq_of_add_eq_zero_right hx).symm
      rw [h5, mulVec_neg] at h4
      funext i
      have := congrFun h4 i
      simp only [Pi.neg_apply] at this
      simp only [Pi.zero_apply]
      linarith
    have h6 : O *ᵥ x = -x := by
      rw [e1, add_mulVec, smul_mulVec, ← mulVec_mulVec, hB, mulVec_zero, smul_zero, add_zero] at hx
      exact (neg_eq_of_add_eq_zero_right hx).symm
    have h7 := h3 x h6
    rw [hB, mulVec_zero] at h7
    exact hx0 h7.symm
  have hdet : O'.det = 1 := by
    have h4 : (1 + O').det = O'.det * (1 + O').det := by
      conv_rhs => rw [← det_transpose (1 + O'), ← det_mul, transpose_add, transpose_one, Matrix.mul_add, Matrix.mul_one, hu, add_comm]
    have h5 : (O'.det - 1) * (1 + O').det = 0 := by linear_combination -h4
    rcases mul_eq_zero.1 h5 with h | h
    · linarith
    · exact absurd h hne
  rw [hO', det_mul, hO2, one_mul] at hdet
  have h4 : (1 - (2 : ℝ) • (B * Bᵀ)).det = (-1) ^ r := by
    have e : (1 - (2 : ℝ) • (B * Bᵀ)) = 1 + B * ((-2 : ℝ) • Bᵀ) := by rw [Matrix.mul_smul]; module
    rw [e, det_one_add_mul_comm, Matrix.smul_mul, h1]
    have e2 : (1 : RMat r) + (-2 : ℝ) • (1 : RMat r) = (-1 : ℝ) • (1 : RMat r) := by module
    rw [e2, det_smul, det_one, mul_one, Fintype.card_fin]
  rw [h4] at hdet
  by_contra hodd
  rw [Nat.not_even_iff_odd] at hodd
  rw [hodd.neg_one_pow] at hdet
  norm_num at hdet

/-- Some Cayley transform moves a rotation away from the eigenvalue -1. -/
theorem cayley_exists {O : RMat m} (hO : O ∈ rotations m) : ∃ K : RMat m, Kᵀ = -K ∧ ((1 + O) + K * (1 - O)).det ≠ 0 := by
  obtain ⟨r, B, h1, h2, h3⟩ := minus_basis O
  obtain ⟨k, rfl⟩ := minus_even hO h1 h2 h3
  have hO1' : Oᵀ * O = 1 := mul_eq_one_comm.1 hO.1
  have h2' : Bᵀ * O = -Bᵀ := by
    have : Oᵀ * (O * B) = B := by rw [← Matrix.mul_assoc, hO1', Matrix.one_mul]
    rw [h2, Matrix.mul_neg] at this
    have h4 := congrArg transpose this
    rw [transpose_neg, transpose_mul, transpose_transpose] at h4
    rw [← neg_neg (Bᵀ * O), h4]
  set J : RMat (k + k) := (Matrix.J (Fin k) ℝ).reindex finSumFinEquiv finSumFinEquiv with hJ
  have hJt : Jᵀ = -J := by
    rw [hJ, transpose_reindex, J_transpose]
    rfl
  have hJJ : J * J = -1 := by
    rw [hJ, reindex_apply, submatrix_mul_equiv, J_squared]
    ext i j
    simp [one_apply]
  refine ⟨B * J * Bᵀ, ?_, fun h0 => ?_⟩
  · rw [transpose_mul, transpose_mul, transpose_transpose, hJt, Matrix.neg_mul, Matrix.mul_neg, Matrix.mul_assoc]
  · obtain ⟨x, hx0, hx⟩ := exists_mulVec_eq_zero_iff.2 h0
    have e1 : Bᵀ * ((1 + O) + B * J * Bᵀ * (1 - O)) = (2 : ℝ) • (J * Bᵀ) := by
      have e : Bᵀ * (B * J * Bᵀ * (1 - O)) = J * (Bᵀ * (1 - O)) := by
        rw [Matrix.mul_assoc, Matrix.mul_assoc, ← Matrix.mul_assoc Bᵀ, h1, Matrix.one_mul]
      rw [Matrix.mul_add, e, Matrix.mul_add, Matrix.mul_sub, h2', Matrix.mul_one, Matrix.mul_sub, Matrix.mul_neg]
      module
    have h4 : (2 : ℝ) • (J *ᵥ (Bᵀ *ᵥ x)) = 0 := by
      rw [mulVec_mulVec, ← smul_mulVec, ← e1, ← mulVec_mulVec, hx, mulVec_zero]
    have h5 : J *ᵥ (Bᵀ *ᵥ x) = 0 := (smul_eq_zero.1 h4).resolve_left (by norm_num)
    have h6 : Bᵀ *ᵥ x = 0 := by
      have : J *ᵥ (J *ᵥ (Bᵀ *ᵥ x)) = 0 := by rw [h5, mulVec_zero]
      rw [mulVec_mulVec, hJJ, neg_mulVec, one_mulVec, neg_eq_zero] at this
      exact this
    have h7 : (B * J * Bᵀ * (1 - O)) *ᵥ x = 0 := by
      rw [Matrix.mul_assoc, Matrix.mul_sub, Matrix.mul_one, h2', sub_neg_eq_add, ← mulVec_mulVec, add_mulVec, h6, add_zero, mulVec_zero]
    rw [add_mulVec, h7, add_zero, add_mulVec, one_mulVec] at hx
    have h8 := h3 x (neg_eq_of_add_eq_zero_right hx).symm
    rw [h6, mulVec_zero] at h8
    exact hx0 h8.symm

/-! ## Cayley transforms -/

theorem one_add_skew {K : RMat m} (hK : Kᵀ = -K) : (1 + K).det ≠ 0 := by
  intro h0
  obtain ⟨x, hx0, hx⟩ := exists_mulVec_eq_zero_iff.2 h0
  rw [add_mulVec, one_mulVec] at hx
  have h1 : x ⬝ᵥ (K *ᵥ x) = 0 := by
    have h : x ⬝ᵥ (K *ᵥ x) = -(x ⬝ᵥ (K *ᵥ x)) := by
      conv_lhs => rw [dotProduct_mulVec, ← mulVec_transpose, hK, neg_mulVec, neg_dotProduct, dotProduct_comm]
    linarith
  have h2 : x ⬝ᵥ x = 0 := by
    have := congrArg (fun y => x ⬝ᵥ y) hx
    simp only [dotProduct_add, h1, add_zero, dotProduct_zero] at this
    exact this
  exact hx0 (dotProduct_self_eq_zero.1 h2)

/-- The Cayley transform. -/
noncomputable def cayley (K : RMat m) : RMat m := (1 + K)⁻¹ * (1 - K)

theorem cayley_mul {K : RMat m} (hK : Kᵀ = -K) : (1 + K) * cayley K = 1 - K := by
  rw [cayley, ← Matrix.mul_assoc, mul_nonsing_inv _ (isUnit_iff_ne_zero.2 (one_add_skew hK)), Matrix.one_mul]

theorem cayley_rot {K : RMat m} (hK : Kᵀ = -K) : cayley K ∈ rotations m := by
  have hu := isUnit_iff_ne_zero.2 (one_add_skew hK)
  have hT : (1 + K)ᵀ = 1 - K := by rw [transpose_add, transpose_one, hK, sub_eq_add_neg]
  have hT' : (1 - K)ᵀ = 1 + K := by rw [← hT, transpose_transpose]
  have hu' : IsUnit (1 - K).det := by rw [← hT, det_transpose]; exact hu
  have hc : (1 - K) * (1 + K) = (1 + K) * (1 - K) := by noncomm_ring
  constructor
  · rw [cayley, transpose_mul, transpose_nonsing_inv, hT, hT', Matrix.mul_assoc, ← Matrix.mul_assoc (1 - K), hc,
      Matrix.mul_assoc, mul_nonsing_inv _ hu', Matrix.mul_one, nonsing_inv_mul _ hu]
  · rw [cayley, det_mul, det_nonsing_inv, ← det_transpose (1 - K), hT', Ring.inverse_mul_cancel _ hu]

theorem cayley_det {K : RMat m} (hK : Kᵀ = -K) (O : RMat m) : (1 + cayley K * O).det = 0 ↔ ((1 + O) + K * (1 - O)).det = 0 := by
  have e : (1 + K) * (1 + cayley K * O) = (1 + O) + K * (1 - O) := by
    rw [Matrix.mul_add, ← Matrix.mul_assoc, cayley_mul hK]; noncomm_ring
  rw [← e, det_mul, mul_eq_zero, or_iff_right (one_add_skew hK)]

theorem cayley_minus {K : RMat m} (hK : Kᵀ = -K) : (1 + cayley K).det ≠ 0 := by
  intro h
  have e : (1 + K) * (1 + cayley K) = (2 : ℝ) • 1 := by
    rw [Matrix.mul_add, cayley_mul hK, Matrix.mul_one]; module
  have := congrArg det e
  rw [det_mul, h, mul_zero, det_smul, det_one, mul_one] at this
  exact absurd this.symm (by positivity)

/-! ## a family of rotations -/

/-- The antisymmetric matrix with the given entries. -/
def skewOf (x : Fin (m * m) → ℝ) : RMat m := Matrix.of fun i j => x (finProdFinEquiv (i, j)) - x (finProdFinEquiv (j, i))

theorem skewOf_skew (x : Fin (m * m) → ℝ) : (skewOf x)ᵀ = -skewOf x := by
  ext i j; simp [skewOf]

theorem skewOf_surj {K : RMat m} (hK : Kᵀ = -K) : ∃ x, skewOf x = K := by
  refine ⟨fun a => K (finProdFinEquiv.symm a).1 (finProdFinEquiv.symm a).2 / 2, ?_⟩
  ext i j
  have := congrFun (congrFun hK i) j
  rw [transpose_apply, Matrix.neg_apply] at this
  simp only [skewOf, of_apply, Equiv.symm_apply_apply]
  linarith

/-- The determinant as a polynomial in the entries. -/
noncomputable def detPoly (O : RMat m) : MvPolynomial (Fin (m * m)) ℝ :=
  (Matrix.of fun i j => MvPolynomial.C ((1 + O) i j) +
    ∑ k, (MvPolynomial.X (finProdFinEquiv (i, k)) - MvPolynomial.X (finProdFinEquiv (k, i))) * MvPolynomial.C ((1 - O) k j) :
    Matrix (Fin m) (Fin m) (MvPolynomial (Fin (m * m)) ℝ)).det

theorem detPoly_eval (O : RMat m) (x : Fin (m * m) → ℝ) : MvPolynomial.eval x (detPoly O) = ((1 + O) + skewOf x * (1 - O)).det := by
  rw [detPoly, RingHom.map_det]
  congr 1
  ext i j
  simp [RingHom.mapMatrix_apply, mul_apply, skewOf]

theorem detPoly_degree (O : RMat m) : (detPoly O).totalDegree ≤ m := by
  rw [detPoly, det_apply]
  refine MvPolynomial.totalDegree_finsetSum_le fun σ _ => ?_
  rw [Units.smul_def, zsmul_eq_mul]
  refine (MvPolynomial.totalDegree_mul _ _).trans ?_
  have h1 : ((((Equiv.Perm.sign σ : ℤˣ) : ℤ) : MvPolynomial (Fin (m * m)) ℝ)).totalDegree = 0 := by
    rw [← map_intCast (MvPolynomial.C : ℝ →+* MvPolynomial (Fin (m * m)) ℝ), MvPolynomial.totalDegree_C]
  rw [h1, zero_add]
  refine (MvPolynomial.totalDegree_finset_prod _ _).trans ?_
  refine (Finset.sum_le_card_nsmul _ _ 1 fun i _ => ?_).trans (by simp)
  rw [of_apply]
  refine (MvPolynomial.totalDegree_add _ _).trans (max_le (by rw [MvPolynomial.totalDegree_C]; exact Nat.zero_le 1) ?_)
  refine MvPolynomial.totalDegree_finsetSum_le fun k _ => ?_
  refine (MvPolynomial.totalDegree_mul _ _).trans ?_
  rw [MvPolynomial.totalDegree_C, add_zero]
  refine (MvPolynomial.totalDegree_sub _ _).trans (max_le ?_ ?_) <;> exact (MvPolynomial.totalDegree_X _).le

/-- Under the Haar distribution, almost no rotation has the eigenvalue -1. -/
theorem haar_no_minus {l : Measure (RMat m)} (hl : IsHaar (rotations m) l) : ∀ᵐ O ∂l, (1 + O).det ≠ 0 := by
  classical
  have := hl.prob
  set Z : Set (RMat m) := {O | (1 + O).det = 0} with hZ
  have hZm : MeasurableSet Z := (isClosed_eq (continuous_const.add continuous_id).matrix_det continuous_const).measurableSet
  have hmul : ∀ V : RMat m, Measurable fun O : RMat m => V * O := fun V => (continuous_const.matrix_mul continuous_id).measurable
  suffices h0 : l Z = 0 by
    rw [ae_iff]
    simpa [hZ] using h0
  have hb : ∀ N : ℕ, 0 < N → (N : ENNReal) * l Z ≤ m := by
    intro N hN
    set S : Finset ℝ := (Finset.range N).image fun i : ℕ => (i : ℝ) with hS
    have hSc : S.card = N := by rw [hS, Finset.card_image_of_injective _ Nat.cast_injective, Finset.card_range]
    set F := Fintype.piFinset fun _ : Fin (m * m) => S with hF
    have hFc : F.card = N ^ (m * m) := by rw [hF, Fintype.card_piFinset_const, hSc]
    have hinv : ∀ x ∈ F, l {O | (1 + cayley (skewOf x) * O).det = 0} = l Z := by
      intro x _
      conv_rhs => rw [← hl.left _ (cayley_rot (skewOf_skew x)), Measure.map_apply (hmul _) hZm]
      rfl
    have hcount : ∀ᵐ O ∂l, ((F.filter fun x => (1 + cayley (skewOf x) * O).det = 0).card : ENNReal) * N ≤ (m : ENNReal) * (N ^ (m * m) : ℕ) := by
      filter_upwards [hl.support] with O hO
      have e : (F.filter fun x => (1 + cayley (skewOf x) * O).det = 0) = F.filter fun x => MvPolynomial.eval x (detPoly O) = 0 := by
        refine Finset.filter_congr fun x _ => ?_
        rw [cayley_det (skewOf_skew x), detPoly_eval]
      have hp : detPoly O ≠ 0 := by
        obtain ⟨K, hK, hne⟩ := cayley_exists hO
        obtain ⟨x, rfl⟩ := skewOf_surj hK
        intro h
        rw [← detPoly_eval, h, map_zero] at hne
        exact hne rfl
      have h := MvPolynomial.schwartz_zippel_totalDegree hp S
      rw [hSc] at h
      have hN' : (0 : ℚ≥0) < N := by exact_mod_cast hN
      rw [div_le_div_iff₀ (by positivity) hN'] at h
      have h2 : (F.filter fun x => MvPolynomial.eval x (detPoly O) = 0).card * N ≤ (detPoly O).totalDegree * N ^ (m * m) := by
        exact_mod_cast h
      rw [e]
      have h3 := h2.trans (Nat.mul_le_mul_right _ (detPoly_degree O))
      exact_mod_cast h3
    have hsum : (N ^ (m * m) : ℕ) * l Z = ∫⁻ O, ((F.filter fun x => (1 + cayley (skewOf x) * O).det = 0).card : ENNReal) ∂l := by
      have e1 : ∀ O, ((F.filter fun x => (1 + cayley (skewOf x) * O).det = 0).card : ENNReal) =
          ∑ x ∈ F, Set.indicator {O : RMat m | (1 + cayley (skewOf x) * O).det = 0} (fun _ => (1 : ENNReal)) O := by
        intro O
        rw [Finset.card_filter]
        push_cast
        refine Finset.sum_congr rfl fun x _ => ?_
        simp only [Set.indicator_apply, Set.mem_setOf_eq]
      simp_rw [e1]
      have hms : ∀ x ∈ F, MeasurableSet {O : RMat m | (1 + cayley (skewOf x) * O).det = 0} := fun x _ => hmul _ hZm
      rw [lintegral_finsetSum _ fun x hx => (measurable_const.indicator (hms x hx))]
      have e2 : ∀ x ∈ F, ∫⁻ O, Set.indicator {O : RMat m | (1 + cayley (skewOf x) * O).det = 0} (fun _ => (1 : ENNReal)) O ∂l = l Z := fun x hx =>
        (lintegral_indicator_one (hms x hx)).trans (hinv x hx)
      rw [Finset.sum_congr rfl e2, Finset.sum_const, hFc, nsmul_eq_mul]
    have hfin : ((N ^ (m * m) : ℕ) : ENNReal) ≠ 0 := by exact_mod_cast (pow_pos hN _).ne'
    have h4 : (N : ENNReal) * ((N ^ (m * m) : ℕ) * l Z) ≤ (m : ENNReal) * (N ^ (m * m) : ℕ) := by
      rw [hsum, ← lintegral_const_mul' _ _ (ENNReal.natCast_ne_top N)]
      calc _ ≤ ∫⁻ _, (m : ENNReal) * (N ^ (m * m) : ℕ) ∂l := by
            refine lintegral_mono_ae ?_
            filter_upwards [hcount] with O hO
            rw [mul_comm]
            exact hO
        _ = _ := by rw [lintegral_const, measure_univ, mul_one]
    rw [← mul_assoc, mul_right_comm] at h4
    exact (ENNReal.mul_le_mul_iff_left hfin (ENNReal.natCast_ne_top _)).1 h4
  by_contra hne
  obtain ⟨N, hN⟩ := ENNReal.exists_nat_mul_gt hne (ENNReal.natCast_ne_top m)
  rcases Nat.eq_zero_or_pos N with rfl | hpos
  · simp at hN
  · exact absurd (hb N hpos) (not_le.2 hN)

end FF
