import Verif.Proofs.Faf
import Verif.Proofs.Random

/-! # Properties of the fermionic anti-flatness (C67)

Throughout, `g` are the operators `jordan_wigner_majoranas(n)` returns, `M` is the covariance matrix
`M_ij = -i Tr[ρ (γ_i γ_j - γ_j γ_i)]` and `schurR M` is what `scipy.linalg.schur` returns for it. -/

namespace FF.Props

open Matrix
open scoped ComplexOrder

variable {n : ℕ} {g : Fin (n + n) → Op (2 ^ n)} {ρ : Op (2 ^ n)} {M Z : RMat (n + n)} {x : Arr}
  {schurR : {m : ℕ} → RMat m → RMat m} {schurC : {m : ℕ} → Op m → Op m} {k : ℕ}

theorem maj_facts (hg : jordanWignerMajoranas n = List.ofFn g) :
    (∀ i, (g i).IsHermitian) ∧ ∀ i j, g i * g j + g j * g i = if i = j then 1 else 0 := by
  obtain ⟨g', h1, h2, h3⟩ := C28_majoranas n
  obtain rfl := List.ofFn_injective (hg.symm.trans h1)
  exact ⟨h2, h3⟩

theorem cov_unique (hg : jordanWignerMajoranas n = List.ofFn g) (hρ : ρᴴ = ρ) (hM : Spec.IsMajoranaCov g ρ M) :
    M = majCov g ρ := by
  ext i j
  apply Complex.ofReal_injective
  rw [hM, majCov_eq (maj_facts hg).1 hρ]

/-- C67. The covariance matrix of a state exists, is unique and is real antisymmetric. -/
theorem C67_covariance (hg : jordanWignerMajoranas n = List.ofFn g) (hx : Spec.IsState x ρ) :
    ∃ M, Spec.IsMajoranaCov g ρ M ∧ Mᵀ = -M ∧ ∀ M', Spec.IsMajoranaCov g ρ M' → M' = M :=
  have hρ : ρᴴ = ρ := (state_cast hx).2.psd.isHermitian
  ⟨majCov g ρ, fun i j => majCov_eq (maj_facts hg).1 hρ i j, majCov_skew, fun _ h => cov_unique hg hρ h⟩

/-- C67. The assertion of `cov_distribution` never fails: for every array that is accepted as a density matrix of `n`
sites (also when it is Hermitian only within the tolerance) the entries are read off the real Schur form of the real
part of the covariance matrix `M` if the imaginary parts of `M` have Frobenius norm at most `1e-8`, and off the complex
Schur form of `M` otherwise. -/
theorem C67_outcome (hg : jordanWignerMajoranas n = List.ofFn g) (h : castToDensityMatrix x = .ok ⟨2 ^ n, ρ⟩)
    (M : Op (n + n)) (hM : ∀ i j, M i j = (-Complex.I) * (ρ * (g i * g j - g j * g i)).trace) :
    (∑ i, ∑ j, (M i j).im ^ 2 ≤ 1e-16 →
      covDistribution schurR schurC x = .ok (upperSquares (toC (schurR (Matrix.of fun i j => (M i j).re))))) ∧
    (1e-16 < ∑ i, ∑ j, (M i j).im ^ 2 → covDistribution schurR schurC x = .ok (upperSquares (schurC M))) := by
  obtain ⟨G, Gam, hG, -, -, -, hGe⟩ := C42_antisymmetric_partial ρ g
  have hMG : (-Complex.I) • G = M := by
    ext i j
    rw [Matrix.smul_apply, hGe, hM, smul_eq_mul]
  have hskew : M + Mᵀ = 0 := by
    ext i j
    rw [Matrix.add_apply, transpose_apply, hM, hM, ← neg_sub (g i * g j), Matrix.mul_neg, trace_neg, Matrix.zero_apply]
    ring
  have hre : reArr M + (reArr M)ᵀ = 0 := by
    ext i j
    have := congrArg Complex.re (congrFun (congrFun hskew i) j)
    simpa [reArr] using this
  have hfr : frobNorm (toC (imArr M)) = Real.sqrt (∑ i, ∑ j, (M i j).im ^ 2) := by
    rw [frobNorm]
    simp only [toC_apply, imArr, of_apply, map_apply, Complex.norm_real, Real.norm_eq_abs, sq_abs]
  have hcl : isclose (frobNorm (toC (imArr M)) : ℝ) 0 ↔ ∑ i, ∑ j, (M i j).im ^ 2 ≤ 1e-16 := by
    have h0 : 0 ≤ ∑ i, ∑ j, (M i j).im ^ 2 := by positivity
    rw [hfr, isclose, sub_zero, norm_zero, Complex.norm_real, Real.norm_eq_abs, abs_of_nonneg (Real.sqrt_nonneg _),
      mul_zero, add_zero, Real.sqrt_le_left (by norm_num)]
    norm_num
  have hcov : covDistribution schurR schurC x = open Classical in
      if isclose (frobNorm (toC (imArr M)) : ℝ) 0 then .ok (upperSquares (toC (schurR (reArr M))))
      else .ok (upperSquares (schurC M)) := by
    rw [covDistribution, h]
    simp only [bind, Except.bind]
    have key : ∀ k, k = n → ∀ e : 2 ^ n = 2 ^ k,
        computeCovMatrix (castOp e ρ) (some k) (jordanWignerMajoranas k) = .ok ⟨n, G⟩ := by
      rintro k rfl e
      have e : castOp rfl ρ = ρ := by ext; rfl
      rw [e, hg, hG]
    rw [dif_pos (by rw [intLog2_pow]), key _ (intLog2_pow n)]
    simp only
    rw [hMG, hskew, hre, pyAssert_ok (isclose_frob_zero (by ext i j; simp [toC])), pyAssert_ok (isclose_frob_zero rfl)]
    rfl
  have hr : reArr M = Matrix.of fun i j => (M i j).re := by ext i j; rfl
  rw [hcov, hr]
  exact ⟨fun h => if_pos (hcl.2 h), fun h => if_neg fun hc => absurd (hcl.1 hc) (not_le.2 h)⟩

/-- C67. A density matrix whose dimension is not a power of two is rejected with ValueError, and an array that is no
density matrix with the exception of `cast_to_density_matrix`. -/
theorem C67_rejected {N : ℕ} {σ : Op N} :
    (castToDensityMatrix x = .ok ⟨N, σ⟩ → (∀ k, N ≠ 2 ^ k) → covDistribution schurR schurC x = .error .valueError) ∧
    (∀ e, castToDensityMatrix x = .error e → covDistribution schurR schurC x = .error e) := by
  constructor
  · intro h hN
    unfold covDistribution
    rw [h]
    exact dif_neg (hN _)
  · intro e h
    unfold covDistribution
    rw [h]
    rfl

example : castToDensityMatrix (.vec 3 ![1, 0, 0]) = .ok ⟨3, Spec.proj ![1, 0, 0]⟩ ∧ ∀ k, 3 ≠ 2 ^ k := by
  refine ⟨C16_unit_vector 3 _ (by simp [Spec.IsUnitVec, Fin.sum_univ_three]), fun k h => ?_⟩
  rcases k with _ | _ | k
  · norm_num at h
  · norm_num at h
  · rw [pow_succ, pow_succ] at h; omega

/-- C67. For every state and every order `k >= 1` the call succeeds and the result is `n - Tr[(M^T M)^k] / 2`, up to the
entries of the Schur form of modulus at most `1e-10`, which are dropped: the result is never below the formula and
exceeds it by at most `n 1e-20^k`. -/
theorem C67_formula (hg : jordanWignerMajoranas n = List.ofFn g) (hx : Spec.IsState x ρ) (hM : Spec.IsMajoranaCov g ρ M)
    (hZ : Spec.IsRealSchur M (schurR M) Z) (hk : 1 ≤ k) :
    ∃ v, faf schurR schurC x k = .ok v ∧ n - 1 / 2 * ((Mᵀ * M) ^ k).trace ≤ v ∧
      v ≤ n - 1 / 2 * ((Mᵀ * M) ^ k).trace + n * 1e-20 ^ k := by
  have hH := (maj_facts hg).1
  obtain rfl := cov_unique hg (state_cast hx).2.psd.isHermitian hM
  refine ⟨_, faf_ok hg hH hx schurR schurC hZ hk, ?_, ?_⟩
  · rw [schur_trace hZ majCov_skew]
    have := Finset.sum_le_sum fun i (_ : i ∈ Finset.univ) => cut_le (k := k) (sq2_nonneg (schurR (majCov g ρ)) i)
    linarith
  · rw [schur_trace hZ majCov_skew]
    have := Finset.sum_le_sum fun i (_ : i ∈ Finset.univ) => le_cut (k := k) (sq2_nonneg (schurR (majCov g ρ)) i)
    rw [Finset.sum_add_distrib, Finset.sum_const, Finset.card_univ, Fintype.card_fin, nsmul_eq_mul] at this
    push_cast at this
    linarith

/-- C67. If every non-zero entry of the Schur form has modulus above `1e-10` the formula is exact. -/
theorem C67_formula_exact (hg : jordanWignerMajoranas n = List.ofFn g) (hx : Spec.IsState x ρ)
    (hM : Spec.IsMajoranaCov g ρ M) (hZ : Spec.IsRealSchur M (schurR M) Z)
    (hbig : ∀ i j, schurR M i j = 0 ∨ 1e-10 < |schurR M i j|) (hk : 1 ≤ k) :
    faf schurR schurC x k = .ok (n - 1 / 2 * ((Mᵀ * M) ^ k).trace) := by
  have hH := (maj_facts hg).1
  obtain rfl := cov_unique hg (state_cast hx).2.psd.isHermitian hM
  rw [faf_ok hg hH hx schurR schurC hZ hk, schur_trace hZ majCov_skew]
  congr 3
  refine Finset.sum_congr rfl fun i _ => ?_
  rw [schur_g hZ majCov_skew (cut k) (cut_zero k), schur_g hZ majCov_skew (· ^ k) (by simp; omega)]
  refine Finset.sum_congr rfl fun j _ => ?_
  rcases hbig i j with h | h
  · rw [h]
    have : k ≠ 0 := by omega
    simp [cut_zero, this]
  · rw [cut, if_pos (abs_cut.1 h)]

/-- C67. The value lies between 0 and `n`. -/
theorem C67_bounds (hg : jordanWignerMajoranas n = List.ofFn g) (hx : Spec.IsState x ρ) (hM : Spec.IsMajoranaCov g ρ M)
    (hZ : Spec.IsRealSchur M (schurR M) Z) (hk : 1 ≤ k) :
    ∃ v, faf schurR schurC x k = .ok v ∧ 0 ≤ v ∧ v ≤ n := by
  have hH := (maj_facts hg).1
  obtain rfl := cov_unique hg (state_cast hx).2.psd.isHermitian hM
  refine ⟨_, faf_ok hg hH hx schurR schurC hZ hk, ?_, ?_⟩
  · have : ∀ i ∈ (Finset.univ : Finset (Fin (n + n))), cut k (sq2 (schurR (majCov g ρ)) i) ≤ 1 := fun i _ =>
      (cut_le (sq2_nonneg _ i)).trans (pow_le_one₀ (sq2_nonneg _ i) (sq2_le hH (maj_facts hg).2 (state_cast hx).2 hZ i))
    have := Finset.sum_le_sum this
    rw [Finset.sum_const, Finset.card_univ, Fintype.card_fin, nsmul_eq_mul] at this
    push_cast at this
    linarith
  · have := Finset.sum_nonneg fun i (_ : i ∈ Finset.univ) => cut_nonneg k (sq2 (schurR (majCov g ρ)) i)
    linarith

/-- C67. The value is 0 exactly if `M^T M = 1`. -/
theorem C67_zero_iff (hg : jordanWignerMajoranas n = List.ofFn g) (hx : Spec.IsState x ρ)
    (hM : Spec.IsMajoranaCov g ρ M) (hZ : Spec.IsRealSchur M (schurR M) Z) (hk : 1 ≤ k) :
    faf schurR schurC x k = .ok 0 ↔ Mᵀ * M = 1 := by
  have hH := (maj_facts hg).1
  obtain rfl := cov_unique hg (state_cast hx).2.psd.isHermitian hM
  rw [faf_ok hg hH hx schurR schurC hZ hk]
  set T := schurR (majCov g ρ) with hT
  have hle : ∀ i, sq2 T i ≤ 1 := fun i => sq2_le hH (maj_facts hg).2 (state_cast hx).2 hZ i
  have hc : ∀ i ∈ (Finset.univ : Finset (Fin (n + n))), cut k (sq2 T i) ≤ 1 := fun i _ =>
    (cut_le (sq2_nonneg _ i)).trans (pow_le_one₀ (sq2_nonneg _ i) (hle i))
  have hone : ∑ _i : Fin (n + n), (1 : ℝ) = 2 * n := by
    rw [Finset.sum_const, Finset.card_univ, Fintype.card_fin, nsmul_eq_mul]; push_cast; ring
  have hgram := schur_gram_M hZ majCov_skew
  have hZ' : Zᵀ * Z = 1 := mul_eq_one_comm.1 hZ.orth
  constructor
  · intro h
    have h0 := Except.ok.inj h
    have heq := (Finset.sum_eq_sum_iff_of_le hc).1 (by rw [hone]; linarith)
    have hs : sq2 T = 1 := by
      funext i
      have h1 := heq i (Finset.mem_univ i)
      have h2 : 1 ≤ sq2 T i ^ k := by rw [← h1]; exact cut_le (sq2_nonneg _ i)
      refine le_antisymm (hle i) ?_
      by_contra hlt
      have := pow_lt_one₀ (sq2_nonneg T i) (not_le.1 hlt) (by omega : k ≠ 0)
      linarith
    rw [hgram, hs, show diagonal (1 : Fin (n + n) → ℝ) = 1 from diagonal_one, mul_one, hZ.orth]
  · intro h
    have hd : diagonal (sq2 T) = (1 : RMat (n + n)) := by
      calc _ = Zᵀ * Z * diagonal (sq2 T) * (Zᵀ * Z) := by rw [hZ', one_mul, mul_one]
        _ = Zᵀ * (Z * diagonal (sq2 T) * Zᵀ) * Z := by simp only [Matrix.mul_assoc]
        _ = _ := by rw [← hgram, h, mul_one, hZ']
    have hs : ∀ i, sq2 T i = 1 := fun i => by
      have := congrFun (congrFun hd i) i
      simpa using this
    simp only [hs]
    have : cut k 1 = 1 := by rw [cut, if_pos (by norm_num), one_pow]
    rw [this, hone]
    congr 1; ring

/-- C67. The value is 0 for every computational basis state. -/
theorem C67_fock (b : Fin n → Fin 2) (hg : jordanWignerMajoranas n = List.ofFn g)
    (hM : Spec.IsMajoranaCov g (Spec.proj (Spec.fock b)) M) (hZ : Spec.IsRealSchur M (schurR M) Z) (hk : 1 ≤ k) :
    faf schurR schurC (.vec (2 ^ n) (Spec.fock b)) k = .ok 0 := by
  have hx : Spec.IsState (.vec (2 ^ n) (Spec.fock b)) (Spec.proj (Spec.fock b)) := .inl ⟨_, unit_fock b, rfl, rfl⟩
  rw [C67_zero_iff hg hx hM hZ hk]
  obtain rfl := cov_unique hg (state_cast hx).2.psd.isHermitian hM
  obtain ⟨hH, hA⟩ := maj_facts hg
  refine majCov_vacuum hH hA (unit_fock b) (s := fun j => if b j = 0 then 1 else -1) (fun j => ?_) fun j => ?_
  · split_ifs <;> norm_num
  · rw [jordanWignerMajoranas_eq] at hg
    obtain rfl := List.ofFn_injective hg
    simp only [Fin.sum_univ_add, al_left, al_right, buildOmega, blk_11, blk_12, blk_21, blk_22, Matrix.smul_apply, one_apply,
      smul_eq_mul, mul_ite, mul_one, mul_zero, ite_smul, zero_smul, Finset.sum_ite_eq, Finset.mem_univ, if_true, add_mulVec,
      smul_mulVec, jwLower_fock, jwRaise_fock]
    by_cases h : b j = 0
    · simp [h, smul_smul, mul_assoc]
    · have h1 : b j = 1 := by omega
      simp [h1, smul_smul, mul_assoc]

/-- C67. If the unitary `W` maps every Majorana operator to a linear combination of Majorana operators, it does not change
the value. -/
theorem C67_rotation {W : Op (2 ^ n)} (hW : W ∈ Matrix.unitaryGroup (Fin (2 ^ n)) ℂ) {R : Op (n + n)}
    (hg : jordanWignerMajoranas n = List.ofFn g) (hR : ∀ k, Wᴴ * g k * W = ∑ l, R k l • g l)
    (hx : Spec.IsState x ρ) (hM : Spec.IsMajoranaCov g ρ M) (hZ : Spec.IsRealSchur M (schurR M) Z)
    {x' : Arr} {M' Z' : RMat (n + n)} (hx' : Spec.IsState x' (W * ρ * Wᴴ)) (hM' : Spec.IsMajoranaCov g (W * ρ * Wᴴ) M')
    (hZ' : Spec.IsRealSchur M' (schurR M') Z') (hk : 1 ≤ k) :
    faf schurR schurC x' k = faf schurR schurC x k := by
  obtain ⟨hH, hA⟩ := maj_facts hg
  have hρ := (state_cast hx).2.psd.isHermitian
  obtain rfl := cov_unique hg hρ hM
  obtain rfl := cov_unique hg (state_cast hx').2.psd.isHermitian hM'
  have hW' : Wᴴ * W = 1 := mem_unitaryGroup_iff'.1 hW
  have hO : ∀ k, Wᴴ * g k * W = ∑ l, (((R k l).re : ℝ) : ℂ) • g l := by
    intro k
    rw [hR]
    refine Finset.sum_congr rfl fun l _ => ?_
    rw [maj_real hH hA hR]
  have hcov := majCov_rot hH hρ hW' (O := R.map Complex.re) hO
  have hor := rot_orth hA hW' (O := R.map Complex.re) hO
  have hor' : (R.map Complex.re)ᵀ * R.map Complex.re = 1 := mul_eq_one_comm.1 hor
  rw [faf_ok hg hH hx schurR schurC hZ hk, faf_ok hg hH hx' schurR schurC hZ' hk]
  have hroots : ((majCov g (W * ρ * Wᴴ))ᵀ * majCov g (W * ρ * Wᴴ)).charpoly.roots =
      ((majCov g ρ)ᵀ * majCov g ρ).charpoly.roots := by
    set O := R.map Complex.re
    have e : (majCov g (W * ρ * Wᴴ))ᵀ * majCov g (W * ρ * Wᴴ) = O * ((majCov g ρ)ᵀ * majCov g ρ) * Oᵀ := by
      rw [hcov]
      calc _ = O * (majCov g ρ)ᵀ * (Oᵀ * O) * majCov g ρ * Oᵀ := by
            simp only [transpose_mul, transpose_transpose, Matrix.mul_assoc]
        _ = _ := by rw [hor']; simp only [Matrix.mul_assoc, Matrix.one_mul]
    rw [e, charpoly_mul_comm, ← mul_assoc, hor', one_mul]
  rw [schur_roots hZ majCov_skew, schur_roots hZ' majCov_skew] at hroots
  have hsum := congrArg (fun s => (s.map (cut k)).sum) hroots
  simp only [Multiset.map_map] at hsum
  change ∑ i, cut k (sq2 _ i) = ∑ i, cut k (sq2 _ i) at hsum
  rw [hsum]

/-- C67. Free-fermion rotations `W = exp(-iG)`, `G = Σ_ij h_ij α_i† α_j` with Hermitian `h`, do not change the value. -/
theorem C67_gaussian {h : Op (n + n)} (hh : h.IsHermitian) {f : Fin (n + n) → Op (2 ^ n)}
    (hf : jordanWignerAlphas n = List.ofFn f) {W : Op (2 ^ n)} (hW : W = NormedSpace.exp ((-Complex.I) • Spec.quad h f))
    (hg : jordanWignerMajoranas n = List.ofFn g)
    (hx : Spec.IsState x ρ) (hM : Spec.IsMajoranaCov g ρ M) (hZ : Spec.IsRealSchur M (schurR M) Z)
    {x' : Arr} {M' Z' : RMat (n + n)} (hx' : Spec.IsState x' (W * ρ * Wᴴ)) (hM' : Spec.IsMajoranaCov g (W * ρ * Wᴴ) M')
    (hZ' : Spec.IsRealSchur M' (schurR M') Z') (hk : 1 ≤ k) :
    faf schurR schurC x' k = faf schurR schurC x k := by
  subst hW
  rw [jordanWignerAlphas_eq] at hf
  obtain rfl := List.ofFn_injective hf
  have hU := expm_unitary (skewHerm_I (quad_herm hh (al n)))
  have hcomm : ∀ k, al n k * ((-Complex.I) • Spec.quad h (al n)) = ((-Complex.I) • Spec.quad h (al n)) * al n k +
      ∑ l, (Complex.I • (swapS n * hᵀ * swapS n - h)) k l • al n l := by
    intro k
    have h1 : Spec.quad h (al n) * al n k - al n k * Spec.quad h (al n) = _ := lift_comm h k
    have h2 := congrArg (fun X => Complex.I • X) h1
    simp only [Finset.smul_sum, smul_smul, smul_sub] at h2
    rw [Matrix.mul_smul, Matrix.smul_mul]
    simp only [Matrix.smul_apply, smul_eq_mul]
    rw [← h2]
    module
  have hal : ∀ k, (expm ((-Complex.I) • Spec.quad h (al n)))ᴴ * al n k * expm ((-Complex.I) • Spec.quad h (al n)) =
      ∑ l, expm (Complex.I • (swapS n * hᵀ * swapS n - h)) k l • al n l := fun k => by
    rw [mul_assoc, heisenberg _ _ (al n) hcomm k, ← mul_assoc, mul_eq_one_comm.1 hU, one_mul]
  set E := expm (Complex.I • (swapS n * hᵀ * swapS n - h))
  refine C67_rotation (R := buildOmega n * E * (buildOmega n)ᴴ) (mem_unitaryGroup_iff.2 hU) hg (fun k => ?_) hx hM hZ hx'
    hM' hZ' hk
  rw [jordanWignerMajoranas_eq] at hg
  obtain rfl := List.ofFn_injective hg
  have hcomb : ∀ (A B : Op (n + n)) (k : Fin (n + n)), ∑ l, A k l • ∑ m, B l m • al n m = ∑ m, (A * B) k m • al n m := by
    intro A B k
    simp only [Finset.smul_sum, smul_smul, mul_apply, Finset.sum_smul]
    rw [Finset.sum_comm]
  have he : buildOmega n * E * (buildOmega n)ᴴ * buildOmega n = buildOmega n * E := by
    rw [Matrix.mul_assoc, omega_unitary, mul_one]
  rw [hcomb, he, ← hcomb, Matrix.mul_sum, Matrix.sum_mul]
  refine Finset.sum_congr rfl fun l _ => ?_
  rw [← hal, Matrix.mul_smul, Matrix.smul_mul]

/-- For one site every real antisymmetric matrix is its own Schur form, so the hypotheses of the theorems above are met by
every state of one site. -/
example (x : Arr) (ρ : Op (2 ^ 1)) (hx : Spec.IsState x ρ) :
    ∃ g : Fin (1 + 1) → Op (2 ^ 1), jordanWignerMajoranas 1 = List.ofFn g ∧ ∃ M, Spec.IsMajoranaCov g ρ M ∧
      Spec.IsRealSchur M ((fun M => M : {m : ℕ} → RMat m → RMat m) M) 1 := by
  obtain ⟨g, hg, -, -⟩ := C28_majoranas 1
  obtain ⟨M, hM, -, -⟩ := C67_covariance hg hx
  exact ⟨g, hg, M, hM, by simp, by simp, fun i j h => by omega, fun i j k h h' => by omega⟩

end FF.Props
