import Verif.Proofs.FafMore
import Verif.Proofs.SchurAlign
import Verif.Props.SreBounds
import Verif.Props.Wick
import Verif.Props.PureGauss
import Verif.Props.Ground

/-! # Further properties of the fermionic anti-flatness (C119)

The order dependence, the largest value and the value for product states. As in C67, `M` is the Majorana covariance matrix
and `schurR M` what `scipy.linalg.schur` returns for it. -/

namespace FF.Props

open Matrix
open scoped ComplexOrder

section

variable {n : ℕ} {g : Fin (n + n) → Op (2 ^ n)} {ρ : Op (2 ^ n)} {M Z : RMat (n + n)} {x : Arr}
  {schurR : {m : ℕ} → RMat m → RMat m} {schurC : {m : ℕ} → Op m → Op m} {k l : ℕ}

/-- C119. The value does not decrease with the order. -/
theorem C119_monotone (hg : jordanWignerMajoranas n = List.ofFn g) (hx : Spec.IsState x ρ) (hM : Spec.IsMajoranaCov g ρ M)
    (hZ : Spec.IsRealSchur M (schurR M) Z) (hk : 1 ≤ k) (hkl : k ≤ l) :
    ∃ u v, faf schurR schurC x k = .ok u ∧ faf schurR schurC x l = .ok v ∧ u ≤ v := by
  have hH := (maj_facts hg).1
  obtain rfl := cov_unique hg (state_cast hx).2.psd.isHermitian hM
  refine ⟨_, _, faf_ok hg hH hx schurR schurC hZ hk, faf_ok hg hH hx schurR schurC hZ (hk.trans hkl), ?_⟩
  have : ∀ i ∈ (Finset.univ : Finset (Fin (n + n))), cut l (sq2 (schurR (majCov g ρ)) i) ≤ cut k (sq2 (schurR (majCov g ρ)) i) := by
    intro i _
    rw [cut, cut]
    split_ifs
    · exact pow_le_pow_of_le_one (sq2_nonneg _ i) (sq2_le hH (maj_facts hg).2 (state_cast hx).2 hZ i) hkl
    · exact le_rfl
  have := Finset.sum_le_sum this
  linarith

/-- C119. The value is the largest possible one, `n`, exactly if `M` shortens every vector by a factor of at least `1e10`. -/
theorem C119_max_iff (hg : jordanWignerMajoranas n = List.ofFn g) (hx : Spec.IsState x ρ) (hM : Spec.IsMajoranaCov g ρ M)
    (hZ : Spec.IsRealSchur M (schurR M) Z) (hk : 1 ≤ k) :
    faf schurR schurC x k = .ok (n : ℝ) ↔ ∀ v : Fin (n + n) → ℝ, (M *ᵥ v) ⬝ᵥ (M *ᵥ v) ≤ 1e-20 * (v ⬝ᵥ v) := by
  have hH := (maj_facts hg).1
  obtain rfl := cov_unique hg (state_cast hx).2.psd.isHermitian hM
  rw [faf_ok hg hH hx schurR schurC hZ hk]
  set T := schurR (majCov g ρ) with hT
  set C := majCov g ρ with hC
  have hgram : Cᵀ * C = Z * diagonal (sq2 T) * Zᵀ := schur_gram_M hZ majCov_skew
  have hZ' : Zᵀ * Z = 1 := mul_eq_one_comm.1 hZ.orth
  have hval : Except.ok ((n : ℝ) - 1 / 2 * ∑ i, cut k (sq2 T i)) = (Except.ok (n : ℝ) : Except PyErr ℝ) ↔ ∀ i, sq2 T i ≤ 1e-20 := by
    constructor
    · intro h i
      have h0 : ∑ i, cut k (sq2 T i) = 0 := by have := Except.ok.inj h; linarith
      have h1 := (Finset.sum_eq_zero_iff_of_nonneg fun i _ => cut_nonneg k _).1 h0 i (Finset.mem_univ i)
      by_contra hlt
      rw [cut, if_pos (not_le.1 hlt)] at h1
      have : (0 : ℝ) < sq2 T i ^ k := pow_pos (lt_trans (by norm_num) (not_le.1 hlt)) k
      linarith
    · intro h
      rw [Finset.sum_eq_zero fun i _ => by rw [cut, if_neg (not_lt.2 (h i))]]
      simp
  have hq : ∀ v : Fin (n + n) → ℝ, (C *ᵥ v) ⬝ᵥ (C *ᵥ v) = ∑ i, sq2 T i * (Zᵀ *ᵥ v) i ^ 2 := by
    intro v
    calc _ = v ⬝ᵥ ((Cᵀ * C) *ᵥ v) := by
          rw [← mulVec_mulVec, dotProduct_mulVec v, vecMul_transpose]
      _ = (Zᵀ *ᵥ v) ⬝ᵥ (diagonal (sq2 T) *ᵥ (Zᵀ *ᵥ v)) := by
          rw [hgram, ← mulVec_mulVec, ← mulVec_mulVec, dotProduct_mulVec v, ← mulVec_transpose]
      _ = _ := by
          rw [dotProduct]
          refine Finset.sum_congr rfl fun i _ => ?_
          rw [mulVec_diagonal]; ring
  have hn : ∀ v : Fin (n + n) → ℝ, v ⬝ᵥ v = ∑ i, (Zᵀ *ᵥ v) i ^ 2 := by
    intro v
    calc _ = v ⬝ᵥ ((Z * Zᵀ) *ᵥ v) := by rw [hZ.orth, one_mulVec]
      _ = (Zᵀ *ᵥ v) ⬝ᵥ (Zᵀ *ᵥ v) := by rw [← mulVec_mulVec, dotProduct_mulVec v, ← mulVec_transpose]
      _ = _ := Finset.sum_congr rfl fun i _ => (sq _).symm
  rw [hval]
  constructor
  · intro h v
    rw [hq, hn, Finset.mul_sum]
    exact Finset.sum_le_sum fun i _ => mul_le_mul_of_nonneg_right (h i) (sq_nonneg _)
  · intro h i
    have := h (Z *ᵥ Pi.single i 1)
    rw [hq, hn, mulVec_mulVec, hZ', one_mulVec] at this
    rw [Finset.sum_eq_single i (fun j _ hj => by rw [Pi.single_eq_of_ne hj]; ring) (by simp),
      Finset.sum_eq_single i (fun j _ hj => by rw [Pi.single_eq_of_ne hj]; ring) (by simp), Pi.single_eq_same] at this
    linarith

end

section

variable {a b : ℕ} {x y z : Arr} {ρ : Op (2 ^ a)} {σ : Op (2 ^ b)} {ga : Fin (a + a) → Op (2 ^ a)}
  {gb : Fin (b + b) → Op (2 ^ b)} {g : Fin ((a + b) + (a + b)) → Op (2 ^ (a + b))} {τ : Op (2 ^ (a + b))}
  {Ma Za : RMat (a + a)}
  {Mb Zb : RMat (b + b)} {M Z : RMat ((a + b) + (a + b))}
  {schurR : {m : ℕ} → RMat m → RMat m} {schurC : {m : ℕ} → Op m → Op m} {k : ℕ}

/-- C119. Additivity: if one of the two states commutes with the fermion parity, the value for the product state is the sum
of the two values. -/
theorem C119_product (hga : jordanWignerMajoranas a = List.ofFn ga) (hgb : jordanWignerMajoranas b = List.ofFn gb)
    (hg : jordanWignerMajoranas (a + b) = List.ofFn g)
    (hτ : τ = (npKron ρ σ).submatrix (finCongr (pow_add 2 a b)) (finCongr (pow_add 2 a b)))
    (hx : Spec.IsState x ρ) (hy : Spec.IsState y σ) (hz : Spec.IsState z τ)
    (hMa : Spec.IsMajoranaCov ga ρ Ma) (hMb : Spec.IsMajoranaCov gb σ Mb) (hM : Spec.IsMajoranaCov g τ M)
    (hZa : Spec.IsRealSchur Ma (schurR Ma) Za) (hZb : Spec.IsRealSchur Mb (schurR Mb) Zb)
    (hZ : Spec.IsRealSchur M (schurR M) Z)
    (he : Spec.parity a * ρ = ρ * Spec.parity a ∨ Spec.parity b * σ = σ * Spec.parity b) (hk : 1 ≤ k) :
    ∃ u v, faf schurR schurC x k = .ok u ∧ faf schurR schurC y k = .ok v ∧ faf schurR schurC z k = .ok (u + v) := by
  obtain rfl : τ = kr ρ σ := hτ.trans (kr_npKron ρ σ).symm
  obtain rfl := mj_of hga
  obtain rfl := mj_of hgb
  obtain rfl := mj_of hg
  obtain rfl := cov_unique hga (state_cast hx).2.psd.isHermitian hMa
  obtain rfl := cov_unique hgb (state_cast hy).2.psd.isHermitian hMb
  obtain rfl := cov_unique hg (state_cast hz).2.psd.isHermitian hM
  refine ⟨_, _, faf_ok hga (maj_facts hga).1 hx schurR schurC hZa hk, faf_ok hgb (maj_facts hgb).1 hy schurR schurC hZb hk, ?_⟩
  rw [faf_ok hg (maj_facts hg).1 hz schurR schurC hZ hk]
  have hb := majCov_blocks (state_cast hx).2.trace_one (state_cast hy).2.trace_one he
  have hroots := schur_roots hZ majCov_skew
  have hne : ∀ {m : ℕ} (A : RMat m), A.charpoly ≠ 0 := fun A => A.charpoly_monic.ne_zero
  have e : (majCov (mj (a + b)) (kr ρ σ))ᵀ * majCov (mj (a + b)) (kr ρ σ) = reindex (siteEquiv a b) (siteEquiv a b)
      (fromBlocks ((majCov (mj a) ρ)ᵀ * majCov (mj a) ρ) 0 0 ((majCov (mj b) σ)ᵀ * majCov (mj b) σ)) := by
    rw [hb, transpose_submatrix, submatrix_mul_equiv, fromBlocks_transpose, fromBlocks_multiply, reindex_apply]
    simp
  rw [e, charpoly_reindex, charpoly_fromBlocks_zero₁₂, Polynomial.roots_mul (mul_ne_zero (hne _) (hne _)),
    schur_roots hZa majCov_skew, schur_roots hZb majCov_skew] at hroots
  have hsum := congrArg (fun s => (s.map (cut k)).sum) hroots
  simp only [Multiset.map_map, Multiset.map_add, Multiset.sum_add] at hsum
  change ∑ i, cut k (sq2 _ i) + ∑ i, cut k (sq2 _ i) = ∑ i, cut k (sq2 _ i) at hsum
  rw [← hsum]
  push_cast
  congr 1; ring

end

section

variable {schurR : {m : ℕ} → RMat m → RMat m} {schurC : {m : ℕ} → Op m → Op m} {k : ℕ}

theorem plus_unit : Spec.IsUnitVec (n := 2 ^ 1) ![nu, nu] := by
  have : ‖nu‖ ^ 2 = 1 / 2 := by rw [nu_norm, div_pow, Real.sq_sqrt (by norm_num)]; norm_num
  have h : ∑ i : Fin 2, ‖(![nu, nu] : Fin 2 → ℂ) i‖ ^ 2 = 1 := by
    simp only [Fin.sum_univ_two, cons_val_zero, cons_val_one, this]
    norm_num
  exact h

/-- The state with both amplitudes equal. -/
noncomputable def plus : Op 2 := !![1 / 2, 1 / 2; 1 / 2, 1 / 2]

theorem plus_eq : (Spec.proj (n := 2 ^ 1) ![nu, nu] : Op 2) = plus := by
  ext i j
  have h : Spec.proj (n := 2 ^ 1) ![nu, nu] i j = (![nu, nu] : Fin 2 → ℂ) i * (starRingEnd ℂ) ((![nu, nu] : Fin 2 → ℂ) j) := rfl
  rw [h]
  fin_cases i <;> fin_cases j <;> simp [plus, nu_conj, nu_sq]

theorem mj_one : (mj 1 (Fin.castAdd 1 0) : Op 2) = !![0, nu; nu, 0] ∧
    (mj 1 (Fin.natAdd 1 0) : Op 2) = !![0, -(Complex.I * nu); Complex.I * nu, 0] := by
  have e0 : (al 1 (Fin.castAdd 1 0) : Op 2) = (jwLower 1 0 : Op 2)ᴴ := al_left (n := 1) 0
  have e2 : (al 1 (Fin.natAdd 1 0) : Op 2) = jwLower 1 0 := al_right (n := 1) 0
  have hj : (jwLower 1 0 : Op 2) = !![0, 1; 0, 0] := by
    rw [jwLower_eq, jwString]
    ext x y
    refine (kronAll_apply _ (n := 1) x y).trans ?_
    rw [Fin.prod_univ_one]
    fin_cases x <;> fin_cases y <;> simp [sMinus_eq, Spec.digit]
  rw [hj] at e0 e2
  have key : ∀ (d : ℕ) (A B C : Op d) (p q : ℂ), C = p • A + q • B → ∀ x y, C x y = p * A x y + q * B x y := by
    rintro d A B _ p q rfl x y
    rfl
  have h1 := key _ _ _ _ _ _ (mj_left (n := 1) 0)
  have h2 := key _ _ _ _ _ _ (mj_right (n := 1) 0)
  simp only [buildOmega, blk_11, blk_12, blk_21, blk_22, Matrix.smul_apply, one_apply_eq, smul_eq_mul, mul_one] at h1 h2
  have k0 := fun x y : Fin 2 => congrFun (congrFun e0 x) y
  have k2 := fun x y : Fin 2 => congrFun (congrFun e2 x) y
  refine ⟨?_, ?_⟩
  · ext x y
    refine (h1 x y).trans ((congrArg₂ (fun a b => nu * a + nu * b) (k0 x y) (k2 x y)).trans ?_)
    fin_cases x <;> fin_cases y <;> simp
  · ext x y
    refine (h2 x y).trans ((congrArg₂ (fun a b => Complex.I * nu * a + -Complex.I * nu * b) (k0 x y) (k2 x y)).trans ?_)
    fin_cases x <;> fin_cases y <;> simp

theorem parity_one : (Spec.parity 1 : Op 2) = !![1, 0; 0, -1] := by
  have h : ∀ x : Fin 2, (∑ i : Fin 1, (Spec.digit 2 1 x i : ℕ)) = x := by
    intro x; rw [Fin.sum_univ_one]; fin_cases x <;> rfl
  ext x y
  change (diagonal fun x : Fin 2 => (-1 : ℂ) ^ (∑ i : Fin 1, (Spec.digit 2 1 x i : ℕ))) x y = _
  rw [diagonal_apply, h]
  fin_cases x <;> fin_cases y <;> simp

theorem skew_two {N : RMat (1 + 1)} (h : Nᵀ = -N) (h0 : N (Fin.castAdd 1 0) (Fin.natAdd 1 0) = 0) : N = 0 := by
  have hs : ∀ i j, N j i = -N i j := fun i j => congrFun (congrFun h i) j
  have hd : ∀ i, N i i = 0 := fun i => by have := hs i i; linarith
  ext i j
  refine Fin.addCases (fun i => ?_) (fun i => ?_) i <;> refine Fin.addCases (fun j => ?_) (fun j => ?_) j <;>
    obtain rfl := Subsingleton.elim i 0 <;> obtain rfl := Subsingleton.elim j 0
  · exact hd _
  · exact h0
  · rw [hs, h0, neg_zero]; rfl
  · exact hd _

theorem plus_cov : majCov (mj 1) (Spec.proj (n := 2 ^ 1) ![nu, nu]) = 0 := by
  obtain ⟨h0, h1⟩ := mj_one
  have key : majCov (mj 1) (Spec.proj (n := 2 ^ 1) ![nu, nu]) (Fin.castAdd 1 0) (Fin.natAdd 1 0) = 0 := by
    have e : ∀ (A B R : Op 2), A = !![0, nu; nu, 0] → B = !![0, -(Complex.I * nu); Complex.I * nu, 0] → R = plus →
        ((-Complex.I) * (R * (A * B - B * A)).trace).re = 0 := by
      rintro A B R rfl rfl rfl
      simp [plus, Matrix.trace, Fin.sum_univ_two, Matrix.mul_apply]
      ring
    rw [majCov, of_apply]
    exact e _ _ _ h0 h1 plus_eq
  exact skew_two majCov_skew key

theorem plus_cross : majCov (mj (1 + 1)) (kr (Spec.proj (n := 2 ^ 1) ![nu, nu]) (Spec.proj (n := 2 ^ 1) ![nu, nu]))
    (Spec.firstSites 1 1 (Fin.natAdd 1 0)) (Spec.lastSites 1 1 (Fin.castAdd 1 0)) = 1 := by
  obtain ⟨h0, h1⟩ := mj_one
  rw [majCov_cross]
  have e : ∀ (A B R P : Op 2), A = !![0, nu; nu, 0] → B = !![0, -(Complex.I * nu); Complex.I * nu, 0] → R = plus →
      P = !![1, 0; 0, -1] →
      ((-Complex.I) * (((R * (B * P)).trace - (R * (P * B)).trace) * (R * A).trace)).re = 1 := by
    rintro A B R P rfl rfl rfl rfl
    have h : (-Complex.I) * (((plus * (!![0, -(Complex.I * nu); Complex.I * nu, 0] * !![1, 0; 0, -1] : Op 2)).trace -
        (plus * (!![1, 0; 0, -1] * !![0, -(Complex.I * nu); Complex.I * nu, 0] : Op 2)).trace) *
        (plus * (!![0, nu; nu, 0] : Op 2)).trace) = 1 := by
      simp only [plus, Matrix.trace, Fin.sum_univ_two, Matrix.mul_apply, diag_apply, of_apply, cons_val_zero, cons_val_one]
      linear_combination (-2 * Complex.I * Complex.I) * nu_sq - Complex.I_mul_I
    rw [h, Complex.one_re]
  exact e _ _ _ _ h0 h1 plus_eq parity_one

/-- C119. The condition on the parity is needed: for the state `(|0> + |1>) / sqrt 2` the value is 1, but for two copies of it,
it is less than 2. -/
theorem C119_not_additive (hS : ∀ {m : ℕ} (A : RMat m), Aᵀ = -A → ∃ Z, Spec.IsRealSchur A (schurR A) Z) (hk : 1 ≤ k) :
    ∃ (x z : Arr) (ρ : Op (2 ^ 1)), Spec.IsState x ρ ∧ Spec.IsState z (npKron ρ ρ) ∧ faf schurR schurC x k = .ok 1 ∧
      ∃ w, faf schurR schurC z k = .ok w ∧ w < 2 := by
  have hx : Spec.IsState (.vec (2 ^ 1) ![nu, nu]) (Spec.proj (n := 2 ^ 1) ![nu, nu]) := .inl ⟨_, plus_unit, rfl, rfl⟩
  have hz := product_state hx hx
  have hz' := kr_state hz
  obtain ⟨ga, hga, -, -⟩ := C28_majoranas 1
  obtain ⟨g, hg, -, -⟩ := C28_majoranas (1 + 1)
  obtain ⟨Ma, hMa, hsa, -⟩ := C67_covariance hga hx
  obtain ⟨M, hM, hs, -⟩ := C67_covariance hg hz'
  obtain ⟨Za, hZa⟩ := hS Ma hsa
  obtain ⟨Z, hZ⟩ := hS M hs
  refine ⟨_, _, _, hx, hz, ?_, ?_⟩
  · have := (C119_max_iff (schurC := schurC) hga hx hMa hZa hk).2 fun v => ?_
    · rw [this]; simp
    · obtain rfl := cov_unique hga (state_cast hx).2.psd.isHermitian hMa
      obtain rfl := mj_of hga
      rw [plus_cov, zero_mulVec, zero_dotProduct]
      have : 0 ≤ v ⬝ᵥ v := Finset.sum_nonneg fun i _ => mul_self_nonneg _
      positivity
  · obtain ⟨w, hw, -, hle⟩ := C67_bounds (schurC := schurC) hg hz' hM hZ hk
    have e2 : (((1 + 1 : ℕ)) : ℝ) = 2 := by norm_num
    rw [e2] at hle
    refine ⟨w, hw, lt_of_le_of_ne hle ?_⟩
    rintro rfl
    rw [← e2] at hw
    have h := (C119_max_iff hg hz' hM hZ hk).1 hw (Pi.single (Spec.lastSites 1 1 (Fin.castAdd 1 0)) 1)
    obtain rfl := cov_unique hg (state_cast hz').2.psd.isHermitian hM
    obtain rfl := mj_of hg
    rw [mulVec_single_one, dotProduct_single, Pi.single_eq_same, dotProduct] at h
    have h2 := Finset.single_le_sum (f := fun i => majCov (mj (1 + 1)) (kr (Spec.proj (n := 2 ^ 1) ![nu, nu])
      (Spec.proj (n := 2 ^ 1) ![nu, nu])) i (Spec.lastSites 1 1 (Fin.castAdd 1 0)) * majCov (mj (1 + 1))
      (kr (Spec.proj (n := 2 ^ 1) ![nu, nu]) (Spec.proj (n := 2 ^ 1) ![nu, nu])) i (Spec.lastSites 1 1 (Fin.castAdd 1 0)))
      (fun i _ => mul_self_nonneg _) (Finset.mem_univ (Spec.firstSites 1 1 (Fin.natAdd 1 0)))
    rw [plus_cross] at h2
    have h3 := h2.trans h
    norm_num at h3

/-- C119. The maximally mixed state of `n` sites has the largest value, `n`, at every order. -/
theorem C119_maximally_mixed (n : ℕ) (hS : ∀ {m : ℕ} (A : RMat m), Aᵀ = -A → ∃ Z, Spec.IsRealSchur A (schurR A) Z)
    {x : Arr} (hx : Spec.IsState x ((1 / 2 ^ n : ℂ) • (1 : Op (2 ^ n)))) (hk : 1 ≤ k) : faf schurR schurC x k = .ok (n : ℝ) := by
  obtain ⟨g, hg, -, -⟩ := C28_majoranas n
  obtain ⟨M, hM, hs, -⟩ := C67_covariance hg hx
  obtain ⟨Z, hZ⟩ := hS M hs
  refine (C119_max_iff hg hx hM hZ hk).2 fun v => ?_
  obtain rfl := cov_unique hg (state_cast hx).2.psd.isHermitian hM
  have h0 : majCov g ((1 / 2 ^ n : ℂ) • (1 : Op (2 ^ n))) = 0 := by
    ext i j
    rw [majCov, of_apply, Matrix.smul_mul, Matrix.one_mul, trace_smul, trace_sub, trace_mul_comm (g i), sub_self]
    simp
  rw [h0, zero_mulVec, zero_dotProduct]
  have : 0 ≤ v ⬝ᵥ v := Finset.sum_nonneg fun i _ => mul_self_nonneg _
  positivity

/-- C119. `FAF` is documented to vanish for free-fermion states. It is positive for every state that
`generate_gaussian_state(n, H)` returns, `n ≥ 3`, `H` Hermitian, although Wick's theorem holds in all of them. -/
theorem C119_violation {n : ℕ} (hn : 3 ≤ n) (hS : ∀ {m : ℕ} (A : RMat m), Aᵀ = -A → ∃ Z, Spec.IsRealSchur A (schurR A) Z)
    (H : Op (n + n)) (hH : H.IsHermitian) (hk : 1 ≤ k) :
    ∃ ρ, generateGaussianState n H none = .ok (some ρ) ∧
      (∀ f : Fin (n + n) → Op (2 ^ n), jordanWignerAlphas n = List.ofFn f → Spec.ObeysWick f ρ) ∧
      ∃ v, faf schurR schurC (.mat (2 ^ n) (2 ^ n) ρ) k = .ok v ∧ 0 < v := by
  obtain ⟨Q, P, ρ, -, -, h1, h2, -⟩ := C116_violation hn H hH (al n)
  obtain ⟨Q', ρ', -, h1', -, h5, h6⟩ := C41_coefficients_partial n hn H hH (al n)
  obtain rfl : ρ' = ρ := by simpa using h1'.symm.trans h1
  rw [← jordanWignerAlphas_eq, ← C41_default] at h1
  obtain ⟨g, hg, -, -⟩ := C28_majoranas n
  have hx : Spec.IsState (.mat (2 ^ n) (2 ^ n) ρ') ρ' := mat_state ⟨h5.posSemidef, h6⟩
  obtain ⟨M, hM, hs, -⟩ := C67_covariance hg hx
  obtain ⟨Z, hZ⟩ := hS M hs
  refine ⟨ρ', h1, fun f hf => (C88_thermal hn H hH ρ' h1 hf hg).1, ?_⟩
  obtain ⟨v, hv, h0, -⟩ := C67_bounds (schurC := schurC) hg hx hM hZ hk
  refine ⟨v, hv, lt_of_le_of_ne h0 ?_⟩
  rintro rfl
  obtain ⟨ψ, -, hψ⟩ := (C90_pure (jordanWignerAlphas_eq n) hg hx hM hZ hk hv).1
  exact h2 ψ hψ

/-- A routine that meets the contract of `scipy.linalg.schur` for every skew-symmetric array exists. -/
theorem schur_routine : ∃ schurR : {m : ℕ} → RMat m → RMat m,
    ∀ {m : ℕ} (A : RMat m), Aᵀ = -A → ∃ Z, Spec.IsRealSchur A (schurR A) Z := by
  classical
  have h : ∀ (m : ℕ) (A : RMat m), ∃ T, Aᵀ = -A → ∃ Z, Spec.IsRealSchur A T Z := by
    intro m A
    by_cases hA : Aᵀ = -A
    · obtain ⟨T, Z, h1, h2, -, h3, h4, -⟩ := schur_exists m A hA
      exact ⟨T, fun _ => ⟨Z, h1, h2, h3, h4⟩⟩
    · exact ⟨A, fun h => absurd h hA⟩
  choose S hS using h
  exact ⟨fun {m} A => S m A, fun {m} A hA => hS m A hA⟩

/-- The hypotheses of the statements about one state are met by a state with superposed particle numbers, those of the
statement about products by a superposition next to a basis state. -/
example : ∃ (schurR : {m : ℕ} → RMat m → RMat m) (x y z : Arr) (ρ σ : Op (2 ^ 1)) (τ : Op (2 ^ (1 + 1)))
    (ga : Fin (1 + 1) → Op (2 ^ 1)) (g : Fin ((1 + 1) + (1 + 1)) → Op (2 ^ (1 + 1))) (Ma Za Mb Zb : RMat (1 + 1))
    (M Z : RMat ((1 + 1) + (1 + 1))), jordanWignerMajoranas 1 = List.ofFn ga ∧ jordanWignerMajoranas (1 + 1) = List.ofFn g ∧
      τ = (npKron ρ σ).submatrix (finCongr (pow_add 2 1 1)) (finCongr (pow_add 2 1 1)) ∧
      Spec.IsState x ρ ∧ Spec.IsState y σ ∧ Spec.IsState z τ ∧ Spec.IsMajoranaCov ga ρ Ma ∧ Spec.IsMajoranaCov ga σ Mb ∧
      Spec.IsMajoranaCov g τ M ∧ Spec.IsRealSchur Ma (schurR Ma) Za ∧ Spec.IsRealSchur Mb (schurR Mb) Zb ∧
      Spec.IsRealSchur M (schurR M) Z ∧ Spec.parity 1 * σ = σ * Spec.parity 1 ∧ Spec.parity 1 * ρ ≠ ρ * Spec.parity 1 := by
  obtain ⟨schurR, hS⟩ := schur_routine
  have hx : Spec.IsState (.vec (2 ^ 1) ![nu, nu]) (Spec.proj (n := 2 ^ 1) ![nu, nu]) := .inl ⟨_, plus_unit, rfl, rfl⟩
  have hy : Spec.IsState (.vec (2 ^ 1) ![1, 0]) (Spec.proj (n := 2 ^ 1) ![1, 0]) := .inl ⟨_, ket0_unit, rfl, rfl⟩
  have hz := kr_state (product_state hx hy)
  obtain ⟨ga, hga, -, -⟩ := C28_majoranas 1
  obtain ⟨g, hg, -, -⟩ := C28_majoranas (1 + 1)
  obtain ⟨Ma, hMa, hsa, -⟩ := C67_covariance hga hx
  obtain ⟨Mb, hMb, hsb, -⟩ := C67_covariance hga hy
  obtain ⟨M, hM, hs, -⟩ := C67_covariance hg hz
  obtain ⟨Za, hZa⟩ := hS Ma hsa
  obtain ⟨Zb, hZb⟩ := hS Mb hsb
  obtain ⟨Z, hZ⟩ := hS M hs
  refine ⟨schurR, _, _, _, _, _, _, ga, g, Ma, Za, Mb, Zb, M, Z, hga, hg, kr_npKron _ _, hx, hy, hz, hMa, hMb, hM, hZa, hZb, hZ,
    ?_, fun h => ?_⟩
  · have e : (Spec.proj (n := 2 ^ 1) ![1, 0] : Op 2) = !![1, 0; 0, 0] := by
      ext i j
      have h : Spec.proj (n := 2 ^ 1) ![1, 0] i j = (![1, 0] : Fin 2 → ℂ) i * (starRingEnd ℂ) ((![1, 0] : Fin 2 → ℂ) j) := rfl
      rw [h]
      fin_cases i <;> fin_cases j <;> simp
    have key : ∀ A B : Op 2, A = !![1, 0; 0, -1] → B = !![1, 0; 0, 0] → A * B = B * A := by
      rintro _ _ rfl rfl
      ext i j
      fin_cases i <;> fin_cases j <;> simp
    exact key _ _ parity_one e
  · have key : ∀ A B : Op 2, A = !![1, 0; 0, -1] → B = plus → A * B ≠ B * A := by
      rintro _ _ rfl rfl h
      have := congrFun (congrFun h 0) 1
      simp [plus] at this
      norm_num at this
    exact key _ _ parity_one plus_eq h

end

end FF.Props
