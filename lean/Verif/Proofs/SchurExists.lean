import Verif.Spec.Eigen
import Mathlib.Analysis.Matrix.Spectrum
import Mathlib.Analysis.InnerProductSpace.PiL2
import Mathlib.Data.Matrix.Block
import Mathlib.Logic.Equiv.Fin.Basic

/-! # Helper lemmas: every real skew-symmetric array has a sorted real Schur form -/

namespace FF

open Matrix

/-- A largest singular value, with its vector, and the bound it gives. -/
theorem max_singular {m : ℕ} [NeZero m] (M : Matrix (Fin m) (Fin m) ℝ) : ∃ (l : ℝ) (v : Fin m → ℝ),
    v ⬝ᵥ v = 1 ∧ (Mᵀ * M) *ᵥ v = l • v ∧ ∀ y : Fin m → ℝ, (M *ᵥ y) ⬝ᵥ (M *ᵥ y) ≤ l * (y ⬝ᵥ y) := by
  have hN : (Mᵀ * M).IsHermitian := by
    rw [IsHermitian, conjTranspose_mul]
    rfl
  obtain ⟨k, hk⟩ := Finite.exists_max hN.eigenvalues
  have hin : ∀ x y : EuclideanSpace ℝ (Fin m), inner ℝ x y = x.ofLp ⬝ᵥ y.ofLp := by
    intro x y
    rw [EuclideanSpace.inner_eq_star_dotProduct, dotProduct_comm]
    rfl
  refine ⟨hN.eigenvalues k, (hN.eigenvectorBasis k).ofLp, ?_, hN.mulVec_eigenvectorBasis k, fun y => ?_⟩
  · rw [← hin, real_inner_self_eq_norm_sq, hN.eigenvectorBasis.orthonormal.1 k]
    norm_num
  · have e1 : (M *ᵥ y) ⬝ᵥ (M *ᵥ y) = y ⬝ᵥ ((Mᵀ * M) *ᵥ y) := by
      rw [← mulVec_mulVec, dotProduct_mulVec y, vecMul_transpose]
    let Y : EuclideanSpace ℝ (Fin m) := WithLp.toLp 2 y
    let NY : EuclideanSpace ℝ (Fin m) := WithLp.toLp 2 ((Mᵀ * M) *ᵥ y)
    have e2 : y ⬝ᵥ ((Mᵀ * M) *ᵥ y) = inner ℝ Y NY := (hin Y NY).symm
    have e3 : ∀ i, inner ℝ (hN.eigenvectorBasis i) NY = hN.eigenvalues i * inner ℝ (hN.eigenvectorBasis i) Y := by
      intro i
      rw [hin, hin]
      show (hN.eigenvectorBasis i).ofLp ⬝ᵥ ((Mᵀ * M) *ᵥ y) = _ * ((hN.eigenvectorBasis i).ofLp ⬝ᵥ y)
      have hs : (Mᵀ * M)ᵀ = Mᵀ * M := hN
      rw [dotProduct_mulVec, ← mulVec_transpose, hs, hN.mulVec_eigenvectorBasis, smul_dotProduct, smul_eq_mul]
    have e4 : y ⬝ᵥ y = inner ℝ Y Y := (hin Y Y).symm
    rw [e1, e2, e4, ← hN.eigenvectorBasis.sum_inner_mul_inner, ← hN.eigenvectorBasis.sum_inner_mul_inner Y Y,
      Finset.mul_sum]
    refine Finset.sum_le_sum fun i _ => ?_
    rw [e3, real_inner_comm (hN.eigenvectorBasis i) Y]
    have := mul_le_mul_of_nonneg_right (hk i) (mul_self_nonneg (inner ℝ (hN.eigenvectorBasis i) Y))
    linarith

/-- Two orthonormal vectors are the first two columns of an orthogonal array. -/
theorem extend_orth {m : ℕ} {v w : Fin (2 + m) → ℝ} (hv : v ⬝ᵥ v = 1) (hw : w ⬝ᵥ w = 1) (hvw : v ⬝ᵥ w = 0) :
    ∃ Z : Matrix (Fin (2 + m)) (Fin 2 ⊕ Fin m) ℝ, Zᵀ * Z = 1 ∧ Z * Zᵀ = 1 ∧ Z.col (.inl 0) = v ∧ Z.col (.inl 1) = w := by
  have hin : ∀ x y : EuclideanSpace ℝ (Fin (2 + m)), inner ℝ x y = x.ofLp ⬝ᵥ y.ofLp := by
    intro x y
    rw [EuclideanSpace.inner_eq_star_dotProduct, dotProduct_comm]
    rfl
  let V : Fin 2 ⊕ Fin m → EuclideanSpace ℝ (Fin (2 + m)) :=
    Sum.elim ![WithLp.toLp 2 v, WithLp.toLp 2 w] fun _ => 0
  have ho : Orthonormal ℝ ((Set.range (Sum.inl : Fin 2 → Fin 2 ⊕ Fin m)).restrict V) := by
    rw [orthonormal_iff_ite]
    rintro ⟨_, i, rfl⟩ ⟨_, j, rfl⟩
    simp only [Set.restrict_apply, hin, V, Sum.elim_inl, Subtype.mk.injEq, Sum.inl.injEq]
    revert i j
    refine Fin.forall_fin_two.2 ⟨Fin.forall_fin_two.2 ⟨?_, ?_⟩, Fin.forall_fin_two.2 ⟨?_, ?_⟩⟩
    · rw [if_pos rfl]; exact hv
    · rw [if_neg (fun h => by simpa using congrArg Subtype.val h)]; exact hvw
    · rw [if_neg (fun h => by simpa using congrArg Subtype.val h)]; exact (dotProduct_comm _ _).trans hvw
    · rw [if_pos rfl]; exact hw
  obtain ⟨b, hb⟩ := ho.exists_orthonormalBasis_extension_of_card_eq (by simp)
  have h1 : (Matrix.of fun x a => b a x : Matrix (Fin (2 + m)) (Fin 2 ⊕ Fin m) ℝ)ᵀ *
      (Matrix.of fun x a => b a x) = 1 := by
    ext i j
    have := (orthonormal_iff_ite.1 b.orthonormal) i j
    rw [hin] at this
    rw [mul_apply, one_apply]
    exact this
  refine ⟨Matrix.of fun x a => b a x, h1, ?_, ?_, ?_⟩
  · exact (mul_eq_one_comm_of_equiv finSumFinEquiv.symm).2 h1
  · ext x
    have := hb (.inl 0) ⟨0, rfl⟩
    simp [Matrix.col, this, V]
  · ext x
    have := hb (.inl 1) ⟨1, rfl⟩
    simp [Matrix.col, this, V]

theorem mul_eq_one_cols {m : ℕ} {Z : Matrix (Fin m) (Fin m) ℝ} (hZ : Z * Zᵀ = 1) (a : Fin m) :
    Z.col a ⬝ᵥ Z.col a = 1 := by
  have h0 : Zᵀ * Z = 1 := mul_eq_one_comm.1 hZ
  have h := congrFun (congrFun h0 a) a
  rw [one_apply_eq, mul_apply] at h
  exact h

theorem abs_bilin {m : ℕ} {M : Matrix (Fin m) (Fin m) ℝ} {l : ℝ} (hl : 0 ≤ l)
    (hb : ∀ y : Fin m → ℝ, (M *ᵥ y) ⬝ᵥ (M *ᵥ y) ≤ l ^ 2 * (y ⬝ᵥ y)) {x y : Fin m → ℝ} (hx : x ⬝ᵥ x = 1)
    (hy : y ⬝ᵥ y = 1) : |x ⬝ᵥ (M *ᵥ y)| ≤ l := by
  refine abs_le_of_sq_le_sq ?_ hl
  have h1 := Finset.sum_mul_sq_le_sq_mul_sq Finset.univ x (M *ᵥ y)
  have e1 : ∑ i, x i ^ 2 = x ⬝ᵥ x := by simp [dotProduct, pow_two]
  have e2 : ∑ i, (M *ᵥ y) i ^ 2 = (M *ᵥ y) ⬝ᵥ (M *ᵥ y) := by simp [dotProduct, pow_two]
  rw [e1, e2, hx, one_mul] at h1
  have h2 := hb y
  rw [hy, mul_one] at h2
  exact h1.trans h2

/-- Every real skew-symmetric array has a real Schur form with decreasing blocks. -/
theorem schur_exists : ∀ (m : ℕ) (M : Matrix (Fin m) (Fin m) ℝ), Mᵀ = -M →
    ∃ T Z : Matrix (Fin m) (Fin m) ℝ, Z * Zᵀ = 1 ∧ Z * T * Zᵀ = M ∧ Tᵀ = -T ∧
      (∀ i j : Fin m, (j : ℕ) + 1 < i → T i j = 0) ∧
      (∀ i j k : Fin m, (j : ℕ) = i + 1 → (k : ℕ) = j + 1 → T j i = 0 ∨ T k j = 0) ∧
      ∀ ε : ℝ, ∀ i j : Fin m, i ≤ j → (∀ k, |T i k| ≤ ε) → ∀ k, |T j k| ≤ ε := by
  intro m
  induction m using Nat.strong_induction_on with
  | _ m ih =>
  intro M hM
  have hsk : ∀ i j, M i j = - M j i := fun i j => congrFun (congrFun hM j) i
  by_cases h0 : M = 0
  · refine ⟨0, 1, by simp, by simp [h0], by simp, by simp, by simp, ?_⟩
    intro ε i j _ h k
    simpa using h i
  obtain ⟨m, rfl⟩ : ∃ m', m = 2 + m' := by
    refine ⟨m - 2, ?_⟩
    rcases m with _ | _ | m
    · exact absurd (by ext i; exact i.elim0) h0
    · refine absurd ?_ h0
      ext i j
      have := hsk i j
      rw [show j = i from Fin.ext (by omega)] at this ⊢
      rw [Matrix.zero_apply]
      linarith
    · omega
  haveI : NeZero (2 + m) := ⟨by omega⟩
  obtain ⟨l, v, hv, hl, hb⟩ := max_singular M
  have hlv : (M *ᵥ v) ⬝ᵥ (M *ᵥ v) = l := by
    rw [dotProduct_mulVec, ← mulVec_transpose, mulVec_mulVec, hl, smul_dotProduct, hv, smul_eq_mul, mul_one]
  have hl0 : 0 ≤ l := hlv ▸ (Finset.sum_nonneg fun i _ => mul_self_nonneg _)
  have hlpos : 0 < l := by
    rcases hl0.lt_or_eq with h | h
    · exact h
    · refine absurd ?_ h0
      apply Matrix.ext_of_mulVec_single
      intro x
      have := hb (Pi.single x 1)
      rw [← h, zero_mul] at this
      rw [Matrix.zero_mulVec]
      exact dotProduct_self_eq_zero.1 (le_antisymm this ((Finset.sum_nonneg fun i _ => mul_self_nonneg _)))
  obtain ⟨s, hs, hsl⟩ : ∃ s : ℝ, 0 < s ∧ s ^ 2 = l := ⟨Real.sqrt l, Real.sqrt_pos.2 hlpos, Real.sq_sqrt hl0⟩
  have hskew : ∀ x y : Fin (2 + m) → ℝ, x ⬝ᵥ (M *ᵥ y) = - (y ⬝ᵥ (M *ᵥ x)) := by
    intro x y
    rw [dotProduct_mulVec, ← mulVec_transpose, hM, neg_mulVec, neg_dotProduct, dotProduct_comm]
  set w : Fin (2 + m) → ℝ := (-s⁻¹) • (M *ᵥ v) with hw
  have hvw : v ⬝ᵥ w = 0 := by
    have := hskew v v
    rw [hw, dotProduct_smul, smul_eq_mul, show v ⬝ᵥ (M *ᵥ v) = 0 by linarith, mul_zero]
  have hww : w ⬝ᵥ w = 1 := by
    rw [hw, smul_dotProduct, dotProduct_smul, hlv, ← hsl, smul_eq_mul, smul_eq_mul]
    field_simp
  have hMv : M *ᵥ v = (-s) • w := by
    rw [hw, smul_smul, neg_mul_neg, mul_inv_cancel₀ hs.ne', one_smul]
  have hMw : M *ᵥ w = s • v := by
    have e : M *ᵥ (M *ᵥ v) = -(l • v) := by
      rw [← hl, hM, Matrix.neg_mul, neg_mulVec, neg_neg, mulVec_mulVec]
    rw [hw, mulVec_smul, e, ← hsl, smul_neg, neg_smul, neg_neg, smul_smul]
    congr 1
    field_simp
  obtain ⟨Z0, hZ1, hZ2, hc0, hc1⟩ := extend_orth hv hww hvw
  set N := Z0ᵀ * M * Z0 with hN
  have hNe : ∀ a b, N a b = Z0.col a ⬝ᵥ (M *ᵥ Z0.col b) := by
    intro a b
    rw [hN, Matrix.mul_assoc, mul_apply]
    rfl
  have hcols : ∀ a b, Z0.col a ⬝ᵥ Z0.col b = if a = b then 1 else 0 := by
    intro a b
    have := congrFun (congrFun hZ1 a) b
    rw [mul_apply, one_apply] at this
    exact this
  have hNsk : ∀ a b, N a b = - N b a := fun a b => by rw [hNe, hNe, hskew]
  have hN0 : ∀ a, N a (.inl 0) = -s * if a = .inl 1 then 1 else 0 := by
    intro a
    rw [hNe, hc0, hMv, ← hc1, dotProduct_smul, hcols, smul_eq_mul]
  have hN1 : ∀ a, N a (.inl 1) = s * if a = .inl 0 then 1 else 0 := by
    intro a
    rw [hNe, hc1, hMw, ← hc0, dotProduct_smul, hcols, smul_eq_mul]
  let J : Matrix (Fin 2) (Fin 2) ℝ := !![0, s; -s, 0]
  have hNb : N = fromBlocks J 0 0 N.toBlocks₂₂ := by
    have h21 : ∀ i : Fin m, ∀ j : Fin 2, N (.inr i) (.inl j) = 0 := by
      intro i
      refine Fin.forall_fin_two.2 ⟨?_, ?_⟩
      · rw [hN0, if_neg (by simp), mul_zero]
      · rw [hN1, if_neg (by simp), mul_zero]
    ext a b
    rcases a with a | a <;> rcases b with b | b
    · revert a b
      refine Fin.forall_fin_two.2 ⟨Fin.forall_fin_two.2 ⟨?_, ?_⟩, Fin.forall_fin_two.2 ⟨?_, ?_⟩⟩
      · rw [hN0]; simp [J]
      · rw [hN1]; simp [J]
      · rw [hN0]; simp [J]
      · rw [hN1]; simp [J]
    · rw [hNsk, h21]; simp
    · rw [h21]; simp
    · rfl
  obtain ⟨T', Z', hZo, hZd, hTs, hq, hbl, hso⟩ := ih m (by omega) N.toBlocks₂₂ (by
    ext i j
    exact hNsk _ _)
  have hZo' : Z'ᵀ * Z' = 1 := mul_eq_one_comm.1 hZo
  let e : Fin 2 ⊕ Fin m ≃ Fin (2 + m) := finSumFinEquiv
  set TT : Matrix (Fin 2 ⊕ Fin m) (Fin 2 ⊕ Fin m) ℝ := fromBlocks J 0 0 T' with hTT
  set ZZ : Matrix (Fin (2 + m)) (Fin 2 ⊕ Fin m) ℝ := Z0 * fromBlocks 1 0 0 Z' with hZZ
  have hZZo : ZZ * ZZᵀ = 1 := by
    rw [hZZ, transpose_mul, fromBlocks_transpose, Matrix.mul_assoc, ← Matrix.mul_assoc (fromBlocks _ _ _ _),
      fromBlocks_multiply]
    simp only [transpose_one, transpose_zero, Matrix.mul_zero, Matrix.zero_mul, Matrix.mul_one, add_zero, zero_add, hZo,
      fromBlocks_one, Matrix.one_mul, hZ2]
  have hZZd : ZZ * TT * ZZᵀ = M := by
    have e1 : fromBlocks (1 : Matrix (Fin 2) (Fin 2) ℝ) 0 0 Z' * TT * (fromBlocks (1 : Matrix (Fin 2) (Fin 2) ℝ) 0 0 Z')ᵀ = N := by
      rw [hNb, hTT, fromBlocks_transpose, fromBlocks_multiply, fromBlocks_multiply]
      simp only [transpose_one, transpose_zero, Matrix.mul_zero, Matrix.zero_mul, Matrix.mul_one, add_zero, zero_add,
        Matrix.one_mul, hZd]
    calc ZZ * TT * ZZᵀ = Z0 * (fromBlocks 1 0 0 Z' * TT * (fromBlocks 1 0 0 Z')ᵀ) * Z0ᵀ := by
          rw [hZZ, transpose_mul]; simp only [Matrix.mul_assoc]
      _ = (Z0 * Z0ᵀ) * M * (Z0 * Z0ᵀ) := by rw [e1, hN]; simp only [Matrix.mul_assoc]
      _ = M := by rw [hZ2, one_mul, mul_one]
  have htoZ : (ZZ.submatrix id e.symm) * (ZZ.submatrix id e.symm)ᵀ = 1 := by
    rw [transpose_submatrix, submatrix_mul_equiv, hZZo, submatrix_one _ Function.injective_id]
  have htoD : (ZZ.submatrix id e.symm) * (TT.submatrix e.symm e.symm) * (ZZ.submatrix id e.symm)ᵀ = M := by
    rw [transpose_submatrix, submatrix_mul_equiv, submatrix_mul_equiv, hZZd, submatrix_id_id]
  have hTe : ∀ a b, TT.submatrix e.symm e.symm (e a) (e b) = TT a b := fun a b => by simp
  have hTTs : ∀ a b, TT a b = - TT b a := by
    intro a b
    rcases a with a | a <;> rcases b with b | b
    · revert a b
      refine Fin.forall_fin_two.2 ⟨Fin.forall_fin_two.2 ⟨?_, ?_⟩, Fin.forall_fin_two.2 ⟨?_, ?_⟩⟩ <;> simp [hTT, J]
    · simp [hTT]
    · simp [hTT]
    · exact congrFun (congrFun hTs b) a
  have hbig : ∀ a b, |TT.submatrix e.symm e.symm a b| ≤ s := by
    intro a b
    have hT : TT.submatrix e.symm e.symm = (ZZ.submatrix id e.symm)ᵀ * M * (ZZ.submatrix id e.symm) := by
      have h1 : (ZZ.submatrix id e.symm)ᵀ * (ZZ.submatrix id e.symm) = 1 := mul_eq_one_comm.1 htoZ
      rw [← htoD]
      simp only [Matrix.mul_assoc]
      rw [h1, mul_one, ← Matrix.mul_assoc, h1, one_mul]
    have h2 : TT.submatrix e.symm e.symm a b =
        (ZZ.submatrix id e.symm).col a ⬝ᵥ (M *ᵥ (ZZ.submatrix id e.symm).col b) := by
      rw [hT, Matrix.mul_assoc, mul_apply]
      rfl
    rw [h2]
    exact abs_bilin hs.le (fun y => hsl ▸ hb y) (mul_eq_one_cols htoZ a) (mul_eq_one_cols htoZ b)
  have hel : ∀ i : Fin 2, ((e (.inl i) : Fin (2 + m)) : ℕ) = i := fun i => by simp [e]
  have her : ∀ i : Fin m, ((e (.inr i) : Fin (2 + m)) : ℕ) = 2 + i := fun i => by simp [e]
  have hz12 : ∀ i j, TT (.inl i) (.inr j) = 0 := fun i j => by simp [hTT]
  have hz21 : ∀ i j, TT (.inr i) (.inl j) = 0 := fun i j => by simp [hTT]
  refine ⟨TT.submatrix e.symm e.symm, ZZ.submatrix id e.symm, htoZ, htoD, ?_, ?_, ?_, ?_⟩
  · ext i j
    obtain ⟨a, rfl⟩ := e.surjective i
    obtain ⟨b, rfl⟩ := e.surjective j
    rw [transpose_apply, Matrix.neg_apply, hTe, hTe, hTTs]
  · intro i j
    obtain ⟨a, rfl⟩ := e.surjective i
    obtain ⟨b, rfl⟩ := e.surjective j
    rw [hTe]
    intro h
    rcases a with a | a <;> rcases b with b | b
    · rw [hel, hel] at h; omega
    · rw [hel, her] at h; omega
    · exact hz21 _ _
    · rw [her, her] at h
      exact hq a b (by omega)
  · intro i j k
    obtain ⟨a, rfl⟩ := e.surjective i
    obtain ⟨b, rfl⟩ := e.surjective j
    obtain ⟨c, rfl⟩ := e.surjective k
    rw [hTe, hTe]
    intro h1 h2
    rcases a with a | a <;> rcases b with b | b <;> rcases c with c | c
    · rw [hel, hel] at h1 h2; omega
    · exact .inr (hz21 _ _)
    · exact .inr (hz12 _ _)
    · exact .inl (hz21 _ _)
    · exact .inl (hz12 _ _)
    · exact .inl (hz12 _ _)
    · exact .inr (hz12 _ _)
    · rw [her, her] at h1 h2
      exact hbl a b c (by omega) (by omega)
  · intro ε i j hij h k
    obtain ⟨a, rfl⟩ := e.surjective i
    obtain ⟨b, rfl⟩ := e.surjective j
    rcases a with a | a
    · refine (hbig _ _).trans ?_
      clear hij
      revert a
      refine Fin.forall_fin_two.2 ⟨fun h => ?_, fun h => ?_⟩
      · have := h (e (.inl 1))
        rw [hTe] at this
        simpa [hTT, J, abs_of_pos hs] using this
      · have := h (e (.inl 0))
        rw [hTe] at this
        simpa [hTT, J, abs_of_pos hs] using this
    · rcases b with b | b
      · have : ((e (.inr a) : Fin (2 + m)) : ℕ) ≤ e (.inl b) := hij
        rw [her, hel] at this
        omega
      · obtain ⟨c, rfl⟩ := e.surjective k
        have hab : a ≤ b := by
          have : ((e (.inr a) : Fin (2 + m)) : ℕ) ≤ e (.inr b) := hij
          rw [her, her] at this
          exact Fin.le_def.2 (by omega)
        have hrow : ∀ k, |T' a k| ≤ ε := fun k => by
          have := h (e (.inr k))
          rw [hTe] at this
          exact this
        rw [hTe]
        rcases c with c | c
        · rw [hz21, abs_zero]
          exact (abs_nonneg _).trans (hrow a)
        · exact hso ε a b hab hrow c

end FF
