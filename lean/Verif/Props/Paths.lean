import Verif.Model.Random
import Verif.Spec.Random
import Verif.Proofs.Random2
import Verif.Proofs.Gram

/-! # Properties C59-C61: orthogonal completion and paths between states -/

namespace FF.Props

open Matrix
open scoped ComplexConjugate

/-- The contract of `np.linalg.qr` on all square arrays of one size. -/
def QrOk {n : ℕ} (qr : Op n → Op n × Op n) : Prop := ∀ A, Spec.IsQR A (qr A).1 (qr A).2

/-- `v / |v|`. -/
noncomputable def unitVec {n : ℕ} (v : Fin n → ℂ) : Fin n → ℂ := ((Real.sqrt (∑ i, ‖v i‖ ^ 2) : ℝ) : ℂ)⁻¹ • v

/-! ## C59 -/

/-- C59. For `n ≥ 2` and a vector of norm above `1e-8` the result is unitary with first column `v / |v|`. -/
theorem C59_unitary (n : ℕ) (hn : 2 ≤ n) (qr : Op n → Op n × Op n) (hqr : QrOk qr) (v : Fin n → ℂ)
    (hv : 1e-8 < Real.sqrt (∑ i, ‖v i‖ ^ 2)) :
    ∃ M : Op n, getOrthogonalVectors qr v = some M ∧ M ∈ Matrix.unitaryGroup (Fin n) ℂ ∧
      ∀ i, M i ⟨0, by omega⟩ = unitVec v i := by
  obtain ⟨M, h1, h2, h3⟩ := orthogonal_ok hn qr hqr v hv
  exact ⟨M, h1, mem_unitaryGroup_iff.2 h2, h3⟩

/-- C59. Zero vectors, and more generally vectors of norm at most `1e-8`, give the identity. -/
theorem C59_zero (n : ℕ) (hn : 2 ≤ n) (qr : Op n → Op n × Op n) (v : Fin n → ℂ)
    (hv : Real.sqrt (∑ i, ‖v i‖ ^ 2) ≤ 1e-8) : getOrthogonalVectors qr v = some 1 := by
  classical
  rw [getOrthogonalVectors, if_neg (by omega), if_pos]
  exact (isclose_zero_iff _ (vnorm_nonneg v)).2 hv

/-- C59. In dimension below two the result is empty. -/
theorem C59_small (n : ℕ) (hn : n < 2) (qr : Op n → Op n × Op n) (v : Fin n → ℂ) :
    getOrthogonalVectors qr v = none := by
  classical
  rw [getOrthogonalVectors, if_pos hn]

/-- QR factorisations exist, and there are vectors of norm above the cut-off. -/
example : (∃ qr : Op 3 → Op 3 × Op 3, QrOk qr) ∧ 1e-8 < Real.sqrt (∑ i : Fin 3, ‖(![1, Complex.I, 0] : Fin 3 → ℂ) i‖ ^ 2) := by
  refine ⟨qr_exists 3, ?_⟩
  rw [Fin.sum_univ_three]
  simp only [cons_val_zero, cons_val_one, cons_val_two, norm_one, Complex.norm_I, norm_zero, tail_cons, head_cons]
  apply Real.lt_sqrt_of_sq_lt
  norm_num

/-! ## C60 -/

/-- C60. For non-zero vectors of dimension at least two, `build_unitary_path` passes all its assertions, for every QR
factorisation, singular value decomposition and logarithm meeting their contracts (the singular value decomposition is
never used), and the path leads from `w/|w|` at `t = 0` to `v/|v|` at `t = 1` through unit vectors, for every real
`t`. -/
theorem C60_path (n : ℕ) (hn : 2 ≤ n) (qr : Op n → Op n × Op n) (svd : Op n → Op n × (Fin n → ℝ) × Op n)
    (logm : Op n → Op n) (hqr : QrOk qr) (hlog : ∀ U : Op n, U * Uᴴ = 1 → Spec.IsPrincipalLog U (logm U))
    (w v : Fin n → ℂ) (hw : w ≠ 0) (hv : v ≠ 0) :
    ∃ path, buildUnitaryPath qr svd logm w v = .ok path ∧ path 0 = unitVec w ∧ path 1 = unitVec v ∧
      ∀ t : ℝ, Spec.IsUnitVec (path t) :=
  unitary_path_ok hn qr svd logm hqr hlog w v hw hv

/-- C60. The path is a one-parameter group applied to the first vector: `path(t) = exp(t L) path(0)`. -/
theorem C60_group (n : ℕ) (qr : Op n → Op n × Op n) (svd : Op n → Op n × (Fin n → ℝ) × Op n)
    (logm : Op n → Op n) (w v : Fin n → ℂ) (path : ℝ → Fin n → ℂ)
    (h : buildUnitaryPath qr svd logm w v = .ok path) :
    ∃ L : Op n, ∀ t : ℝ, path t = NormedSpace.exp ((t : ℂ) • L) *ᵥ path 0 := by
  classical
  have key : ∀ (L : Op n) (x : Fin n → ℂ), ∃ L' : Op n, ∀ t : ℝ, (fun t : ℝ => expm ((t : ℂ) • L) *ᵥ x) t =
      NormedSpace.exp ((t : ℂ) • L') *ᵥ (fun t : ℝ => expm ((t : ℂ) • L) *ᵥ x) 0 := by
    intro L x
    refine ⟨L, fun t => ?_⟩
    simp only [expm, Complex.ofReal_zero, zero_smul, NormedSpace.exp_zero, one_mulVec]
  rw [buildUnitaryPath] at h
  simp only at h
  split at h
  · simp only [bind, Except.bind] at h
    repeat' split at h
    all_goals first
      | cases h; exact key _ _
      | cases h
  · cases h

/-- C60. In dimension below two the function raises IndexError. -/
theorem C60_small (n : ℕ) (hn : n < 2) (qr : Op n → Op n × Op n) (svd : Op n → Op n × (Fin n → ℝ) × Op n)
    (logm : Op n → Op n) (w v : Fin n → ℂ) :
    buildUnitaryPath qr svd logm w v = .error .indexError := by
  rw [buildUnitaryPath]
  simp only [C59_small n hn]

example : (∃ qr : Op 2 → Op 2 × Op 2, QrOk qr) ∧
    (∃ logm : Op 2 → Op 2, ∀ U : Op 2, U * Uᴴ = 1 → Spec.IsPrincipalLog U (logm U)) ∧
    (![1, 0] : Fin 2 → ℂ) ≠ 0 ∧ (![0, Complex.I] : Fin 2 → ℂ) ≠ 0 := by
  classical
  refine ⟨qr_exists 2, ⟨fun U => if h : U * Uᴴ = 1 then (log_exists h).choose else 0, fun U hU => ?_⟩, ?_, ?_⟩
  · simp only [dif_pos hU]
    exact (log_exists hU).choose_spec
  · intro h; simpa using congrFun h 0
  · intro h; simpa using congrFun h 1

/-! ## C61 -/

/-- C61. The end points of the linear path are `w/|w|` and `v/|v|`. -/
theorem C61_ends (n : ℕ) (w v : Fin n → ℂ) (hw : w ≠ 0) (hv : v ≠ 0) :
    buildLinearPath w v 0 = unitVec w ∧ buildLinearPath w v 1 = unitVec v := by
  have h1 : ∀ u : Fin n → ℂ, u ≠ 0 → ((vnorm (((vnorm u : ℝ) : ℂ)⁻¹ • u) : ℝ) : ℂ)⁻¹ • (((vnorm u : ℝ) : ℂ)⁻¹ • u) = unitVec u := by
    intro u hu
    rw [vnorm_unit (unit_normalise hu), Complex.ofReal_one, inv_one, one_smul]
    rfl
  constructor
  · simp only [buildLinearPath, Complex.ofReal_zero, zero_smul, zero_add, sub_zero, one_smul]
    exact h1 w hw
  · simp only [buildLinearPath, Complex.ofReal_one, one_smul, sub_self, zero_smul, add_zero]
    exact h1 v hv

/-- C61. Where `s v/|v| + (1-s) w/|w|` is not zero, the path is a unit vector in that direction; where it is zero the
code divides by zero. -/
theorem C61_norm (n : ℕ) (w v : Fin n → ℂ) (s : ℝ) (h : (s : ℂ) • unitVec v + (1 - (s : ℂ)) • unitVec w ≠ 0) :
    Spec.IsUnitVec (buildLinearPath w v s) ∧
      ∃ c : ℝ, 0 < c ∧ buildLinearPath w v s = (c : ℂ) • ((s : ℂ) • unitVec v + (1 - (s : ℂ)) • unitVec w) := by
  have h2 := unit_normalise h
  refine ⟨h2, (vnorm ((s : ℂ) • unitVec v + (1 - (s : ℂ)) • unitVec w))⁻¹, ?_, ?_⟩
  · rw [inv_pos]
    exact lt_of_le_of_ne (vnorm_nonneg _) fun h3 => h (vnorm_eq_zero.1 h3.symm)
  · rw [Complex.ofReal_inv]
    rfl

/-- C61. For `s` in `[0, 1]` the divisor vanishes exactly if the unit vectors are antipodal and `s = 1/2`. -/
theorem C61_zero (n : ℕ) (w v : Fin n → ℂ) (hw : w ≠ 0) (hv : v ≠ 0) (s : ℝ) (h0 : 0 ≤ s) (h1 : s ≤ 1) :
    (s : ℂ) • unitVec v + (1 - (s : ℂ)) • unitVec w = 0 ↔ s = 1 / 2 ∧ unitVec v = -unitVec w := by
  have hwu : Spec.IsUnitVec (unitVec w) := unit_normalise hw
  have hvu : Spec.IsUnitVec (unitVec v) := unit_normalise hv
  constructor
  · intro h
    have h2 : (s : ℂ) • unitVec v = (-(1 - (s : ℂ))) • unitVec w := by
      rw [neg_smul]; exact eq_neg_of_add_eq_zero_left h
    have h3 : Spec.inner ((s : ℂ) • unitVec v) ((s : ℂ) • unitVec v) =
        Spec.inner ((-(1 - (s : ℂ))) • unitVec w) ((-(1 - (s : ℂ))) • unitVec w) := by rw [h2]
    rw [inner_smul_left, inner_smul_right, inner_smul_left, inner_smul_right, unit_iff_inner.1 hwu,
      unit_iff_inner.1 hvu] at h3
    have h4 : s ^ 2 = (1 - s) ^ 2 := by
      have h5 : ((s ^ 2 : ℝ) : ℂ) = (((1 - s) ^ 2 : ℝ) : ℂ) := by
        simp only [map_neg, map_sub, map_one, Complex.conj_ofReal, mul_one] at h3
        push_cast
        linear_combination h3
      exact_mod_cast h5
    have hs : s = 1 / 2 := by nlinarith
    refine ⟨hs, ?_⟩
    rw [hs] at h2
    have h6 : (1 / 2 : ℂ) • unitVec v = (1 / 2 : ℂ) • (-unitVec w) := by
      rw [smul_neg, ← neg_smul]
      push_cast at h2
      rw [h2]
      norm_num
    exact smul_right_injective _ (by norm_num : (1 / 2 : ℂ) ≠ 0) h6
  · rintro ⟨rfl, h⟩
    rw [h, smul_neg, ← neg_smul, ← add_smul]
    norm_num

example : unitVec (![1, 0] : Fin 2 → ℂ) = -unitVec ![-1, 0] ∧ (![1, 0] : Fin 2 → ℂ) ≠ 0 := by
  refine ⟨?_, fun h => by simpa using congrFun h 0⟩
  have : (![-1, 0] : Fin 2 → ℂ) = -![1, 0] := by simp
  rw [this, unitVec, unitVec, smul_neg, neg_neg]
  simp

end FF.Props
