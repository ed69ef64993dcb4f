import Verif.Props.Paths
import Verif.Props.Random
import Verif.Spec.Geodesic

/-! # Property C160: is the path of `build_unitary_path` the shortest geodesic? -/

namespace FF.Props

open Matrix
open scoped ComplexConjugate

/-- The columns of the completed basis: for `j ≥ 1` the `j`-th unit vector is a combination of the columns up to `j`. -/
theorem orthogonal_columns {n : ℕ} (hn : 2 ≤ n) (qr : Op n → Op n × Op n) (hqr : QrOk qr) (v : Fin n → ℂ)
    (hv : Spec.IsUnitVec v) : ∃ M : Op n, getOrthogonalVectors qr v = some M ∧ M * Mᴴ = 1 ∧
      (∀ i, M i ⟨0, by omega⟩ = v i) ∧
      ∃ R : Op n, (∀ i j : Fin n, j < i → R i j = 0) ∧ ∀ i j : Fin n, (j : ℕ) ≠ 0 → (1 : Op n) i j = ∑ k, M i k * R k j := by
  classical
  obtain ⟨M, h1, h2, h3⟩ := orthogonal_ok hn qr hqr v (by rw [vnorm_unit hv]; norm_num)
  rw [vnorm_unit hv] at h3
  refine ⟨M, h1, h2, fun i => by rw [h3]; simp, ?_⟩
  rw [getOrthogonalVectors, if_neg (by omega), if_neg] at h1
  swap
  · rw [isclose_zero_iff _ (vnorm_nonneg v), vnorm_unit hv]; norm_num
  simp only [Option.some.injEq] at h1
  set A : Op n := Matrix.of fun i j => if (j : ℕ) = 0 then (((vnorm v : ℝ) : ℂ)⁻¹ • v) i else (1 : Op n) i j with hA
  have hq := hqr A
  obtain ⟨Q, hQe⟩ : ∃ Q, Q = (qr A).1 := ⟨_, rfl⟩
  obtain ⟨R, hRe⟩ : ∃ R, R = (qr A).2 := ⟨_, rfl⟩
  rw [← hQe, ← hRe] at hq
  rw [← hQe] at h1
  obtain ⟨hQ, hR, hQR⟩ := hq
  set z : Fin n := ⟨0, by omega⟩ with hz
  have hcol : ∀ i, v i = Q i z * R z z := by
    intro i
    have h4 : A i z = v i := by rw [hA, of_apply, if_pos rfl, vnorm_unit hv]; simp
    rw [← h4, ← hQR, mul_apply, Finset.sum_eq_single z]
    · intro b _ hb
      rw [hR b z, mul_zero]
      exact Nat.pos_of_ne_zero fun h => hb (Fin.ext h)
    · simp
  have hzz : R z z ≠ 0 := by
    intro h0
    have : v = 0 := by funext i; rw [hcol i, h0, mul_zero]; rfl
    rw [this] at hv
    simp [Spec.IsUnitVec] at hv
  refine ⟨Matrix.of fun k j => if (k : ℕ) = 0 then R k j / R z z else R k j, ?_, ?_⟩
  · intro i j hij
    rw [of_apply, hR i j hij, zero_div, ite_self]
  · intro i j hj
    have h5 : A i j = (1 : Op n) i j := by rw [hA, of_apply, if_neg hj]
    rw [← h5, ← hQR, mul_apply]
    refine Finset.sum_congr rfl fun k _ => ?_
    rw [← h1, of_apply, of_apply]
    by_cases hk : (k : ℕ) = 0
    · obtain rfl : k = z := Fin.ext hk
      rw [if_pos hk, if_pos hk]
      have h6 : (((vnorm v : ℝ) : ℂ)⁻¹ • v) i = v i := by rw [vnorm_unit hv]; simp
      rw [h6, hcol i]
      field_simp
    · rw [if_neg hk, if_neg hk]

/-- The path as a one-parameter group whose element at `t = 1` maps one completed basis to the other. -/
theorem path_run {n : ℕ} (hn : 2 ≤ n) (qr : Op n → Op n × Op n) (svd : Op n → Op n × (Fin n → ℝ) × Op n)
    (logm : Op n → Op n) (hqr : QrOk qr) (hlog : ∀ U : Op n, U * Uᴴ = 1 → Spec.IsPrincipalLog U (logm U))
    (w v : Fin n → ℂ) (hw : w ≠ 0) (hv : v ≠ 0) {W V : Op n} (hW : getOrthogonalVectors qr (unitVec w) = some W)
    (hV : getOrthogonalVectors qr (unitVec v) = some V) (hWu : W * Wᴴ = 1) (hVu : V * Vᴴ = 1) :
    buildUnitaryPath qr svd logm w v = .ok (fun t => expm ((t : ℂ) • logm (V * Wᴴ)) *ᵥ unitVec w) ∧
      expm (logm (V * Wᴴ)) = V * Wᴴ ∧ (logm (V * Wᴴ))ᴴ = -logm (V * Wᴴ) := by
  classical
  have hUU : (V * Wᴴ) * (V * Wᴴ)ᴴ = 1 := by
    rw [conjTranspose_mul, conjTranspose_conjTranspose, mul_assoc, ← mul_assoc Wᴴ, mul_eq_one_comm.1 hWu, one_mul, hVu]
  have hL := hlog _ hUU
  have hs := log_skew hUU hL
  refine ⟨?_, hL.exp_eq, hs⟩
  have hgen : ∀ t : ℝ, (t : ℂ) • ((-Complex.I) • (Complex.I • logm (V * Wᴴ))) = (t : ℂ) • logm (V * Wᴴ) := by
    intro t
    rw [smul_smul (-Complex.I)]
    simp
  rw [buildUnitaryPath]
  simp only [show ((vnorm w : ℝ) : ℂ)⁻¹ • w = unitVec w from rfl, show ((vnorm v : ℝ) : ℂ)⁻¹ • v = unitVec v from rfl,
    hW, hV, pathU_eq]
  rw [pyAssert_ok (allclose_of_eq hWu), pyAssert_ok (allclose_of_eq hVu)]
  simp only [if_pos (allclose_of_eq hUU)]
  have hH : Complex.I • logm (V * Wᴴ) - (Complex.I • logm (V * Wᴴ))ᴴ = 0 := by
    rw [conjTranspose_smul, hs]; simp
  rw [pyAssert_ok (allclose_of_eq hUU), pyAssert_ok (allclose_of_eq hH)]
  simp only [hgen]
  rfl

/-- C160. If both vectors have the same direction the path stays where it is. -/
theorem C160_same_partial (n : ℕ) (hn : 2 ≤ n) (qr : Op n → Op n × Op n) (svd : Op n → Op n × (Fin n → ℝ) × Op n)
    (logm : Op n → Op n) (hqr : QrOk qr) (hlog : ∀ U : Op n, U * Uᴴ = 1 → Spec.IsPrincipalLog U (logm U))
    (w v : Fin n → ℂ) (hw : w ≠ 0) (hv : v ≠ 0) (h : unitVec w = unitVec v) :
    ∃ path, buildUnitaryPath qr svd logm w v = .ok path ∧ ∀ t : ℝ, path t = unitVec w := by
  obtain ⟨W, hW, hWu, -⟩ := orthogonal_columns hn qr hqr (unitVec w) (unit_normalise hw)
  obtain ⟨h1, h2, h3⟩ := path_run hn qr svd logm hqr hlog w v hw hv hW (h ▸ hW) hWu hWu
  refine ⟨_, h1, fun t => ?_⟩
  have hl : logm (W * Wᴴ) = 0 := by
    rw [hWu]
    exact log_unique (by simp) (hlog 1 (by simp)) (principalLog_one n)
  rw [hl, smul_zero, expm, NormedSpace.exp_zero, one_mulVec]

/-- C160. The path is run through with constant speed: distances do not change when the time is shifted. -/
theorem C160_speed_partial (n : ℕ) (hn : 2 ≤ n) (qr : Op n → Op n × Op n) (svd : Op n → Op n × (Fin n → ℝ) × Op n)
    (logm : Op n → Op n) (hqr : QrOk qr) (hlog : ∀ U : Op n, U * Uᴴ = 1 → Spec.IsPrincipalLog U (logm U))
    (w v : Fin n → ℂ) (hw : w ≠ 0) (hv : v ≠ 0) :
    ∃ path, buildUnitaryPath qr svd logm w v = .ok path ∧
      ∀ s t r : ℝ, ∑ i, ‖path (s + r) i - path (t + r) i‖ ^ 2 = ∑ i, ‖path s i - path t i‖ ^ 2 := by
  obtain ⟨W, hW, hWu, -⟩ := orthogonal_columns hn qr hqr (unitVec w) (unit_normalise hw)
  obtain ⟨V, hV, hVu, -⟩ := orthogonal_columns hn qr hqr (unitVec v) (unit_normalise hv)
  obtain ⟨h1, h2, h3⟩ := path_run hn qr svd logm hqr hlog w v hw hv hW hV hWu hVu
  refine ⟨_, h1, fun s t r => ?_⟩
  obtain ⟨L, hL⟩ : ∃ L, L = logm (V * Wᴴ) := ⟨_, rfl⟩
  rw [← hL] at h3 ⊢
  have hadd : ∀ x y : ℝ, expm (((x + y : ℝ) : ℂ) • L) = expm ((y : ℂ) • L) * expm ((x : ℂ) • L) := by
    intro x y
    rw [expm, expm, expm, ← Matrix.exp_add_of_commute _ _ (((Commute.refl L).smul_left _).smul_right _), ← add_smul, add_comm,
      ← Complex.ofReal_add]
  have hu : (expm ((r : ℂ) • L))ᴴ * expm ((r : ℂ) • L) = 1 := by
    refine mul_eq_one_comm.1 (expm_unitary ?_)
    rw [conjTranspose_smul, h3]
    simp
  have hin : ∀ u : Fin n → ℂ, ∑ i, ‖(expm ((r : ℂ) • L) *ᵥ u) i‖ ^ 2 = ∑ i, ‖u i‖ ^ 2 := by
    intro u
    have := inner_unitary hu u u
    rw [inner_self, inner_self] at this
    exact_mod_cast this
  have h4 := hin (expm ((s : ℂ) • L) *ᵥ unitVec w - expm ((t : ℂ) • L) *ᵥ unitVec w)
  rw [mulVec_sub, mulVec_mulVec, mulVec_mulVec, ← hadd, ← hadd] at h4
  exact h4

theorem unitVec_e0 : unitVec (![1, 0, 0] : Fin 3 → ℂ) = ![1, 0, 0] := by
  rw [unitVec, Fin.sum_univ_three]
  simp

theorem unitVec_diag : unitVec (![1, 1, 1] : Fin 3 → ℂ) = (((Real.sqrt 3 : ℝ) : ℂ)⁻¹) • ![1, 1, 1] := by
  rw [unitVec, Fin.sum_univ_three, show (![1, 1, 1] : Fin 3 → ℂ) 0 = 1 from rfl, show (![1, 1, 1] : Fin 3 → ℂ) 1 = 1 from rfl,
    show (![1, 1, 1] : Fin 3 → ℂ) 2 = 1 from rfl]
  norm_num

/-- Column orthonormality, entry by entry. -/
theorem col_dot {M : Op 3} (h : M * Mᴴ = 1) (a b : Fin 3) :
    conj (M 0 a) * M 0 b + conj (M 1 a) * M 1 b + conj (M 2 a) * M 2 b = if a = b then 1 else 0 := by
  have h0 : Mᴴ * M = 1 := mul_eq_one_comm.1 h
  have h1 := congrFun (congrFun h0 a) b
  rw [mul_apply, Fin.sum_univ_three, Matrix.one_apply] at h1
  simpa only [conjTranspose_apply, RCLike.star_def] using h1

/-- The last column is orthogonal to the second unit vector. -/
theorem col_two {M R : Op 3} (h : M * Mᴴ = 1) (hR : ∀ i j : Fin 3, j < i → R i j = 0)
    (hM : ∀ i j : Fin 3, (j : ℕ) ≠ 0 → (1 : Op 3) i j = ∑ k, M i k * R k j) : M 1 2 = 0 := by
  have h0 := hM 0 1 (by norm_num)
  have h1 := hM 1 1 (by norm_num)
  have h2 := hM 2 1 (by norm_num)
  rw [Fin.sum_univ_three, hR 2 1 (by decide), mul_zero, add_zero] at h0 h1 h2
  rw [Matrix.one_apply_ne (by decide)] at h0 h2
  rw [Matrix.one_apply_eq] at h1
  have c0 := col_dot h 2 0
  have c1 := col_dot h 2 1
  rw [if_neg (by decide)] at c0 c1
  have h3 : conj (M 1 2) = 0 := by
    linear_combination conj (M 0 2) * h0 + conj (M 1 2) * h1 + conj (M 2 2) * h2 + R 0 1 * c0 + R 1 1 * c1
  simpa using h3

theorem midpoint_plane {L W V R T : Op 3} (hL : expm L = V * Wᴴ) (hW : W * Wᴴ = 1)
    (hW0 : ∀ i, W i 0 = unitVec (![1, 0, 0] : Fin 3 → ℂ) i) (hR : ∀ i j : Fin 3, j < i → R i j = 0)
    (hWR : ∀ i j : Fin 3, (j : ℕ) ≠ 0 → (1 : Op 3) i j = ∑ k, W i k * R k j) (hV : V * Vᴴ = 1)
    (hV0 : ∀ i, V i 0 = unitVec (![1, 1, 1] : Fin 3 → ℂ) i) (hT : ∀ i j : Fin 3, j < i → T i j = 0)
    (hVT : ∀ i j : Fin 3, (j : ℕ) ≠ 0 → (1 : Op 3) i j = ∑ k, V i k * T k j) (a b : ℂ) :
    expm ((((1 / 2 : ℝ)) : ℂ) • L) *ᵥ unitVec ![1, 0, 0] ≠ a • ![1, 0, 0] + b • ![1, 1, 1] := by
  intro hmid
  rw [unitVec_e0] at hmid hW0
  rw [unitVec_diag] at hV0
  obtain ⟨s, hs⟩ : ∃ s : ℂ, s = ((Real.sqrt 3 : ℝ) : ℂ)⁻¹ := ⟨_, rfl⟩
  have hs0 : s ≠ 0 := by
    rw [hs]
    exact inv_ne_zero (by exact_mod_cast (Real.sqrt_pos.2 (by norm_num : (0 : ℝ) < 3)).ne')
  rw [← hs] at hV0
  have v00 : V 0 0 = s := by simpa using hV0 0
  have v10 : V 1 0 = s := by simpa using hV0 1
  have v20 : V 2 0 = s := by simpa using hV0 2
  have w00 : W 0 0 = 1 := by simpa using hW0 0
  have w10 : W 1 0 = 0 := by simpa using hW0 1
  have w20 : W 2 0 = 0 := by simpa using hW0 2
  have v12 := col_two hV hT hVT
  have w12 := col_two hW hR hWR
  -- the columns of `W`
  have w02 : W 0 2 = 0 := by have := col_dot hW 0 2; simpa [w00, w10, w20] using this
  have w01 : W 0 1 = 0 := by have := col_dot hW 0 1; simpa [w00, w10, w20] using this
  have w22 : conj (W 2 2) * W 2 2 = 1 := by have := col_dot hW 2 2; simpa [w02, w12] using this
  have w22' : W 2 2 ≠ 0 := by rintro h; rw [h] at w22; simp at w22
  have w21 : W 2 1 = 0 := by
    have := col_dot hW 2 1
    simpa [w02, w12, w22'] using this
  have w11 : conj (W 1 1) * W 1 1 = 1 := by have := col_dot hW 1 1; simpa [w01, w21] using this
  -- the columns of `V`
  have hcs : conj s ≠ 0 := by simpa using hs0
  have v22 : V 2 2 = -V 0 2 := by
    have := col_dot hV 0 2
    rw [v00, v10, v20, v12, if_neg (by decide), mul_zero, add_zero, ← mul_add] at this
    exact eq_neg_of_add_eq_zero_right ((mul_eq_zero.1 this).resolve_left hcs)
  have x1 : 2 * (conj (V 0 2) * V 0 2) = 1 := by
    have := col_dot hV 2 2
    rw [v12, v22, if_pos rfl, map_neg, mul_zero] at this
    linear_combination this
  have x0 : conj (V 0 2) ≠ 0 := by
    intro h; rw [h] at x1; simp at x1
  have v21 : V 2 1 = V 0 1 := by
    have := col_dot hV 2 1
    rw [v12, v22, if_neg (by decide), map_neg, map_zero, zero_mul, add_zero] at this
    have h3 : conj (V 0 2) * (V 0 1 - V 2 1) = 0 := by linear_combination this
    exact (sub_eq_zero.1 ((mul_eq_zero.1 h3).resolve_left x0)).symm
  have v11 : V 1 1 = -2 * V 0 1 := by
    have := col_dot hV 0 1
    rw [v00, v10, v20, v21, if_neg (by decide), ← mul_add, ← mul_add] at this
    have h3 := (mul_eq_zero.1 this).resolve_left hcs
    linear_combination h3
  have y1 : 6 * (conj (V 0 1) * V 0 1) = 1 := by
    have := col_dot hV 1 1
    rw [v11, v21, if_pos rfl, map_mul, map_neg, Complex.conj_ofNat] at this
    linear_combination this
  -- the unitary leaves the plane
  have hU1 : ((V * Wᴴ) *ᵥ ![1, 0, 0]) = s • ![1, 1, 1] := by
    funext i
    simp only [mulVec, dotProduct, Fin.sum_univ_three, mul_apply, conjTranspose_apply, w00, w01, w02]
    fin_cases i <;> simp [v00, v10, v20]
  have hUd : ((V * Wᴴ) *ᵥ ![1, 1, 1]) 1 - ((V * Wᴴ) *ᵥ ![1, 1, 1]) 2 = V 0 2 * conj (W 2 2) - 3 * V 0 1 * conj (W 1 1) := by
    simp only [mulVec, dotProduct, Fin.sum_univ_three, mul_apply, conjTranspose_apply, w00, w01, w02, w10, w20, w12, w21, v00,
      v10, v20, v11, v12, v21, v22]
    simp
    ring
  have hne : V 0 2 * conj (W 2 2) - 3 * V 0 1 * conj (W 1 1) ≠ 0 := by
    intro h
    have h3 : V 0 2 * conj (W 2 2) = 3 * V 0 1 * conj (W 1 1) := sub_eq_zero.1 h
    have h4 := congrArg conj h3
    simp only [map_mul, Complex.conj_conj, Complex.conj_ofNat] at h4
    have h5 : (conj (V 0 2) * V 0 2) * (conj (W 2 2) * W 2 2) = 9 * (conj (V 0 1) * V 0 1) * (conj (W 1 1) * W 1 1) := by
      linear_combination conj (V 0 2) * W 2 2 * h3 + 3 * V 0 1 * conj (W 1 1) * h4
    rw [w22, w11] at h5
    have h6 : (1 : ℂ) = 3 := by linear_combination (-1 : ℂ) * x1 + 2 * h5 + 3 * y1
    norm_num at h6
  -- the midpoint
  set E := expm ((((1 / 2 : ℝ)) : ℂ) • L) with hE
  have hEE : E * E = V * Wᴴ := by
    rw [← hL, hE, expm, expm, ← Matrix.exp_add_of_commute _ _ (Commute.refl _), ← add_smul]
    norm_num
  obtain ⟨e, he⟩ : ∃ e : Fin 3 → ℂ, e = ![1, 0, 0] := ⟨_, rfl⟩
  obtain ⟨d, hd⟩ : ∃ d : Fin 3 → ℂ, d = ![1, 1, 1] := ⟨_, rfl⟩
  rw [← he, ← hd] at hmid hU1
  rw [← hd] at hUd
  have hm2 : b • E *ᵥ d = (s - a * b) • d - (a * a) • e := by
    have h3 : E *ᵥ (E *ᵥ e) = s • d := by rw [mulVec_mulVec, hEE, hU1]
    rw [hmid, mulVec_add, mulVec_smul, mulVec_smul, hmid] at h3
    funext i
    have := congrFun h3 i
    simp only [Pi.add_apply, Pi.smul_apply, Pi.sub_apply, smul_eq_mul] at this ⊢
    linear_combination this
  have hb : b ≠ 0 := by
    rintro rfl
    have := congrFun hm2 1
    simp [he, hd] at this
    exact hs0 this.symm
  have hm3 : (b * b) • ((V * Wᴴ) *ᵥ d) = (s - a * b) • ((s - a * b) • d - (a * a) • e) - (a * a * b) • (a • e + b • d) := by
    rw [← hEE, ← mulVec_mulVec, ← hm2, ← hmid, ← smul_smul]
    rw [show b • E *ᵥ (E *ᵥ d) = E *ᵥ (b • E *ᵥ d) from (mulVec_smul _ _ _).symm, hm2, mulVec_sub, mulVec_smul, mulVec_smul,
      mul_comm (a * a) b]
    funext i
    have := congrFun hm2 i
    simp only [Pi.smul_apply, Pi.sub_apply, smul_eq_mul] at this ⊢
    linear_combination (s - a * b) * this
  have h7 := congrFun hm3 1
  have h8 := congrFun hm3 2
  simp only [Pi.add_apply, Pi.smul_apply, Pi.sub_apply, smul_eq_mul] at h7 h8
  have e1 : e 1 = 0 := by rw [he]; rfl
  have e2 : e 2 = 0 := by rw [he]; rfl
  have d1 : d 1 = 1 := by rw [hd]; rfl
  have d2 : d 2 = 1 := by rw [hd]; rfl
  rw [e1, d1] at h7
  rw [e2, d2] at h8
  have h9 : (b * b) * (((V * Wᴴ) *ᵥ d) 1 - ((V * Wᴴ) *ᵥ d) 2) = 0 := by linear_combination h7 - h8
  rw [hUd] at h9
  exact (mul_ne_zero (mul_ne_zero hb hb) hne) h9

/-- C160 is false: for `w = (1, 0, 0)` and `v = (1, 1, 1)` the point half way is not even in the plane of the two vectors,
whatever QR factorisation and logarithm are used; the path is not the great circle arc. -/
theorem C160_violation (qr : Op 3 → Op 3 × Op 3) (svd : Op 3 → Op 3 × (Fin 3 → ℝ) × Op 3)
    (logm : Op 3 → Op 3) (hqr : QrOk qr) (hlog : ∀ U : Op 3, U * Uᴴ = 1 → Spec.IsPrincipalLog U (logm U)) :
    ∃ path, buildUnitaryPath qr svd logm ![1, 0, 0] ![1, 1, 1] = .ok path ∧
      (∀ a b : ℂ, path (1 / 2) ≠ a • ![1, 0, 0] + b • ![1, 1, 1]) ∧
      path (1 / 2) ≠ Spec.greatArc (unitVec ![1, 0, 0]) (unitVec ![1, 1, 1]) (1 / 2) := by
  have hw : (![1, 0, 0] : Fin 3 → ℂ) ≠ 0 := fun h => by simpa using congrFun h 0
  have hv : (![1, 1, 1] : Fin 3 → ℂ) ≠ 0 := fun h => by simpa using congrFun h 0
  obtain ⟨W, hW, hWu, hW0, R, hR, hWR⟩ := orthogonal_columns (by norm_num) qr hqr (unitVec ![1, 0, 0]) (unit_normalise hw)
  obtain ⟨V, hV, hVu, hV0, T, hT, hVT⟩ := orthogonal_columns (by norm_num) qr hqr (unitVec ![1, 1, 1]) (unit_normalise hv)
  obtain ⟨h1, h2, -⟩ := path_run (by norm_num) qr svd logm hqr hlog _ _ hw hv hW hV hWu hVu
  have hplane : ∀ a b : ℂ, expm ((((1 / 2 : ℝ)) : ℂ) • logm (V * Wᴴ)) *ᵥ unitVec ![1, 0, 0] ≠ a • ![1, 0, 0] + b • ![1, 1, 1] := by
    exact midpoint_plane h2 hWu hW0 hR hWR hVu hV0 hT hVT
  refine ⟨_, h1, hplane, fun h => ?_⟩
  rw [Spec.greatArc, unitVec_e0, unitVec_diag, smul_smul] at h
  exact hplane _ _ (by rw [unitVec_e0]; exact h)

example : (∃ qr : Op 3 → Op 3 × Op 3, QrOk qr) ∧
    (∃ logm : Op 3 → Op 3, ∀ U : Op 3, U * Uᴴ = 1 → Spec.IsPrincipalLog U (logm U)) ∧
    (![1, 0, 0] : Fin 3 → ℂ) ≠ 0 ∧ (![2, 0, 0] : Fin 3 → ℂ) ≠ 0 ∧
    unitVec (![1, 0, 0] : Fin 3 → ℂ) = unitVec ![2, 0, 0] := by
  classical
  refine ⟨qr_exists 3, ⟨fun U => if h : U * Uᴴ = 1 then (log_exists h).choose else 0, fun U hU => ?_⟩, ?_, ?_, ?_⟩
  · simp only [dif_pos hU]
    exact (log_exists hU).choose_spec
  · intro h; simpa using congrFun h 0
  · intro h; simpa using congrFun h 0
  · rw [unitVec_e0, unitVec, Fin.sum_univ_three]
    simp

end FF.Props
