import Verif.Proofs.Stabilizer
import Verif.Spec.Eigen
import Verif.Proofs.Eigen2
import Verif.Props.Quadratic
import Verif.Props.Coefficients

/-! # Helper lemmas: real Schur forms of skew matrices and the fermionic anti-flatness -/

namespace FF

open Matrix
open scoped ComplexOrder ComplexConjugate

section schur

variable {m : ℕ} {M T Z : RMat m}

theorem schur_conj (h : Spec.IsRealSchur M T Z) : T = Zᵀ * M * Z := by
  have hZ : Zᵀ * Z = 1 := mul_eq_one_comm.1 h.orth
  calc T = (Zᵀ * Z) * T * (Zᵀ * Z) := by rw [hZ, one_mul, mul_one]
    _ = Zᵀ * (Z * T * Zᵀ) * Z := by simp only [Matrix.mul_assoc]
    _ = _ := by rw [h.decomp]

theorem schur_skew' (h : Spec.IsRealSchur M T Z) (hM : Mᵀ = -M) : Tᵀ = -T := by
  rw [schur_conj h, transpose_mul, transpose_mul, transpose_transpose, hM, Matrix.neg_mul, Matrix.mul_neg, Matrix.mul_assoc]

theorem schur_apply (h : Spec.IsRealSchur M T Z) (hM : Mᵀ = -M) (i j : Fin m) : T i j = -T j i := by
  have := congrFun (congrFun (schur_skew' h hM) j) i
  rw [transpose_apply, Matrix.neg_apply] at this
  exact this

theorem schur_diag (h : Spec.IsRealSchur M T Z) (hM : Mᵀ = -M) (i : Fin m) : T i i = 0 := by
  have := schur_apply h hM i i
  linarith

theorem schur_near (h : Spec.IsRealSchur M T Z) (hM : Mᵀ = -M) {i j : Fin m} (hij : T i j ≠ 0) :
    (i : ℕ) = j + 1 ∨ (j : ℕ) = i + 1 := by
  have hne : i ≠ j := fun e => hij (by rw [e]; exact schur_diag h hM j)
  have h1 : ¬ (j : ℕ) + 1 < i := fun hlt => hij (h.quasi i j hlt)
  have h2 : ¬ (i : ℕ) + 1 < j := fun hlt => hij (by rw [schur_apply h hM, h.quasi j i hlt, neg_zero])
  have h3 : (i : ℕ) ≠ j := fun e => hne (Fin.ext e)
  omega

theorem schur_row (h : Spec.IsRealSchur M T Z) (hM : Mᵀ = -M) {i j k : Fin m} (hj : T i j ≠ 0) (hk : T i k ≠ 0) : j = k := by
  have key : ∀ {j k : Fin m}, T i j ≠ 0 → T i k ≠ 0 → (i : ℕ) = j + 1 → (k : ℕ) = i + 1 → False := by
    intro j k hj hk h1 h2
    rcases h.blocks j i k h1 h2 with h3 | h3
    · exact hj h3
    · exact hk (by rw [schur_apply h hM, h3, neg_zero])
  rcases schur_near h hM hj with h1 | h1 <;> rcases schur_near h hM hk with h2 | h2
  · exact Fin.ext (by omega)
  · exact (key hj hk h1 h2).elim
  · exact (key hk hj h2 h1).elim
  · exact Fin.ext (by omega)

/-- The squares of the singular values, row by row. -/
def sq2 (T : RMat m) (i : Fin m) : ℝ := ∑ j, T i j ^ 2

theorem schur_gram (h : Spec.IsRealSchur M T Z) (hM : Mᵀ = -M) : Tᵀ * T = diagonal (sq2 T) := by
  ext i j
  rw [mul_apply, diagonal_apply]
  split_ifs with hij
  · subst hij
    refine Finset.sum_congr rfl fun k _ => ?_
    rw [transpose_apply, schur_apply h hM k i]; ring
  · refine Finset.sum_eq_zero fun k _ => ?_
    rw [transpose_apply]
    by_contra h0
    exact hij (schur_row h hM (left_ne_zero_of_mul h0) (right_ne_zero_of_mul h0))

theorem schur_gram_M (h : Spec.IsRealSchur M T Z) (hM : Mᵀ = -M) : Mᵀ * M = Z * diagonal (sq2 T) * Zᵀ := by
  have hZ : Zᵀ * Z = 1 := mul_eq_one_comm.1 h.orth
  rw [← schur_gram h hM, ← h.decomp]
  calc _ = Z * Tᵀ * (Zᵀ * Z) * T * Zᵀ := by simp only [transpose_mul, transpose_transpose, Matrix.mul_assoc]
    _ = _ := by rw [hZ]; simp only [Matrix.mul_assoc, Matrix.one_mul]

theorem schur_roots (h : Spec.IsRealSchur M T Z) (hM : Mᵀ = -M) :
    (Mᵀ * M).charpoly.roots = Finset.univ.val.map (sq2 T) := by
  have hZ : Zᵀ * Z = 1 := mul_eq_one_comm.1 h.orth
  rw [schur_gram_M h hM, charpoly_mul_comm, ← mul_assoc, hZ, one_mul, charpoly_diagonal,
    Polynomial.roots_prod _ _ (Finset.prod_ne_zero_iff.2 fun i _ => Polynomial.X_sub_C_ne_zero _)]
  simp [Polynomial.roots_X_sub_C, Multiset.bind_singleton]

theorem conj_pow {Z D : RMat m} (hZ : Zᵀ * Z = 1) (hZ' : Z * Zᵀ = 1) (k : ℕ) : (Z * D * Zᵀ) ^ k = Z * D ^ k * Zᵀ := by
  induction k with
  | zero => rw [pow_zero, pow_zero, mul_one, hZ']
  | succ k ih =>
    rw [pow_succ, ih, pow_succ]
    calc _ = Z * D ^ k * (Zᵀ * Z) * D * Zᵀ := by simp only [Matrix.mul_assoc]
      _ = _ := by rw [hZ]; simp only [Matrix.mul_assoc, Matrix.one_mul]

theorem schur_trace (h : Spec.IsRealSchur M T Z) (hM : Mᵀ = -M) (k : ℕ) : ((Mᵀ * M) ^ k).trace = ∑ i, sq2 T i ^ k := by
  have hZ : Zᵀ * Z = 1 := mul_eq_one_comm.1 h.orth
  rw [schur_gram_M h hM, conj_pow hZ h.orth, trace_mul_comm, ← mul_assoc, hZ, one_mul, diagonal_pow, trace_diagonal]
  rfl

theorem schur_g (h : Spec.IsRealSchur M T Z) (hM : Mᵀ = -M) (g : ℝ → ℝ) (g0 : g 0 = 0) (i : Fin m) :
    g (sq2 T i) = ∑ j, g (T i j ^ 2) := by
  by_cases hz : ∀ j, T i j = 0
  · simp [sq2, hz, g0]
  · push_neg at hz
    obtain ⟨j, hj⟩ := hz
    have h0 : ∀ k, k ≠ j → T i k = 0 := fun k hk => by
      by_contra hne
      exact hk (schur_row h hM hne hj)
    rw [sq2, Finset.sum_eq_single j (fun k _ hk => by rw [h0 k hk]; ring) (by simp),
      Finset.sum_eq_single j (fun k _ hk => by rw [h0 k hk]; simpa using g0) (by simp)]

theorem schur_upper (h : Spec.IsRealSchur M T Z) (hM : Mᵀ = -M) (g : ℝ → ℝ) (g0 : g 0 = 0) :
    ∑ i, ∑ j, (if i ≤ j then g (T i j ^ 2) else 0) = 1 / 2 * ∑ i, g (sq2 T i) := by
  have h1 : ∑ i, g (sq2 T i) = ∑ i, ∑ j, g (T i j ^ 2) := Finset.sum_congr rfl fun i _ => schur_g h hM g g0 i
  have h2 : ∑ i, ∑ j, g (T i j ^ 2) = ∑ i, ∑ j, (if i ≤ j then g (T i j ^ 2) else 0) +
      ∑ i, ∑ j, (if j ≤ i then g (T i j ^ 2) else 0) := by
    rw [← Finset.sum_add_distrib]
    refine Finset.sum_congr rfl fun i _ => ?_
    rw [← Finset.sum_add_distrib]
    refine Finset.sum_congr rfl fun j _ => ?_
    rcases lt_trichotomy i j with hlt | rfl | hlt
    · rw [if_pos hlt.le, if_neg hlt.not_ge, add_zero]
    · rw [schur_diag h hM]; simp [g0]
    · rw [if_neg hlt.not_ge, if_pos hlt.le, zero_add]
  have h3 : ∑ i, ∑ j, (if j ≤ i then g (T i j ^ 2) else 0) = ∑ i, ∑ j, (if i ≤ j then g (T i j ^ 2) else 0) := by
    rw [Finset.sum_comm]
    refine Finset.sum_congr rfl fun i _ => Finset.sum_congr rfl fun j _ => ?_
    rw [schur_apply h hM j i, neg_sq]
  rw [h1, h2, h3]; ring

end schur

/-! ## the list of squares -/

/-- The contribution of a squared singular value: the `k`-th power, or nothing below the cut-off. -/
noncomputable def cut (k : ℕ) (r : ℝ) : ℝ := if 1e-20 < r then r ^ k else 0

theorem cut_zero (k : ℕ) : cut k 0 = 0 := by rw [cut, if_neg (by norm_num)]

theorem cut_nonneg (k : ℕ) (r : ℝ) : 0 ≤ cut k r := by
  rw [cut]
  split_ifs with h
  · have : (0 : ℝ) ≤ r := le_trans (by norm_num) h.le
    positivity
  · exact le_rfl

theorem cut_le {k : ℕ} {r : ℝ} (hr : 0 ≤ r) : cut k r ≤ r ^ k := by
  rw [cut]; split_ifs
  · exact le_rfl
  · positivity

theorem le_cut {k : ℕ} {r : ℝ} (hr : 0 ≤ r) : r ^ k ≤ cut k r + 1e-20 ^ k := by
  rw [cut]; split_ifs with h
  · linarith [pow_nonneg (by norm_num : (0 : ℝ) ≤ 1e-20) k]
  · rw [zero_add]
    exact pow_le_pow_left₀ hr (not_lt.1 h) k

theorem abs_cut {t : ℝ} : 1e-10 < |t| ↔ 1e-20 < t ^ 2 := by
  rw [show (1e-20 : ℝ) = (1e-10) ^ 2 by norm_num, sq_lt_sq, abs_of_pos (by norm_num : (0 : ℝ) < 1e-10)]

theorem filterMap_sum {α : Type} (l : List α) (P : α → Prop) [DecidablePred P] (f : α → ℂ) (w : ℂ → ℝ) :
    ((l.filterMap fun a => if P a then some (f a) else none).map w).sum = (l.map fun a => if P a then w (f a) else 0).sum := by
  induction l with
  | nil => rfl
  | cons a l ih =>
    by_cases h : P a <;> simp [List.filterMap_cons, h, ih]

theorem flatMap_sum {α : Type} (l : List α) (f : α → List ℝ) : (l.flatMap f).sum = (l.map fun a => (f a).sum).sum := by
  induction l with
  | nil => rfl
  | cons a l ih => simp [List.flatMap_cons, ih]

theorem upperSquares_sum {m : ℕ} (T : RMat m) (k : ℕ) :
    ((upperSquares (toC T)).map fun z => ‖z‖ ^ k).sum = ∑ i, ∑ j, if i ≤ j then cut k (T i j ^ 2) else 0 := by
  classical
  rw [upperSquares, List.map_flatMap, flatMap_sum, ← List.ofFn_eq_map, List.sum_ofFn]
  refine Finset.sum_congr rfl fun i _ => ?_
  have := filterMap_sum (List.finRange m) (fun j => i ≤ j ∧ 1e-10 < ‖toC T i j‖) (fun j => toC T i j ^ 2) fun z => ‖z‖ ^ k
  refine Eq.trans (by convert this) ?_
  rw [← List.ofFn_eq_map, List.sum_ofFn]
  refine Finset.sum_congr rfl fun j _ => ?_
  have e : ‖toC T i j ^ 2‖ = T i j ^ 2 := by
    rw [toC_apply, ← Complex.ofReal_pow, Complex.norm_real, Real.norm_eq_abs, abs_of_nonneg (sq_nonneg _)]
  have e2 : 1e-10 < ‖toC T i j‖ ↔ 1e-20 < T i j ^ 2 := by
    rw [toC_apply, Complex.norm_real, Real.norm_eq_abs, abs_cut]
  rw [e, cut]
  by_cases h1 : i ≤ j <;> by_cases h2 : 1e-20 < T i j ^ 2
  · rw [if_pos ⟨h1, e2.2 h2⟩, if_pos h1, if_pos h2]
  · rw [if_neg fun h => h2 (e2.1 h.2), if_pos h1, if_neg h2]
  · rw [if_neg fun h => h1 h.1, if_neg h1]
  · rw [if_neg fun h => h1 h.1, if_neg h1]

theorem lkNorm_pow (pm : List ℂ) {k : ℕ} (hk : 1 ≤ k) : lkNorm pm k ^ k = (pm.map fun z => ‖z‖ ^ k).sum := by
  have hk0 : k ≠ 0 := by omega
  have hs : 0 ≤ (pm.map fun z => ‖z‖ ^ k).sum := List.sum_nonneg fun r hr => by
    obtain ⟨z, -, rfl⟩ := List.mem_map.1 hr
    positivity
  rw [lkNorm, if_neg hk0, one_div, Real.rpow_inv_natCast_pow hs hk0]

/-! ## the Majorana covariance matrix -/

/-- The entries of the covariance matrix of a state. -/
noncomputable def majCov {n : ℕ} (g : Fin (n + n) → Op (2 ^ n)) (ρ : Op (2 ^ n)) : RMat (n + n) :=
  Matrix.of fun i j => ((-Complex.I) * (ρ * (g i * g j - g j * g i)).trace).re

section cov

variable {n : ℕ} {g : Fin (n + n) → Op (2 ^ n)} {ρ : Op (2 ^ n)}

theorem majCov_eq (hg : ∀ i, (g i).IsHermitian) (hρ : ρᴴ = ρ) (i j : Fin (n + n)) :
    ((majCov g ρ i j : ℝ) : ℂ) = (-Complex.I) * (ρ * (g i * g j - g j * g i)).trace := by
  rw [majCov, of_apply]
  refine Complex.conj_eq_iff_re.1 ?_
  have h1 : (starRingEnd ℂ) (ρ * (g i * g j - g j * g i)).trace = -(ρ * (g i * g j - g j * g i)).trace := by
    have := trace_conjTranspose (ρ * (g i * g j - g j * g i))
    rw [conjTranspose_mul, hρ, conjTranspose_sub, conjTranspose_mul, conjTranspose_mul, (hg i).eq, (hg j).eq,
      trace_mul_comm, ← neg_sub (g i * g j), Matrix.mul_neg, trace_neg] at this
    exact this.symm
  rw [map_mul, h1, map_neg, Complex.conj_I]; ring

theorem majCov_skew : (majCov g ρ)ᵀ = -majCov g ρ := by
  ext i j
  rw [transpose_apply, Matrix.neg_apply, majCov, of_apply, of_apply, ← neg_sub (g i * g j), Matrix.mul_neg, trace_neg,
    mul_neg, Complex.neg_re]

theorem frobNorm_zero {m k : ℕ} : frobNorm (0 : Matrix (Fin m) (Fin k) ℂ) = 0 := by
  simp [frobNorm]

theorem isclose_frob_zero {m k : ℕ} {A : Matrix (Fin m) (Fin k) ℂ} (h : A = 0) : isclose (frobNorm A : ℝ) 0 := by
  rw [h, frobNorm_zero]
  exact isclose_self _

theorem covDistribution_ok (hg : jordanWignerMajoranas n = List.ofFn g) (hH : ∀ i, (g i).IsHermitian) {x : Arr}
    (hx : Spec.IsState x ρ) (schurR : {m : ℕ} → RMat m → RMat m) (schurC : {m : ℕ} → Op m → Op m) :
    covDistribution schurR schurC x = .ok (upperSquares (toC (schurR (majCov g ρ)))) := by
  obtain ⟨h1, h2⟩ := state_cast hx
  have hρ : ρᴴ = ρ := h2.psd.isHermitian
  obtain ⟨G, Gam, hG, -, -, -, hGe⟩ := Props.C42_antisymmetric_partial ρ g
  have hM : (-Complex.I) • G = toC (majCov g ρ) := by
    ext i j
    rw [Matrix.smul_apply, hGe, toC_apply, majCov_eq hH hρ, smul_eq_mul]
  rw [covDistribution, h1]
  simp only [bind, Except.bind]
  have key : ∀ k, k = n → ∀ e : 2 ^ n = 2 ^ k,
      computeCovMatrix (castOp e ρ) (some k) (jordanWignerMajoranas k) = .ok ⟨n, G⟩ := by
    rintro k rfl e
    have e : castOp rfl ρ = ρ := by ext; rfl
    rw [e, hg, hG]
  rw [dif_pos (by rw [intLog2_pow]), key _ (intLog2_pow n)]
  simp only
  rw [hM]
  rw [if_pos (isclose_frob_zero (by ext i j; simp [imArr, toC]))]
  rw [reArr_toC, pyAssert_ok (isclose_frob_zero (by rw [majCov_skew, add_neg_cancel]; ext i j; simp [toC]))]
  rfl

/-- The value: a sum over the eigenvalues of `MᵀM`. -/
theorem faf_ok (hg : jordanWignerMajoranas n = List.ofFn g) (hH : ∀ i, (g i).IsHermitian) {x : Arr}
    (hx : Spec.IsState x ρ) (schurR : {m : ℕ} → RMat m → RMat m) (schurC : {m : ℕ} → Op m → Op m) {Z : RMat (n + n)}
    (hZ : Spec.IsRealSchur (majCov g ρ) (schurR (majCov g ρ)) Z) {k : ℕ} (hk : 1 ≤ k) :
    faf schurR schurC x k = .ok (n - 1 / 2 * ∑ i, cut k (sq2 (schurR (majCov g ρ)) i)) := by
  obtain ⟨h1, h2⟩ := state_cast hx
  rw [faf, h1]
  simp only [bind, Except.bind]
  rw [covDistribution_ok hg hH (mat_state h2)]
  simp only
  rw [lkNorm_pow _ hk, upperSquares_sum, schur_upper hZ majCov_skew _ (cut_zero k), intLog2_pow]
  rfl

/-- Rotated Majoranas. -/
noncomputable def rotMaj (g : Fin (n + n) → Op (2 ^ n)) (Z : RMat (n + n)) (i : Fin (n + n)) : Op (2 ^ n) :=
  ∑ k, (Z k i : ℂ) • g k

theorem rotMaj_herm (hH : ∀ i, (g i).IsHermitian) (Z : RMat (n + n)) (i : Fin (n + n)) : (rotMaj g Z i).IsHermitian := by
  rw [IsHermitian, rotMaj, conjTranspose_sum]
  refine Finset.sum_congr rfl fun k _ => ?_
  rw [conjTranspose_smul, (hH k).eq]
  simp

theorem rotMaj_anti (hA : ∀ i j, g i * g j + g j * g i = if i = j then 1 else 0) {Z : RMat (n + n)} (hZ : Zᵀ * Z = 1)
    (i j : Fin (n + n)) : rotMaj g Z i * rotMaj g Z j + rotMaj g Z j * rotMaj g Z i = if i = j then 1 else 0 := by
  have e : rotMaj g Z i * rotMaj g Z j + rotMaj g Z j * rotMaj g Z i =
      ∑ k, ∑ l, ((Z k i : ℂ) * (Z l j : ℂ)) • (g k * g l + g l * g k) := by
    simp only [rotMaj, Finset.sum_mul_sum, smul_add, Finset.sum_add_distrib]
    congr 1
    · refine Finset.sum_congr rfl fun k _ => Finset.sum_congr rfl fun l _ => ?_
      rw [Matrix.smul_mul, Matrix.mul_smul, smul_smul]
    · rw [Finset.sum_comm]
      refine Finset.sum_congr rfl fun k _ => Finset.sum_congr rfl fun l _ => ?_
      rw [Matrix.smul_mul, Matrix.mul_smul, smul_smul, mul_comm]
  rw [e]
  simp only [hA, smul_ite, smul_zero, Finset.sum_ite_eq, Finset.mem_univ, if_true]
  rw [← Finset.sum_smul]
  have := congrFun (congrFun hZ i) j
  rw [mul_apply, one_apply] at this
  have h2 : ∑ k, (Z k i : ℂ) * (Z k j : ℂ) = if i = j then 1 else 0 := by
    have h3 := congrArg (fun r : ℝ => (r : ℂ)) this
    simp only [transpose_apply] at h3
    push_cast at h3
    rw [h3]
    split_ifs <;> simp
  rw [h2]
  split_ifs <;> simp

theorem rotMaj_cov (hH : ∀ i, (g i).IsHermitian) (hρ : ρᴴ = ρ) (Z : RMat (n + n)) :
    majCov (rotMaj g Z) ρ = Zᵀ * majCov g ρ * Z := by
  ext i j
  apply Complex.ofReal_injective
  rw [majCov_eq (rotMaj_herm hH Z) hρ]
  have e : rotMaj g Z i * rotMaj g Z j - rotMaj g Z j * rotMaj g Z i =
      ∑ k, ∑ l, ((Z k i : ℂ) * (Z l j : ℂ)) • (g k * g l - g l * g k) := by
    simp only [rotMaj, Finset.sum_mul_sum, smul_sub, Finset.sum_sub_distrib]
    congr 1
    · refine Finset.sum_congr rfl fun k _ => Finset.sum_congr rfl fun l _ => ?_
      rw [Matrix.smul_mul, Matrix.mul_smul, smul_smul]
    · rw [Finset.sum_comm]
      refine Finset.sum_congr rfl fun k _ => Finset.sum_congr rfl fun l _ => ?_
      rw [Matrix.smul_mul, Matrix.mul_smul, smul_smul, mul_comm]
  have e2 : (Zᵀ * majCov g ρ * Z) i j = ∑ k, ∑ l, Z k i * Z l j * majCov g ρ k l := by
    simp only [mul_apply, Finset.sum_mul, transpose_apply]
    rw [Finset.sum_comm]
    exact Finset.sum_congr rfl fun k _ => Finset.sum_congr rfl fun l _ => by ring
  rw [e, e2]
  push_cast
  simp only [Matrix.mul_sum, trace_sum, Finset.mul_sum, majCov_eq hH hρ, Matrix.mul_smul, trace_smul, smul_eq_mul]
  exact Finset.sum_congr rfl fun k _ => Finset.sum_congr rfl fun l _ => by ring

/-- Entries of the covariance matrix of a state lie in `[-1, 1]`. -/
theorem majCov_le (hH : ∀ i, (g i).IsHermitian) (hA : ∀ i j, g i * g j + g j * g i = if i = j then 1 else 0)
    (h : Spec.IsDensity ρ) (i j : Fin (n + n)) : |majCov g ρ i j| ≤ 1 := by
  have hρ : ρᴴ = ρ := h.psd.isHermitian
  by_cases hij : i = j
  · subst hij
    rw [majCov, of_apply, sub_self]; simp
  · have hanti : g j * g i = -(g i * g j) := by
      have := hA i j
      rw [if_neg hij] at this
      exact (eq_neg_of_add_eq_zero_right this)
    have hsq : ∀ k, g k * g k = (1 / 2 : ℂ) • (1 : Op (2 ^ n)) := by
      intro k
      have := hA k k
      rw [if_pos rfl, ← two_smul ℂ] at this
      rw [← this, smul_smul]; norm_num
    set X : Op (2 ^ n) := (-Complex.I) • (g i * g j - g j * g i) with hX
    have hX2 : X = (-(2 * Complex.I)) • (g i * g j) := by
      rw [hX, hanti, sub_neg_eq_add, ← two_smul ℂ, smul_smul]; congr 1; ring
    have hXX : X * Xᴴ = 1 := by
      rw [hX2, conjTranspose_smul, conjTranspose_mul, (hH i).eq, (hH j).eq, Matrix.smul_mul, Matrix.mul_smul, smul_smul]
      have : g i * g j * (g j * g i) = (1 / 4 : ℂ) • (1 : Op (2 ^ n)) := by
        calc _ = g i * (g j * g j) * g i := by simp only [Matrix.mul_assoc]
          _ = _ := by
            rw [hsq j, Matrix.mul_smul, mul_one, Matrix.smul_mul, hsq i, smul_smul]; norm_num
      rw [this, smul_smul]
      have h4 : -(2 * Complex.I) * star (-(2 * Complex.I)) * (1 / 4) = 1 := by
        simp [Complex.ext_iff]; norm_num
      rw [h4, one_smul]
    have := tnorm_bound h.psd.isHermitian hXX
    rw [tnorm_density h, trace_mul_comm, hX, Matrix.mul_smul, trace_smul, smul_eq_mul, ← majCov_eq hH hρ, Complex.norm_real] at this
    exact this

theorem sq2_le (hH : ∀ i, (g i).IsHermitian) (hA : ∀ i j, g i * g j + g j * g i = if i = j then 1 else 0)
    (h : Spec.IsDensity ρ) {T Z : RMat (n + n)} (hZ : Spec.IsRealSchur (majCov g ρ) T Z) (i : Fin (n + n)) :
    sq2 T i ≤ 1 := by
  have hZ' : Zᵀ * Z = 1 := mul_eq_one_comm.1 hZ.orth
  have hT : T = majCov (rotMaj g Z) ρ := by rw [rotMaj_cov hH h.psd.isHermitian, schur_conj hZ]
  have hle : ∀ j, T i j ^ 2 ≤ 1 := fun j => by
    rw [hT, ← sq_abs]
    exact pow_le_one₀ (abs_nonneg _) (majCov_le (rotMaj_herm hH Z) (rotMaj_anti hA hZ') h i j)
  by_cases hz : ∀ j, T i j = 0
  · simp [sq2, hz]
  · push_neg at hz
    obtain ⟨j, hj⟩ := hz
    rw [sq2, Finset.sum_eq_single j (fun k _ hk => ?_) (by simp)]
    · exact hle j
    · have : T i k = 0 := by
        by_contra hne
        exact hk (schur_row hZ majCov_skew hne hj)
      rw [this]; ring

theorem sq2_nonneg {m : ℕ} (T : RMat m) (i : Fin m) : 0 ≤ sq2 T i := Finset.sum_nonneg fun j _ => sq_nonneg _

/-- The covariance matrix of a rotated state. -/
theorem majCov_rot (hH : ∀ i, (g i).IsHermitian) (hρ : ρᴴ = ρ) {W : Op (2 ^ n)} (hW : Wᴴ * W = 1) {O : RMat (n + n)}
    (hO : ∀ k, Wᴴ * g k * W = ∑ l, (O k l : ℂ) • g l) : majCov g (W * ρ * Wᴴ) = O * majCov g ρ * Oᵀ := by
  have hW' : W * Wᴴ = 1 := mul_eq_one_comm.1 hW
  have h1 : majCov g (W * ρ * Wᴴ) = majCov (rotMaj g Oᵀ) ρ := by
    ext i j
    rw [majCov, majCov, of_apply, of_apply]
    have e : ∀ k, rotMaj g Oᵀ k = Wᴴ * g k * W := fun k => (hO k).symm
    have e2 : W * ρ * Wᴴ * (g i * g j - g j * g i) =
        W * (ρ * (rotMaj g Oᵀ i * rotMaj g Oᵀ j - rotMaj g Oᵀ j * rotMaj g Oᵀ i)) * Wᴴ := by
      have e3 : ∀ A B : Op (2 ^ n), Wᴴ * A * W * (Wᴴ * B * W) = Wᴴ * (A * B) * W := fun A B => by
        calc _ = Wᴴ * A * (W * Wᴴ) * B * W := by simp only [Matrix.mul_assoc]
          _ = _ := by rw [hW']; simp only [Matrix.mul_assoc, Matrix.one_mul]
      rw [e, e, e3, e3, ← Matrix.sub_mul, ← Matrix.mul_sub]
      calc _ = W * ρ * Wᴴ * (g i * g j - g j * g i) * (W * Wᴴ) := by rw [hW', mul_one]
        _ = _ := by simp only [Matrix.mul_assoc]
    rw [e2, trace_mul_comm, ← Matrix.mul_assoc, hW, one_mul]
  rw [h1, rotMaj_cov hH hρ, transpose_transpose]

theorem rot_orth (hA : ∀ i j, g i * g j + g j * g i = if i = j then 1 else 0) {W : Op (2 ^ n)} (hW : Wᴴ * W = 1)
    {O : RMat (n + n)} (hO : ∀ k, Wᴴ * g k * W = ∑ l, (O k l : ℂ) • g l) : O * Oᵀ = 1 := by
  have hW' : W * Wᴴ = 1 := mul_eq_one_comm.1 hW
  ext i j
  have h1 : (Wᴴ * g i * W) * (Wᴴ * g j * W) + (Wᴴ * g j * W) * (Wᴴ * g i * W) = if i = j then 1 else 0 := by
    have e3 : ∀ A B : Op (2 ^ n), Wᴴ * A * W * (Wᴴ * B * W) = Wᴴ * (A * B) * W := fun A B => by
      calc _ = Wᴴ * A * (W * Wᴴ) * B * W := by simp only [Matrix.mul_assoc]
        _ = _ := by rw [hW']; simp only [Matrix.mul_assoc, Matrix.one_mul]
    rw [e3, e3, ← Matrix.add_mul, ← Matrix.mul_add, hA]
    split_ifs
    · rw [mul_one, hW]
    · simp
  have h2 : (Wᴴ * g i * W) * (Wᴴ * g j * W) + (Wᴴ * g j * W) * (Wᴴ * g i * W) =
      (((O * Oᵀ) i j : ℝ) : ℂ) • (1 : Op (2 ^ n)) := by
    rw [hO, hO]
    have : (∑ l, (O i l : ℂ) • g l) * (∑ l, (O j l : ℂ) • g l) + (∑ l, (O j l : ℂ) • g l) * (∑ l, (O i l : ℂ) • g l) =
        ∑ k, ∑ l, ((O i k : ℂ) * (O j l : ℂ)) • (g k * g l + g l * g k) := by
      simp only [Finset.sum_mul_sum, smul_add, Finset.sum_add_distrib]
      congr 1
      · refine Finset.sum_congr rfl fun k _ => Finset.sum_congr rfl fun l _ => ?_
        rw [Matrix.smul_mul, Matrix.mul_smul, smul_smul]
      · rw [Finset.sum_comm]
        refine Finset.sum_congr rfl fun k _ => Finset.sum_congr rfl fun l _ => ?_
        rw [Matrix.smul_mul, Matrix.mul_smul, smul_smul, mul_comm]
    rw [this]
    simp only [hA, smul_ite, smul_zero, Finset.sum_ite_eq, Finset.mem_univ, if_true]
    rw [← Finset.sum_smul, mul_apply]
    push_cast
    rfl
  rw [h1] at h2
  have h3 := congrArg trace h2
  have hpos : ((2 : ℂ) ^ n) ≠ 0 := by positivity
  rw [one_apply]
  split_ifs at h3 ⊢ with hij
  · rw [trace_smul, trace_one, smul_eq_mul] at h3
    simp at h3
    exact (by exact_mod_cast h3.symm : (1 : ℝ) = (O * Oᵀ) i j).symm
  · rw [trace_smul, trace_one, trace_zero, smul_eq_mul] at h3
    simp at h3
    exact h3

/-- Pure states on which `γ_{n+j}` acts as `±i γ_j`. -/
theorem majCov_vacuum (hH : ∀ i, (g i).IsHermitian) (hA : ∀ i j, g i * g j + g j * g i = if i = j then 1 else 0)
    {ψ : Fin (2 ^ n) → ℂ} (hψ : Spec.IsUnitVec ψ) {s : Fin n → ℝ} (hs : ∀ j, s j ^ 2 = 1)
    (h : ∀ j, g (Fin.natAdd n j) *ᵥ ψ = (Complex.I * s j) • (g (Fin.castAdd n j) *ᵥ ψ)) :
    (majCov g (Spec.proj ψ))ᵀ * majCov g (Spec.proj ψ) = 1 := by
  have hρ : (Spec.proj ψ)ᴴ = Spec.proj ψ := (proj_psd ψ).isHermitian
  have htr : ∀ A : Op (2 ^ n), (Spec.proj ψ * A).trace = star ψ ⬝ᵥ (A *ᵥ ψ) := fun A => by
    rw [trace_mul_comm]
    simp only [trace, diag_apply, mul_apply, Spec.proj, of_apply, dotProduct, mulVec, Pi.star_apply, Finset.mul_sum]
    refine Finset.sum_congr rfl fun x _ => Finset.sum_congr rfl fun y _ => ?_
    ring
  set E : Fin (n + n) → Fin (n + n) → ℂ := fun k l => (Spec.proj ψ * (g k * g l)).trace with hE
  have hM : ∀ k l, ((majCov g (Spec.proj ψ) k l : ℝ) : ℂ) = -Complex.I * (E k l - E l k) := fun k l => by
    rw [majCov_eq hH hρ, Matrix.mul_sub, trace_sub]
  have hsum : ∀ k l, E k l + E l k = if k = l then 1 else 0 := fun k l => by
    rw [hE]
    simp only
    rw [← trace_add, ← Matrix.mul_add, hA]
    split_ifs
    · rw [mul_one, proj_trace, hψ]; norm_num
    · simp
  have hconj : ∀ k l, E l k = conj (E k l) := fun k l => by
    have := trace_conjTranspose (Spec.proj ψ * (g k * g l))
    rw [conjTranspose_mul, hρ, conjTranspose_mul, (hH k).eq, (hH l).eq, trace_mul_comm] at this
    exact this
  have hR : ∀ k (j : Fin n), E k (Fin.natAdd n j) = Complex.I * s j * E k (Fin.castAdd n j) := fun k j => by
    simp only [hE, htr]
    rw [← mulVec_mulVec, h, mulVec_smul, dotProduct_smul, mulVec_mulVec, smul_eq_mul]
  have hL : ∀ k (j : Fin n), E (Fin.natAdd n j) k = -(Complex.I * s j) * E (Fin.castAdd n j) k := fun k j => by
    rw [hconj k, hR, map_mul, map_mul, Complex.conj_I, Complex.conj_ofReal, ← hconj k]; ring
  have hhalf : ∀ i j : Fin n, E (Fin.castAdd n i) (Fin.castAdd n j) = if i = j then 1 / 2 else 0 := fun i j => by
    have h1 := hsum (Fin.castAdd n i) (Fin.natAdd n j)
    have hne : Fin.castAdd n i ≠ Fin.natAdd n j := fun e => by
      have := congrArg Fin.val e
      simp at this; omega
    rw [if_neg hne, hR, hL] at h1
    have h2 := hsum (Fin.castAdd n i) (Fin.castAdd n j)
    have hsj : (s j : ℂ) ^ 2 = 1 := by exact_mod_cast hs j
    have h3 : E (Fin.castAdd n i) (Fin.castAdd n j) - E (Fin.castAdd n j) (Fin.castAdd n i) = 0 := by
      have : (-(Complex.I * s j)) * (Complex.I * s j * E (Fin.castAdd n i) (Fin.castAdd n j) +
          -(Complex.I * s j) * E (Fin.castAdd n j) (Fin.castAdd n i)) = 0 := by rw [h1, mul_zero]
      have hI : Complex.I ^ 2 = -1 := Complex.I_sq
      linear_combination this + (s j : ℂ) ^ 2 * (E (Fin.castAdd n i) (Fin.castAdd n j) - E (Fin.castAdd n j) (Fin.castAdd n i)) * hI - (E (Fin.castAdd n i) (Fin.castAdd n j) - E (Fin.castAdd n j) (Fin.castAdd n i)) * hsj
    have hiff : (Fin.castAdd n i = Fin.castAdd n j) ↔ i = j := Fin.castAdd_injective n n |>.eq_iff
    simp only [hiff] at h2
    split_ifs at h2 ⊢
    · linear_combination (1 / 2) * h2 + (1 / 2) * h3
    · linear_combination (1 / 2) * h2 + (1 / 2) * h3
  have h11 : ∀ i j : Fin n, majCov g (Spec.proj ψ) (Fin.castAdd n i) (Fin.castAdd n j) = 0 := fun i j => by
    apply Complex.ofReal_injective
    rw [hM, hhalf, hhalf]
    simp only [eq_comm (a := j)]
    simp
  have h22 : ∀ i j : Fin n, majCov g (Spec.proj ψ) (Fin.natAdd n i) (Fin.natAdd n j) = 0 := fun i j => by
    apply Complex.ofReal_injective
    rw [hM, hR, hR, hL, hL, hhalf, hhalf]
    simp only [eq_comm (a := j)]
    split_ifs with e
    · subst e; simp
    · simp
  have h12 : ∀ i j : Fin n, majCov g (Spec.proj ψ) (Fin.castAdd n i) (Fin.natAdd n j) = if i = j then s j else 0 := fun i j => by
    apply Complex.ofReal_injective
    rw [hM, hR, hL, hhalf, hhalf]
    simp only [eq_comm (a := j)]
    have hI : Complex.I ^ 2 = -1 := Complex.I_sq
    split_ifs with e
    · linear_combination (-(s j : ℂ)) * hI
    · simp
  have h21 : ∀ i j : Fin n, majCov g (Spec.proj ψ) (Fin.natAdd n i) (Fin.castAdd n j) = if i = j then -s j else 0 := fun i j => by
    have := congrFun (congrFun (majCov_skew (g := g) (ρ := Spec.proj ψ)) (Fin.castAdd n j)) (Fin.natAdd n i)
    rw [transpose_apply, Matrix.neg_apply, h12] at this
    rw [this]
    by_cases e : i = j
    · subst e; simp
    · simp [e, Ne.symm e]
  ext x y
  rw [mul_apply, Fin.sum_univ_add]
  simp only [transpose_apply]
  refine Fin.addCases (fun i => ?_) (fun i => ?_) x <;> refine Fin.addCases (fun j => ?_) (fun j => ?_) y
  · have hiff : (Fin.castAdd n i = Fin.castAdd n j) ↔ i = j := Fin.castAdd_injective n n |>.eq_iff
    rw [Finset.sum_eq_zero (fun k _ => by rw [h11, zero_mul]), zero_add,
      Finset.sum_eq_single i (fun k _ hk => by rw [h21, if_neg hk, zero_mul]) (by simp), h21, h21, if_pos rfl, one_apply]
    simp only [hiff]
    split_ifs with e
    · subst e; linarith [hs i]
    · simp
  · have hne : Fin.castAdd n i ≠ Fin.natAdd n j := fun e => by
      have := congrArg Fin.val e
      simp at this; omega
    rw [Finset.sum_eq_zero (fun k _ => by rw [h11, zero_mul]), Finset.sum_eq_zero (fun k _ => by rw [h22, mul_zero]),
      one_apply, if_neg hne, zero_add]
  · have hne : Fin.natAdd n i ≠ Fin.castAdd n j := fun e => by
      have := congrArg Fin.val e
      simp at this; omega
    rw [Finset.sum_eq_zero (fun k _ => by rw [h11, mul_zero]), Finset.sum_eq_zero (fun k _ => by rw [h22, zero_mul]),
      one_apply, if_neg hne, zero_add]
  · have hiff : (Fin.natAdd n i = Fin.natAdd n j) ↔ i = j := Fin.natAdd_injective n n |>.eq_iff
    rw [Finset.sum_eq_zero (s := Finset.univ) (f := fun k => majCov g (Spec.proj ψ) (Fin.natAdd n k) (Fin.natAdd n i) * _)
        (fun k _ => by rw [h22, zero_mul]), add_zero,
      Finset.sum_eq_single i (fun k _ hk => by rw [h12, if_neg hk, zero_mul]) (by simp), h12, h12, if_pos rfl, one_apply]
    simp only [hiff]
    split_ifs with e
    · subst e; linarith [hs i]
    · simp

/-- Coefficients of Hermitian combinations of Majoranas are real. -/
theorem maj_real (hH : ∀ i, (g i).IsHermitian) (hA : ∀ i j, g i * g j + g j * g i = if i = j then 1 else 0)
    {W : Op (2 ^ n)} {R : Op (n + n)} (hR : ∀ k, Wᴴ * g k * W = ∑ l, R k l • g l) (k l : Fin (n + n)) :
    (((R k l).re : ℝ) : ℂ) = R k l := by
  have h1 : ∑ l, R k l • g l = ∑ l, conj (R k l) • g l := by
    have := congrArg conjTranspose (hR k)
    rw [conjTranspose_mul, conjTranspose_mul, conjTranspose_conjTranspose, (hH k).eq, ← Matrix.mul_assoc, hR,
      conjTranspose_sum] at this
    rw [this]
    refine Finset.sum_congr rfl fun l _ => ?_
    rw [conjTranspose_smul, (hH l).eq]; rfl
  have key : ∀ c : Fin (n + n) → ℂ, ((∑ m, c m • g m) * g l + g l * ∑ m, c m • g m).trace = c l * 2 ^ n := by
    intro c
    rw [Matrix.sum_mul, Matrix.mul_sum, ← Finset.sum_add_distrib]
    simp only [Matrix.smul_mul, Matrix.mul_smul, ← smul_add, hA, smul_ite, smul_zero, Finset.sum_ite_eq', Finset.mem_univ,
      if_true, trace_smul, trace_one, smul_eq_mul]
    simp
  have h2 := key (R k)
  have h3 := key fun l => conj (R k l)
  rw [h1, h3] at h2
  exact Complex.conj_eq_iff_re.1 (mul_right_cancel₀ (by positivity) h2)

end cov

end FF
