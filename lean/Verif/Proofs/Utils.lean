import Verif.Model.Utils
import Verif.Spec.Quantum
import Verif.Proofs.Loops
import Mathlib.Tactic.Linarith
import Mathlib.Tactic.NormNum

/-! # Helper lemmas for `ff_utils.py` -/

namespace FF

open Matrix
open scoped ComplexOrder
open scoped ComplexConjugate

/-! ## partial traces -/

theorem blockCount_ok {d e : ℕ} (hd : d ≠ 0) : blockCount (e * d) d = .ok e := by
  unfold blockCount
  rw [if_neg hd, if_neg (by simp), Nat.mul_div_cancel _ (Nat.pos_of_ne_zero hd)]

theorem blockCount_ok' {d e : ℕ} (hd : d ≠ 0) : blockCount (d * e) d = .ok e := by
  rw [Nat.mul_comm]; exact blockCount_ok hd

/-- Sum of the diagonal blocks. -/
def pt1 {e d : ℕ} (AB : Matrix (Fin (e * d)) (Fin (e * d)) ℂ) : Matrix (Fin d) (Fin d) ℂ :=
  ∑ j : Fin e, AB.submatrix (fun x => finProdFinEquiv (j, x)) (fun x => finProdFinEquiv (j, x))

/-- Traces of the blocks. -/
def pt2 {d e : ℕ} (AB : Matrix (Fin (d * e)) (Fin (d * e)) ℂ) : Matrix (Fin d) (Fin d) ℂ :=
  ∑ k : Fin e, AB.submatrix (fun x => finProdFinEquiv (x, k)) (fun x => finProdFinEquiv (x, k))

theorem partialTraceOver1_ok {e d : ℕ} (hd : d ≠ 0) (AB : Matrix (Fin (e * d)) (Fin (e * d)) ℂ) :
    partialTraceOver1 AB d = .ok (pt1 AB) := by
  unfold partialTraceOver1
  rw [blockCount_ok hd]
  simp only [bind, Except.bind]
  rw [foldl_add_eq_sum, sum_map_range, zero_add]
  congr 1
  unfold pt1
  refine Finset.sum_congr rfl fun j _ => ?_
  ext x y
  have hj : ∀ x : Fin d, (j : ℕ) * d + x < e * d := fun x => by
    calc (j : ℕ) * d + x < j * d + d := by omega
      _ = (j + 1) * d := by ring
      _ ≤ e * d := Nat.mul_le_mul_right _ j.2
  simp only [of_apply, entry, hj x, hj y, true_and, dif_pos, submatrix_apply]
  congr 1 <;> ext <;> simp [finProdFinEquiv] <;> ring

theorem sum_apply2 {ι : Type} {m n : ℕ} (s : Finset ι) (f : ι → Matrix (Fin m) (Fin n) ℂ) (i j) :
    (∑ c ∈ s, f c) i j = ∑ c ∈ s, f c i j := Matrix.sum_apply i j s f

theorem partialTraceOver2_B {d e : ℕ} (AB : Matrix (Fin (d * e)) (Fin (d * e)) ℂ) :
    (Matrix.of fun (i j : Fin d) => (List.range e).foldl
      (fun t k => t + entry AB (i * e + k) (j * e + k)) 0) = pt2 AB := by
  ext i j
  rw [of_apply, foldl_add_eq_sum, sum_map_range, zero_add, pt2, sum_apply2]
  refine Finset.sum_congr rfl fun k _ => ?_
  have hk : ∀ i : Fin d, (i : ℕ) * e + k < d * e := fun i => by
    calc (i : ℕ) * e + k < i * e + e := by omega
      _ = (i + 1) * e := by ring
      _ ≤ d * e := Nat.mul_le_mul_right _ i.2
  simp only [entry, hk i, hk j, true_and, dif_pos, submatrix_apply]
  congr 1 <;> ext <;> simp [finProdFinEquiv] <;> ring

/-- The entrywise real part. -/
def reMat {n : ℕ} (M : Matrix (Fin n) (Fin n) ℂ) : Matrix (Fin n) (Fin n) ℂ :=
  Matrix.of fun i j => ((M i j).re : ℂ)

open Classical in
theorem partialTraceOver2_ok {d e : ℕ} (hd : d ≠ 0) (AB : Matrix (Fin (d * e)) (Fin (d * e)) ℂ) :
    partialTraceOver2 AB d = .ok (if ∀ i j, |(pt2 AB i j).im| ≤ 1e-8 then reMat (pt2 AB)
      else pt2 AB) := by
  unfold partialTraceOver2
  rw [blockCount_ok' hd]
  simp only [bind, Except.bind]
  rw [partialTraceOver2_B]
  have : allclose (Matrix.of fun i j => ((pt2 AB i j).im : ℂ)) (0 : Matrix (Fin d) (Fin d) ℂ)
      ↔ ∀ i j, |(pt2 AB i j).im| ≤ 1e-8 := by
    simp [allclose, isclose]
  by_cases h : ∀ i j, |(pt2 AB i j).im| ≤ 1e-8
  · rw [if_pos (this.2 h), if_pos h]; rfl
  · rw [if_neg (fun h' => h (this.1 h')), if_neg h]

theorem trace_pt1 {e d : ℕ} (AB : Matrix (Fin (e * d)) (Fin (e * d)) ℂ) :
    (pt1 AB).trace = AB.trace := by
  simp only [pt1, trace, diag_apply, sum_apply2, submatrix_apply]
  rw [← finProdFinEquiv.sum_comp, Fintype.sum_prod_type, Finset.sum_comm]

theorem trace_pt2 {e d : ℕ} (AB : Matrix (Fin (d * e)) (Fin (d * e)) ℂ) :
    (pt2 AB).trace = AB.trace := by
  simp only [pt2, trace, diag_apply, sum_apply2, submatrix_apply]
  rw [← finProdFinEquiv.sum_comp, Fintype.sum_prod_type]

theorem npKron_prod {m n p q : ℕ} (A : Matrix (Fin m) (Fin n) ℂ) (B : Matrix (Fin p) (Fin q) ℂ)
    (i : Fin m) (j : Fin n) (k : Fin p) (l : Fin q) :
    npKron A B (finProdFinEquiv (i, k)) (finProdFinEquiv (j, l)) = A i j * B k l := by
  have h : ∀ {a b : ℕ} (x : Fin a) (y : Fin b), (finProdFinEquiv (x, y)).divNat = x ∧
      (finProdFinEquiv (x, y)).modNat = y := fun x y => by
    have := finProdFinEquiv.symm_apply_apply (x, y)
    simp only [finProdFinEquiv_symm_apply, Prod.mk.injEq] at this
    exact this
  simp only [npKron, of_apply, (h _ _).1, (h _ _).2]

theorem pt1_kron {e d : ℕ} (A : Matrix (Fin e) (Fin e) ℂ) (B : Matrix (Fin d) (Fin d) ℂ) :
    pt1 (npKron A B) = A.trace • B := by
  ext x y
  rw [pt1, sum_apply2]
  simp only [submatrix_apply, npKron_prod, Matrix.smul_apply, trace, diag_apply, smul_eq_mul,
    Finset.sum_mul]

theorem pt2_kron {e d : ℕ} (A : Matrix (Fin d) (Fin d) ℂ) (B : Matrix (Fin e) (Fin e) ℂ) :
    pt2 (npKron A B) = B.trace • A := by
  ext x y
  rw [pt2, sum_apply2]
  simp only [submatrix_apply, npKron_prod, Matrix.smul_apply, trace, diag_apply, smul_eq_mul,
    Finset.mul_sum, mul_comm]

theorem pt1_psd {e d : ℕ} {AB : Matrix (Fin (e * d)) (Fin (e * d)) ℂ} (h : AB.PosSemidef) :
    (pt1 AB).PosSemidef :=
  posSemidef_sum _ fun _ _ => h.submatrix _

theorem pt2_psd {e d : ℕ} {AB : Matrix (Fin (d * e)) (Fin (d * e)) ℂ} (h : AB.PosSemidef) :
    (pt2 AB).PosSemidef :=
  posSemidef_sum _ fun _ _ => h.submatrix _

theorem pt1_herm {e d : ℕ} {AB : Matrix (Fin (e * d)) (Fin (e * d)) ℂ} (h : AB.IsHermitian) :
    (pt1 AB).IsHermitian := by
  unfold Matrix.IsHermitian pt1
  rw [conjTranspose_sum]
  exact Finset.sum_congr rfl fun j _ => by rw [conjTranspose_submatrix, h.eq]

theorem pt2_herm {e d : ℕ} {AB : Matrix (Fin (d * e)) (Fin (d * e)) ℂ} (h : AB.IsHermitian) :
    (pt2 AB).IsHermitian := by
  unfold Matrix.IsHermitian pt2
  rw [conjTranspose_sum]
  exact Finset.sum_congr rfl fun j _ => by rw [conjTranspose_submatrix, h.eq]

theorem reMat_herm {n : ℕ} {M : Matrix (Fin n) (Fin n) ℂ} (h : M.IsHermitian) :
    (reMat M).IsHermitian := by
  ext i j
  have := h.apply i j
  simp only [reMat, conjTranspose_apply, of_apply]
  rw [← this]
  simp

theorem reMat_eq {n : ℕ} {M : Matrix (Fin n) (Fin n) ℂ} (h : M.IsHermitian) :
    reMat M = (1 / 2 : ℝ) • (M + Mᵀ) := by
  ext i j
  have := h.apply i j
  simp only [reMat, of_apply, Matrix.smul_apply, Matrix.add_apply, transpose_apply]
  rw [← this]
  apply Complex.ext
  · simp; ring
  · simp

theorem reMat_psd {n : ℕ} {M : Matrix (Fin n) (Fin n) ℂ} (h : M.PosSemidef) :
    (reMat M).PosSemidef := by
  rw [reMat_eq h.isHermitian]
  exact (h.add h.transpose).smul (by norm_num)

theorem trace_reMat {n : ℕ} {M : Matrix (Fin n) (Fin n) ℂ} (h : M.IsHermitian) :
    (reMat M).trace = M.trace := by
  simp only [trace, diag_apply, reMat, of_apply]
  refine Finset.sum_congr rfl fun i _ => ?_
  have := h.apply i i
  exact Complex.conj_eq_iff_re.1 this

/-! ## casts -/

theorem isclose_self (a : ℂ) : isclose a a := by
  simp only [isclose, sub_self, norm_zero]
  positivity

theorem allclose_self {m n : ℕ} (A : Matrix (Fin m) (Fin n) ℂ) : allclose A A :=
  fun i j => isclose_self _

theorem lowerHerm_eq {n : ℕ} {A : Matrix (Fin n) (Fin n) ℂ} (h : A.IsHermitian) :
    lowerHerm A = A := by
  ext i j
  simp only [lowerHerm, of_apply]
  rcases lt_trichotomy i j with hij | hij | hij
  · rw [if_neg (not_lt.2 hij.le), if_pos hij]; exact h.apply i j
  · subst hij; simp only [lt_irrefl, if_false]; exact Complex.conj_eq_iff_re.1 (h.apply i i)
  · rw [if_pos hij]

theorem eigvalsh_nonneg {n : ℕ} {A : Matrix (Fin n) (Fin n) ℂ} (h : (lowerHerm A).PosSemidef)
    (i : Fin n) : 0 ≤ eigvalsh A i := by
  have := h.eigenvalues_nonneg ((Fintype.equivOfCardEq (Fintype.card_fin _)) (Fin.cast (by simp) i.rev))
  unfold Matrix.IsHermitian.eigenvalues at this
  simpa [eigvalsh] using this

/-- The matrix that `validateDM` returns. -/
theorem validateDM_square {n : ℕ} (A : Matrix (Fin n) (Fin n) ℂ)
    (htr : isclose 1 (npTrace A)) (hh : allclose A A.conjTranspose)
    (he : ∀ i, eigvalsh A i ≥ -1e-12) : validateDM A = .ok ⟨n, A⟩ := by
  unfold validateDM
  rw [dif_neg (by simp)]
  have hA : A.submatrix id (Fin.cast rfl) = A := by ext; simp
  rw [hA]
  dsimp only
  rw [if_neg (not_not.2 htr), if_neg (not_not.2 hh), if_neg (not_not.2 he)]

theorem validateDM_psd {n : ℕ} {A : Matrix (Fin n) (Fin n) ℂ} (h : A.PosSemidef)
    (htr : isclose 1 A.trace) : validateDM A = .ok ⟨n, A⟩ := by
  refine validateDM_square A htr ?_ ?_
  · rw [h.isHermitian.eq]; exact allclose_self A
  · intro i
    have := eigvalsh_nonneg (A := A) (by rw [lowerHerm_eq h.isHermitian]; exact h) i
    linarith

theorem proj_psd {n : ℕ} (ψ : Fin n → ℂ) : (Spec.proj ψ).PosSemidef := by
  have : Spec.proj ψ = vecMulVec ψ (star ψ) := by
    ext i j; simp [Spec.proj, vecMulVec_apply]
  rw [this]
  exact posSemidef_vecMulVec_self_star ψ

theorem proj_trace {n : ℕ} (ψ : Fin n → ℂ) :
    (Spec.proj ψ).trace = ((∑ i, ‖ψ i‖ ^ 2 : ℝ) : ℂ) := by
  simp only [Spec.proj, trace, diag_apply, of_apply]
  push_cast
  refine Finset.sum_congr rfl fun i _ => ?_
  rw [Complex.star_def, Complex.mul_conj, Complex.normSq_eq_norm_sq]
  push_cast; rfl

theorem diag_psd {n : ℕ} {p : Fin n → ℝ} (hp : ∀ i, 0 ≤ p i) :
    (Matrix.diagonal fun i => (p i : ℂ)).PosSemidef := by
  rw [posSemidef_diagonal_iff]
  intro i
  exact_mod_cast hp i

end FF
