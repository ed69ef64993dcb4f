import Verif.Props.Combinatorics

/-! # Property C164: rescaling, reordering and comparison of the combinatorial functions -/

namespace FF.Props

open Equiv Matrix Finset

variable {K : Type}

/-- The product over the places `2i`, `2i+1` of a permutation runs over all indices. -/
theorem prod_pairs [CommMonoid K] {m : ℕ} (d : Fin (2 * m) → K) (σ : Perm (Fin (2 * m))) :
    ∏ i : Fin m, (d (σ ⟨2 * i, by omega⟩) * d (σ ⟨2 * i + 1, by omega⟩)) = ∏ i, d i := by
  rw [← Equiv.prod_comp σ d]
  have key : ∀ (m : ℕ) (f : Fin (2 * m) → K), ∏ i : Fin m, (f ⟨2 * i, by omega⟩ * f ⟨2 * i + 1, by omega⟩) = ∏ i, f i := by
    intro m
    induction m with
    | zero => intro f; simp
    | succ m ih =>
      intro f
      rw [Fin.prod_univ_castSucc, show (∏ i, f i) = ∏ i : Fin (2 * m + 2), f i from rfl, Fin.prod_univ_castSucc,
        Fin.prod_univ_castSucc, mul_assoc]
      congr 1
      exact ih fun i => f ⟨i, by omega⟩
  exact key m fun i => d (σ i)

/-- C164. Multiplying row `i` by `d[i]` and column `j` by `e[j]` multiplies `dt` and `pt` by all these numbers. -/
theorem C164_scale_dt_pt [CommRing K] {n : ℕ} (A : Matrix (Fin n) (Fin n) K) (d e : Fin n → K) :
    ∃ x y, dt A = .ok x ∧ pt A = .ok y ∧
      dt (Matrix.of fun i j => d i * A i j * e j) = .ok ((∏ i, d i) * (∏ j, e j) * x) ∧
      pt (Matrix.of fun i j => d i * A i j * e j) = .ok ((∏ i, d i) * (∏ j, e j) * y) := by
  refine ⟨_, _, C02_dt_eq_det A, C03_pt_eq_permanent A, ?_, ?_⟩
  · rw [C02_dt_eq_det, show (Matrix.of fun i j => d i * A i j * e j) = diagonal d * A * diagonal e by
      ext i j; simp [Matrix.mul_diagonal, Matrix.diagonal_mul], det_mul, det_mul, det_diagonal, det_diagonal]
    congr 1
    ring
  · rw [C03_pt_eq_permanent, mul_sum]
    congr 1
    refine sum_congr rfl fun σ _ => ?_
    simp only [of_apply, prod_mul_distrib]
    rw [Equiv.prod_comp σ d]
    ring

/-- C164. Multiplying row `i` and column `i` by `d[i]`, for every `i`, multiplies `pf` and `hf` by the product of these numbers. -/
theorem C164_scale_pf_hf [Field K] {n : ℕ} (A : Matrix (Fin n) (Fin n) K) (d : Fin n → K) :
    ∃ x y, pf A = .ok x ∧ hf A = .ok y ∧
      pf (Matrix.of fun i j => d i * A i j * d j) = .ok ((∏ i, d i) * x) ∧
      hf (Matrix.of fun i j => d i * A i j * d j) = .ok ((∏ i, d i) * y) := by
  rcases Nat.even_or_odd' n with ⟨m, rfl | rfl⟩
  · have h : ∀ σ : Perm (Fin (2 * m)), ∏ i : Fin m, (Matrix.of fun i j => d i * A i j * d j) (σ ⟨2 * i, by omega⟩) (σ ⟨2 * i + 1, by omega⟩) =
        (∏ i, d i) * ∏ i : Fin m, A (σ ⟨2 * i, by omega⟩) (σ ⟨2 * i + 1, by omega⟩) := fun σ => by
      rw [← prod_pairs d σ, ← prod_mul_distrib]
      exact prod_congr rfl fun i _ => by simp only [of_apply]; ring
    refine ⟨_, _, C125_pf_formula A, C125_hf_formula A, ?_, ?_⟩
    · rw [C125_pf_formula]
      simp only [h]
      rw [mul_left_comm, mul_sum (a := ∏ i, d i)]
      congr 2
      exact sum_congr rfl fun σ _ => by ring
    · rw [C125_hf_formula]
      simp only [h]
      rw [← mul_sum, mul_left_comm]
  · exact ⟨0, 0, pf_odd (by omega) A, hf_odd (by omega) A, by rw [pf_odd (by omega)]; simp, by rw [hf_odd (by omega)]; simp⟩

/-- C164. Reordering rows and columns in the same way does not change `hf`, and changes `pf` by the sign of the reordering. -/
theorem C164_reorder [Field K] {n : ℕ} (A : Matrix (Fin n) (Fin n) K) (τ : Perm (Fin n)) :
    ∃ x y, pf A = .ok x ∧ hf A = .ok y ∧
      pf (A.submatrix τ τ) = .ok (((Perm.sign τ : ℤ) : K) * x) ∧ hf (A.submatrix τ τ) = .ok y := by
  rcases Nat.even_or_odd' n with ⟨m, rfl | rfl⟩
  · refine ⟨_, _, C125_pf_formula A, C125_hf_formula A, ?_, ?_⟩
    · rw [C125_pf_formula, mul_left_comm, mul_sum (a := ((Perm.sign τ : ℤ) : K))]
      congr 2
      refine Fintype.sum_equiv (Equiv.mulLeft τ) _ _ fun σ => ?_
      simp only [coe_mulLeft, Perm.sign_mul, submatrix_apply, Perm.mul_apply, Units.val_mul, Int.cast_mul]
      rw [← mul_assoc, ← mul_assoc, ← Int.cast_mul, ← Units.val_mul, Int.units_mul_self]
      simp
    · rw [C125_hf_formula]
      congr 2
      exact Fintype.sum_equiv (Equiv.mulLeft τ) _ _ fun σ => rfl
  · exact ⟨0, 0, pf_odd (by omega) A, hf_odd (by omega) A, by rw [pf_odd (by omega)]; simp, by rw [hf_odd (by omega)]⟩

/-- C164. The moduli of `dt(A)` and `pt(A)` are at most `pt(|A|)`, and those of `pf(A)` and `hf(A)` at most `hf(|A|)`. -/
theorem C164_moduli {n : ℕ} (A : Matrix (Fin n) (Fin n) ℂ) :
    ∃ d p f h P H, dt A = .ok d ∧ pt A = .ok p ∧ pf A = .ok f ∧ hf A = .ok h ∧
      pt (A.map fun z => ‖z‖) = .ok P ∧ hf (A.map fun z => ‖z‖) = .ok H ∧
      ‖d‖ ≤ P ∧ ‖p‖ ≤ P ∧ ‖f‖ ≤ H ∧ ‖h‖ ≤ H := by
  have hs : ∀ k (σ : Perm (Fin k)), ‖(((Perm.sign σ : ℤ) : ℂ))‖ = 1 := fun k σ => by
    rcases Int.units_eq_one_or (Perm.sign σ) with h | h <;> simp [h]
  have h1 : ‖A.det‖ ≤ ∑ σ : Perm (Fin n), ∏ i, (A.map fun z => ‖z‖) (σ i) i := by
    rw [det_apply']
    refine (norm_sum_le _ _).trans (sum_le_sum fun σ _ => ?_)
    rw [norm_mul, hs, one_mul, norm_prod]
    rfl
  have h2 : ‖∑ σ : Perm (Fin n), ∏ i, A (σ i) i‖ ≤ ∑ σ : Perm (Fin n), ∏ i, (A.map fun z => ‖z‖) (σ i) i := by
    refine (norm_sum_le _ _).trans (sum_le_sum fun σ _ => ?_)
    rw [norm_prod]
    rfl
  rcases Nat.even_or_odd' n with ⟨m, rfl | rfl⟩
  · refine ⟨_, _, _, _, _, _, C02_dt_eq_det A, C03_pt_eq_permanent A, C125_pf_formula A, C125_hf_formula A,
      C03_pt_eq_permanent _, C125_hf_formula _, h1, h2, ?_, ?_⟩ <;>
    · rw [norm_mul, norm_div, norm_one, norm_mul, norm_pow, Complex.norm_natCast, Complex.norm_two]
      refine mul_le_mul_of_nonneg_left ((norm_sum_le _ _).trans (sum_le_sum fun σ _ => ?_)) (by positivity)
      simp only [norm_mul, hs, one_mul, norm_prod, map_apply, le_refl]
  · exact ⟨_, _, 0, 0, _, 0, C02_dt_eq_det A, C03_pt_eq_permanent A, pf_odd (by omega) A, hf_odd (by omega) A,
      C03_pt_eq_permanent _, hf_odd (by omega) _, h1, h2, by simp, by simp⟩

/-- C164. For arrays with entries `0 ≤ A[i,j] ≤ B[i,j]`, `0 ≤ pt(A) ≤ pt(B)` and `0 ≤ hf(A) ≤ hf(B)`. -/
theorem C164_monotone {n : ℕ} (A B : Matrix (Fin n) (Fin n) ℝ) (h0 : ∀ i j, 0 ≤ A i j) (h : ∀ i j, A i j ≤ B i j) :
    ∃ a b x y, pt A = .ok a ∧ pt B = .ok b ∧ hf A = .ok x ∧ hf B = .ok y ∧ 0 ≤ a ∧ a ≤ b ∧ 0 ≤ x ∧ x ≤ y := by
  have h1 : 0 ≤ ∑ σ : Perm (Fin n), ∏ i, A (σ i) i := sum_nonneg fun σ _ => prod_nonneg fun i _ => h0 _ _
  have h2 : ∑ σ : Perm (Fin n), ∏ i, A (σ i) i ≤ ∑ σ : Perm (Fin n), ∏ i, B (σ i) i :=
    sum_le_sum fun σ _ => prod_le_prod (fun i _ => h0 _ _) fun i _ => h _ _
  rcases Nat.even_or_odd' n with ⟨m, rfl | rfl⟩
  · refine ⟨_, _, _, _, C03_pt_eq_permanent A, C03_pt_eq_permanent B, C125_hf_formula A, C125_hf_formula B, h1, h2, ?_, ?_⟩
    · exact mul_nonneg (by positivity) (sum_nonneg fun σ _ => prod_nonneg fun i _ => h0 _ _)
    · exact mul_le_mul_of_nonneg_left (sum_le_sum fun σ _ => prod_le_prod (fun i _ => h0 _ _) fun i _ => h _ _) (by positivity)
  · exact ⟨_, _, 0, 0, C03_pt_eq_permanent A, C03_pt_eq_permanent B, hf_odd (by omega) A, hf_odd (by omega) B, h1, h2, le_rfl, le_rfl⟩

/-- C164. Adding edges to a graph never lowers the number of perfect matchings that `hf` of its adjacency matrix gives. -/
theorem C164_edges {n : ℕ} (G H : SimpleGraph (Fin n)) [DecidableRel G.Adj] [DecidableRel H.Adj] (h : G ≤ H) :
    ∃ x y : ℝ, hf (G.adjMatrix ℝ) = .ok x ∧ hf (H.adjMatrix ℝ) = .ok y ∧ x ≤ y := by
  obtain ⟨_, _, x, y, -, -, hx, hy, -, -, -, hxy⟩ := C164_monotone (G.adjMatrix ℝ) (H.adjMatrix ℝ)
    (fun i j => by rw [SimpleGraph.adjMatrix_apply]; split <;> norm_num)
    (fun i j => by
      rw [SimpleGraph.adjMatrix_apply, SimpleGraph.adjMatrix_apply]
      by_cases hg : G.Adj i j
      · simp [hg, h hg]
      · rw [if_neg hg]; split <;> norm_num)
  exact ⟨x, y, hx, hy, hxy⟩

/-- If the terms do not all have the same sign, the modulus of the sum is smaller than the sum of the moduli. -/
theorem abs_sum_eq_iff {ι : Type} (s : Finset ι) (f : ι → ℝ) :
    |∑ i ∈ s, f i| = ∑ i ∈ s, |f i| ↔ ∀ i ∈ s, ∀ j ∈ s, 0 ≤ f i * f j := by
  constructor
  · intro h
    have key : (∀ i ∈ s, 0 ≤ f i) ∨ ∀ i ∈ s, f i ≤ 0 := by
      rcases abs_cases (∑ i ∈ s, f i) with ⟨e, _⟩ | ⟨e, _⟩
      · left
        rw [e] at h
        intro i hi
        have := (sum_eq_sum_iff_of_le fun i _ => le_abs_self (f i)).1 h i hi
        rw [this]
        exact abs_nonneg _
      · right
        rw [e, ← sum_neg_distrib] at h
        intro i hi
        have := (sum_eq_sum_iff_of_le fun i _ => neg_le_abs (f i)).1 h i hi
        have h3 := abs_nonneg (f i)
        linarith
    intro i hi j hj
    rcases key with k | k
    · exact mul_nonneg (k i hi) (k j hj)
    · exact mul_nonneg_of_nonpos_of_nonpos (k i hi) (k j hj)
  · intro h
    have key : (∀ i ∈ s, 0 ≤ f i) ∨ ∀ i ∈ s, f i ≤ 0 := by
      by_contra hc
      push Not at hc
      obtain ⟨⟨i, hi, h1⟩, j, hj, h2⟩ := hc
      have := h i hi j hj
      nlinarith
    rcases key with k | k
    · rw [abs_of_nonneg (sum_nonneg k)]
      exact sum_congr rfl fun i hi => (abs_of_nonneg (k i hi)).symm
    · rw [abs_of_nonpos (sum_nonpos k), ← sum_neg_distrib]
      exact sum_congr rfl fun i hi => (abs_of_nonpos (k i hi)).symm

/-- C164. For a skew-symmetric array, `|pf(A)| = hf(|A|)` exactly if no two perfect matchings contribute to `pf(A)` with different
signs. -/
theorem C164_kasteleyn {n : ℕ} (A : Matrix (Fin n) (Fin n) ℝ) (hA : Aᵀ = -A) :
    ∃ x y, pf A = .ok x ∧ hf (A.map fun a => |a|) = .ok y ∧ |x| ≤ y ∧
      (|x| = y ↔ ∀ M ∈ Spec.perfectMatchings n, ∀ N ∈ Spec.perfectMatchings n,
        0 ≤ ((-1) ^ Spec.crossings M * ∏ e ∈ M, A e.1 e.2) * ((-1) ^ Spec.crossings N * ∏ e ∈ N, A e.1 e.2)) := by
  have hs : (A.map fun a => |a|).IsSymm := by
    ext i j
    have := congrFun (congrFun hA i) j
    simp only [transpose_apply, Matrix.neg_apply] at this
    simp [this]
  have e : ∑ M ∈ Spec.perfectMatchings n, ∏ e ∈ M, (A.map fun a => |a|) e.1 e.2 =
      ∑ M ∈ Spec.perfectMatchings n, |(-1) ^ Spec.crossings M * ∏ e ∈ M, A e.1 e.2| :=
    sum_congr rfl fun M _ => by rw [abs_mul, abs_pow, abs_neg, abs_one, one_pow, one_mul, abs_prod]; rfl
  refine ⟨_, _, C125_pf_eq_sum_matchings A hA, C04_hf_eq_sum_matchings _ hs, ?_, ?_⟩
  · rw [e]
    exact abs_sum_le_sum_abs _ _
  · rw [e]
    exact abs_sum_eq_iff _ _

/-- The square, oriented `0→1→2→3` and `0→3`. -/
example : (!![0, 1, 0, 1; -1, 0, 1, 0; 0, -1, 0, 1; -1, 0, -1, 0] : Matrix (Fin 4) (Fin 4) ℝ)ᵀ =
    -!![0, 1, 0, 1; -1, 0, 1, 0; 0, -1, 0, 1; -1, 0, -1, 0] := by
  ext i j
  fin_cases i <;> fin_cases j <;> simp

/-- A square below a square with a diagonal. -/
example : SimpleGraph.fromEdgeSet {s(0, 1), s(1, 2), s(2, 3), s(3, 0)} ≤
    (SimpleGraph.fromEdgeSet {s(0, 1), s(1, 2), s(2, 3), s(3, 0), s(0, 2)} : SimpleGraph (Fin 4)) := by
  refine SimpleGraph.fromEdgeSet_mono ?_
  intro e he
  simp only [Set.mem_insert_iff, Set.mem_singleton_iff] at he ⊢
  tauto

/-- Arrays in order. -/
example : (∀ i j, 0 ≤ (!![1, 0; 2, 3] : Matrix (Fin 2) (Fin 2) ℝ) i j) ∧
    ∀ i j, (!![1, 0; 2, 3] : Matrix (Fin 2) (Fin 2) ℝ) i j ≤ (!![1, 1; 2, 4] : Matrix (Fin 2) (Fin 2) ℝ) i j := by
  constructor <;> intro i j <;> fin_cases i <;> fin_cases j <;> norm_num

end FF.Props
