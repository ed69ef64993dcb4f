import Verif.Proofs.TightBinding
import Verif.Proofs.Eigen3
import Verif.Proofs.ManyBody
import Verif.Proofs.Coefficients3
import Mathlib.Data.Fin.Tuple.Sort
import Mathlib.LinearAlgebra.Matrix.ToLin
import Mathlib.LinearAlgebra.FiniteDimensional.Lemmas
import Mathlib.Algebra.Order.Chebyshev

/-! # Lemmas for C147: eigenvalues of nearby Hermitian arrays -/

namespace FF

open Matrix Finset

variable {N n : ℕ}

/-- The quadratic form of a diagonalised array. -/
theorem form_diag {H U : Op N} {d : Fin N → ℝ} (hU : U * Uᴴ = 1) (hL : Uᴴ * H * U = diagonal fun i => ((d i : ℝ) : ℂ)) (x : Fin N → ℂ) :
    (star x ⬝ᵥ H *ᵥ x).re = ∑ i, d i * ‖(Uᴴ *ᵥ x) i‖ ^ 2 := by
  have hH : H = U * (diagonal fun i => ((d i : ℝ) : ℂ)) * Uᴴ := by
    rw [← hL, mul_assoc, mul_assoc (Uᴴ * H), hU, mul_one, ← mul_assoc, hU, one_mul]
  have e : star x ⬝ᵥ H *ᵥ x = star (Uᴴ *ᵥ x) ⬝ᵥ (diagonal fun i => ((d i : ℝ) : ℂ)) *ᵥ (Uᴴ *ᵥ x) := by
    rw [hH, star_mulVec, conjTranspose_conjTranspose, ← mulVec_mulVec, ← mulVec_mulVec, dotProduct_mulVec]
  rw [e, dotProduct, Complex.re_sum]
  refine sum_congr rfl fun i _ => ?_
  rw [mulVec_diagonal, Pi.star_apply, Complex.star_def, mul_left_comm, ← Complex.normSq_eq_conj_mul_self, ← Complex.ofReal_mul, Complex.ofReal_re,
    Complex.normSq_eq_norm_sq]

theorem norm_rotate {U : Op N} (hU : U * Uᴴ = 1) (x : Fin N → ℂ) : ∑ i, ‖(Uᴴ *ᵥ x) i‖ ^ 2 = ∑ i, ‖x i‖ ^ 2 := by
  have h1 := form_diag (H := 1) (d := fun _ => 1) hU (by rw [mul_one, mul_eq_one_comm.1 hU]; ext i j; simp [diagonal_apply, one_apply]) x
  have h2 := form_diag (N := N) (H := 1) (U := 1) (d := fun _ => 1) (by simp) (by ext i j; simp [diagonal_apply, one_apply]) x
  simp only [one_mul] at h1 h2
  rw [← h1, h2]
  simp

/-- If one form exceeds the other by at most `ε`, the number of eigenvalues above `c + ε` of the first is at most the number of eigenvalues
above `c` of the second. -/
theorem count_le {H H' U U' : Op N} {d d' : Fin N → ℝ} (hU : U * Uᴴ = 1) (hU' : U' * U'ᴴ = 1) (hL : Uᴴ * H * U = diagonal fun i => ((d i : ℝ) : ℂ))
    (hL' : U'ᴴ * H' * U' = diagonal fun i => ((d' i : ℝ) : ℂ)) {ε : ℝ}
    (h : ∀ x : Fin N → ℂ, (star x ⬝ᵥ H *ᵥ x).re ≤ (star x ⬝ᵥ H' *ᵥ x).re + ε * ∑ i, ‖x i‖ ^ 2) (c : ℝ) :
    #{i | c + ε < d i} ≤ #{i | c < d' i} := by
  classical
  by_contra hlt
  push Not at hlt
  set M : Matrix ({i : Fin N // ¬ c + ε < d i} ⊕ {i : Fin N // c < d' i}) (Fin N) ℂ :=
    of fun k j => Sum.elim (fun i => Uᴴ i.1 j) (fun i => U'ᴴ i.1 j) k with hM
  have hdim : Module.finrank ℂ ({i : Fin N // ¬ c + ε < d i} ⊕ {i : Fin N // c < d' i} → ℂ) < Module.finrank ℂ (Fin N → ℂ) := by
    rw [Module.finrank_fintype_fun_eq_card, Module.finrank_fintype_fun_eq_card, Fintype.card_sum, Fintype.card_subtype, Fintype.card_subtype, Fintype.card_fin]
    have := card_filter_add_card_filter_not (s := (univ : Finset (Fin N))) (fun i => c + ε < d i)
    rw [card_univ, Fintype.card_fin] at this
    omega
  have hker := LinearMap.ker_ne_bot_of_finrank_lt (f := M.mulVecLin) hdim
  obtain ⟨x, hx, hx0⟩ := Submodule.exists_mem_ne_zero_of_ne_bot hker
  rw [LinearMap.mem_ker, mulVecLin_apply] at hx
  have h1 : ∀ i, ¬ c + ε < d i → (Uᴴ *ᵥ x) i = 0 := fun i hi => congrFun hx (.inl ⟨i, hi⟩)
  have h2 : ∀ i, c < d' i → (U'ᴴ *ᵥ x) i = 0 := fun i hi => congrFun hx (.inr ⟨i, hi⟩)
  have hpos : 0 < ∑ i, ‖x i‖ ^ 2 := by
    obtain ⟨i, hi⟩ := Function.ne_iff.1 hx0
    exact sum_pos' (fun i _ => sq_nonneg _) ⟨i, mem_univ i, by have := norm_pos_iff.2 hi; positivity⟩
  have h3 : (c + ε) * ∑ i, ‖x i‖ ^ 2 < (star x ⬝ᵥ H *ᵥ x).re := by
    rw [form_diag hU hL, ← norm_rotate hU x, mul_sum]
    rw [← norm_rotate hU x] at hpos
    obtain ⟨i, -, hi⟩ := exists_ne_zero_of_sum_ne_zero hpos.ne'
    refine sum_lt_sum (fun i _ => ?_) ⟨i, mem_univ i, ?_⟩
    · by_cases hi : c + ε < d i
      · exact mul_le_mul_of_nonneg_right hi.le (sq_nonneg _)
      · rw [h1 i hi]; simp
    · have hd : c + ε < d i := by
        by_contra hd
        rw [h1 i hd] at hi
        simp at hi
      exact mul_lt_mul_of_pos_right hd (lt_of_le_of_ne (sq_nonneg _) (Ne.symm hi))
  have h4 : (star x ⬝ᵥ H' *ᵥ x).re ≤ c * ∑ i, ‖x i‖ ^ 2 := by
    rw [form_diag hU' hL', ← norm_rotate hU' x, mul_sum]
    refine sum_le_sum fun i _ => ?_
    by_cases hi : c < d' i
    · rw [h2 i hi]; simp
    · exact mul_le_mul_of_nonneg_right (not_lt.1 hi) (sq_nonneg _)
  have := h x
  linarith

/-! ## matchings -/

theorem mono_le_of_count {a b : Fin N → ℝ} (ha : Monotone a) (hb : Monotone b) {ε : ℝ} (h : ∀ c, #{i | c + ε < a i} ≤ #{i | c < b i}) (k : Fin N) :
    a k ≤ b k + ε := by
  by_contra hk
  push Not at hk
  have h1 := h (b k)
  have h2 : (Ici k) ⊆ ({i | b k + ε < a i} : Finset (Fin N)) := fun i hi => by
    rw [mem_filter]
    exact ⟨mem_univ i, hk.trans_le (ha (mem_Ici.1 hi))⟩
  have h3 : ({i | b k < b i} : Finset (Fin N)) ⊆ Ioi k := fun i hi => by
    rw [mem_filter] at hi
    rw [mem_Ioi]
    by_contra hle
    exact absurd (hb (not_lt.1 hle)) (not_le.2 hi.2)
  have h4 := (card_le_card h2).trans (h1.trans (card_le_card h3))
  rw [Fin.card_Ici, Fin.card_Ioi] at h4
  have := k.2
  omega

theorem count_comp (a : Fin N → ℝ) (σ : Equiv.Perm (Fin N)) (c : ℝ) : #{i | c < (a ∘ σ) i} = #{i | c < a i} := by
  refine card_bij' (fun i _ => σ i) (fun i _ => σ.symm i) ?_ ?_ ?_ ?_ <;> simp

/-- Lists of numbers with the right counts can be matched. -/
theorem match_of_count {a b : Fin N → ℝ} {ε : ℝ} (h : ∀ c, #{i | c + ε < a i} ≤ #{i | c < b i}) (h' : ∀ c, #{i | c + ε < b i} ≤ #{i | c < a i}) :
    ∃ π : Equiv.Perm (Fin N), ∀ k, |a k - b (π k)| ≤ ε := by
  set σ := Tuple.sort a
  set τ := Tuple.sort b
  have h1 := mono_le_of_count (Tuple.monotone_sort a) (Tuple.monotone_sort b) (ε := ε) fun c => by rw [count_comp, count_comp]; exact h c
  have h2 := mono_le_of_count (Tuple.monotone_sort b) (Tuple.monotone_sort a) (ε := ε) fun c => by rw [count_comp, count_comp]; exact h' c
  refine ⟨σ.symm.trans τ, fun k => ?_⟩
  have h3 := h1 (σ.symm k)
  have h4 := h2 (σ.symm k)
  simp only [Function.comp_apply] at h3 h4
  rw [show Tuple.sort a (σ.symm k) = k from σ.apply_symm_apply k] at h3 h4
  rw [Equiv.trans_apply, abs_le]
  constructor
  · have : b (τ (σ.symm k)) ≤ a k + ε := h4
    linarith
  · have : a k ≤ b (τ (σ.symm k)) + ε := h3
    linarith

theorem count_map {ι κ : Type} [Fintype ι] [Fintype κ] {f : κ → ℝ} {g : ι → ℝ} (e : univ.val.map f = univ.val.map g) (c : ℝ) :
    #{i | c < f i} = #{i | c < g i} := by
  classical
  have := congrArg (Multiset.countP fun x => c < x) e
  rw [Multiset.countP_map, Multiset.countP_map] at this
  exact this

/-- Conversely, sorted lists that can be matched are close. -/
theorem sorted_of_match {ι : Type} [Fintype ι] {a b : Fin N → ℝ} (ha : Monotone a) (hb : Monotone b) (u v : ι → ℝ) (hu : univ.val.map a = univ.val.map u)
    (hv : univ.val.map b = univ.val.map v) {ε : ℝ} (h : ∀ i, |u i - v i| ≤ ε) (k : Fin N) : |a k - b k| ≤ ε := by
  classical
  have le : ∀ {u v : ι → ℝ}, (∀ i, |u i - v i| ≤ ε) → ∀ c, #{i | c + ε < u i} ≤ #{i | c < v i} := fun {u v} h c =>
    card_le_card fun i hi => by
      rw [mem_filter] at hi ⊢
      have := (abs_le.1 (h i)).2
      exact ⟨mem_univ i, by linarith [hi.2]⟩
  have h1 := mono_le_of_count ha hb (ε := ε) (fun c => by rw [count_map hu, count_map hv]; exact le h c) k
  have h2 := mono_le_of_count hb ha (ε := ε) (fun c => by rw [count_map hu, count_map hv]; exact le (fun i => by rw [abs_sub_comm]; exact h i) c) k
  rw [abs_le]
  constructor <;> linarith

/-! ## modes -/

theorem count_modes (s : Fin n → ℝ) {c : ℝ} (hc : 0 ≤ c) : #{i | c < Fin.append (fun i => -s i) s i} = #{k | c < |s k|} := by
  classical
  rw [card_filter, card_filter, Fin.sum_univ_add, ← sum_add_distrib]
  refine sum_congr rfl fun k _ => ?_
  rw [Fin.append_left, Fin.append_right]
  rcases le_total 0 (s k) with h | h
  · rw [abs_of_nonneg h, if_neg (by linarith), zero_add]
  · rw [abs_of_nonpos h, if_neg (show ¬ c < s k by linarith), add_zero]

theorem standardForm_diag (s : Fin n → ℝ) : Spec.standardForm s = diagonal fun i => ((Fin.append (fun i => -s i) s i : ℝ) : ℂ) := by
  rw [Spec.standardForm]
  congr 1
  funext i
  induction i using Fin.addCases with
  | left i => rw [Fin.append_left, Fin.append_left]
  | right i => rw [Fin.append_right, Fin.append_right]

/-- The moduli of the energies of nearby arrays can be matched. -/
theorem modes_near {H H' U U' : Op (n + n)} {s s' : Fin n → ℝ} (hU : U * Uᴴ = 1) (hU' : U' * U'ᴴ = 1) (hL : Uᴴ * H * U = Spec.standardForm s)
    (hL' : U'ᴴ * H' * U' = Spec.standardForm s') {ε : ℝ} (hε : 0 ≤ ε)
    (h : ∀ x : Fin (n + n) → ℂ, |(star x ⬝ᵥ (H - H') *ᵥ x).re| ≤ ε * ∑ i, ‖x i‖ ^ 2) :
    ∃ π : Equiv.Perm (Fin n), ∀ k, abs (|s k| - |s' (π k)|) ≤ ε := by
  rw [standardForm_diag] at hL hL'
  have key : ∀ x : Fin (n + n) → ℂ, (star x ⬝ᵥ (H - H') *ᵥ x).re = (star x ⬝ᵥ H *ᵥ x).re - (star x ⬝ᵥ H' *ᵥ x).re := fun x => by
    rw [sub_mulVec, dotProduct_sub, Complex.sub_re]
  have c1 := count_le hU hU' hL hL' (ε := ε) fun x => by have := (abs_le.1 (h x)).2; rw [key] at this; linarith
  have c2 := count_le hU' hU hL' hL (ε := ε) fun x => by have := (abs_le.1 (h x)).1; rw [key] at this; linarith
  have red : ∀ {s s' : Fin n → ℝ}, (∀ c, #{i | c + ε < Fin.append (fun i => -s i) s i} ≤ #{i | c < Fin.append (fun i => -s' i) s' i}) →
      ∀ c, #{k | c + ε < |s k|} ≤ #{k | c < |s' k|} := fun {s s'} hc c => by
    rcases le_or_gt 0 c with h0 | h0
    · rw [← count_modes s (by linarith), ← count_modes s' h0]
      exact hc c
    · refine (card_le_univ _).trans (le_of_eq ?_)
      rw [← card_univ]
      congr 1
      ext k
      simp only [mem_univ, mem_filter, true_and, true_iff]
      exact h0.trans_le (abs_nonneg _)
  exact match_of_count (red c1) (red c2)

theorem form_le {E : Op N} {δ : ℝ} (hE : ∀ i j, ‖E i j‖ ≤ δ) (x : Fin N → ℂ) : |(star x ⬝ᵥ E *ᵥ x).re| ≤ N * δ * ∑ i, ‖x i‖ ^ 2 := by
  rcases isEmpty_or_nonempty (Fin N) with hN | ⟨⟨i0⟩⟩
  · simp [dotProduct]
  have hδ : 0 ≤ δ := (norm_nonneg _).trans (hE i0 i0)
  have h1 : |(star x ⬝ᵥ E *ᵥ x).re| ≤ ∑ i, ∑ j, ‖x i‖ * (δ * ‖x j‖) := by
    refine (Complex.abs_re_le_norm _).trans ((norm_sum_le _ _).trans (sum_le_sum fun i _ => ?_))
    rw [norm_mul, Pi.star_apply, norm_star, ← mul_sum, mulVec, dotProduct]
    refine mul_le_mul_of_nonneg_left ((norm_sum_le _ _).trans (sum_le_sum fun j _ => ?_)) (norm_nonneg _)
    rw [norm_mul]
    exact mul_le_mul_of_nonneg_right (hE i j) (norm_nonneg _)
  have h2 : ∑ i, ∑ j, ‖x i‖ * (δ * ‖x j‖) = δ * (∑ i, ‖x i‖) ^ 2 := by
    rw [sq, sum_mul_sum, mul_sum]
    refine sum_congr rfl fun i _ => ?_
    rw [mul_sum]
    exact sum_congr rfl fun j _ => by ring
  have h3 : (∑ i, ‖x i‖) ^ 2 ≤ N * ∑ i, ‖x i‖ ^ 2 := by
    have := sq_sum_le_card_mul_sum_sq (s := (univ : Finset (Fin N))) (f := fun i => ‖x i‖)
    rwa [card_univ, Fintype.card_fin] at this
  rw [h2] at h1
  refine h1.trans ((mul_le_mul_of_nonneg_left h3 hδ).trans (le_of_eq (by ring)))

theorem buildH_near {A B A' B' : Op n} {δ : ℝ} (hA : ∀ i j, ‖A i j - A' i j‖ ≤ δ) (hB : ∀ i j, ‖B i j - B' i j‖ ≤ δ) (x y : Fin (n + n)) :
    ‖(buildH n A (some B) - buildH n A' (some B')) x y‖ ≤ δ := by
  have hc : ∀ z w : ℂ, ‖star z - star w‖ = ‖z - w‖ := fun z w => by rw [← star_sub, norm_star]
  rw [Matrix.sub_apply, buildH, buildH]
  induction x using Fin.addCases with
  | left i =>
    induction y using Fin.addCases with
    | left j =>
      rw [blk_11, blk_11, Matrix.neg_apply, Matrix.neg_apply, neg_sub_neg, norm_sub_rev]
      exact (hc _ _).trans_le (hA i j)
    | right j => rw [blk_12, blk_12]; exact hB i j
  | right i =>
    induction y using Fin.addCases with
    | left j =>
      rw [blk_21, blk_21, Matrix.neg_apply, Matrix.neg_apply, neg_sub_neg, norm_sub_rev]
      exact (hc _ _).trans_le (hB i j)
    | right j => rw [blk_22, blk_22]; exact hA i j

theorem prod_roots_any {ι κ : Type} [Fintype ι] [Fintype κ] {a : ι → ℝ} {b : κ → ℝ}
    (h : ∏ i, (Polynomial.X - Polynomial.C ((a i : ℝ) : ℂ)) = ∏ i, (Polynomial.X - Polynomial.C ((b i : ℝ) : ℂ))) :
    univ.val.map a = univ.val.map b := by
  have e : ∀ {ι : Type} [Fintype ι] (a : ι → ℝ), (∏ i, (Polynomial.X - Polynomial.C ((a i : ℝ) : ℂ))).roots = univ.val.map fun i => ((a i : ℝ) : ℂ) :=
    fun {ι} _ a => by
      have := Polynomial.roots_multiset_prod_X_sub_C (univ.val.map fun i => ((a i : ℝ) : ℂ))
      rw [Multiset.map_map] at this
      exact this
  have h1 := congrArg Polynomial.roots h
  rw [e, e] at h1
  have h2 := congrArg (Multiset.map Complex.re) h1
  rw [Multiset.map_map, Multiset.map_map] at h2
  exact h2

/-- The quadratic form of a rotated array. -/
theorem form_rotate_le {E U : Op N} {δ : ℝ} (hU : U * Uᴴ = 1) (hE : ∀ i j, ‖E i j‖ ≤ δ) (x : Fin N → ℂ) :
    |(star x ⬝ᵥ (U * E * Uᴴ) *ᵥ x).re| ≤ N * δ * ∑ i, ‖x i‖ ^ 2 := by
  have e : star x ⬝ᵥ (U * E * Uᴴ) *ᵥ x = star (Uᴴ *ᵥ x) ⬝ᵥ E *ᵥ (Uᴴ *ᵥ x) := by
    rw [star_mulVec, conjTranspose_conjTranspose, ← mulVec_mulVec, ← mulVec_mulVec, dotProduct_mulVec]
  rw [e, ← norm_rotate hU x]
  exact form_le hE _

theorem eigvalsh_le {A A' : Op N} (hA : A.IsHermitian) (hA' : A'.IsHermitian) {ε : ℝ}
    (h : ∀ x : Fin N → ℂ, (star x ⬝ᵥ A *ᵥ x).re ≤ (star x ⬝ᵥ A' *ᵥ x).re + ε * ∑ i, ‖x i‖ ^ 2) (k : Fin N) : eigvalsh A k ≤ eigvalsh A' k + ε := by
  have un : ∀ {A : Op N} (hA : A.IsHermitian), (hA.eigenvectorUnitary : Op N) * (hA.eigenvectorUnitary : Op N)ᴴ = 1 :=
    fun hA => mem_unitaryGroup_iff.1 hA.eigenvectorUnitary.2
  have dg : ∀ {A : Op N} (hA : A.IsHermitian), (hA.eigenvectorUnitary : Op N)ᴴ * A * (hA.eigenvectorUnitary : Op N) =
      diagonal fun i => ((hA.eigenvalues i : ℝ) : ℂ) := fun {A} hA => by
    have h1 := hA.spectral_theorem
    have h2 := mul_eq_one_comm.1 (un hA)
    rw [Unitary.conjStarAlgAut_apply] at h1
    refine (congrArg (fun M : Op N => (hA.eigenvectorUnitary : Op N)ᴴ * M * (hA.eigenvectorUnitary : Op N)) h1).trans ?_
    rw [star_eq_conjTranspose, ← mul_assoc, ← mul_assoc, h2, one_mul, mul_assoc, h2, mul_one]
    rfl
  have mp : ∀ {A : Op N} (hA : A.IsHermitian), univ.val.map (eigvalsh A) = univ.val.map hA.eigenvalues := fun hA =>
    prod_roots_any ((eigvalsh_charpoly hA).symm.trans hA.charpoly_eq)
  refine mono_le_of_count (eigvalsh_mono A) (eigvalsh_mono A') (fun c => ?_) k
  rw [count_map (mp hA), count_map (mp hA')]
  exact count_le (un hA) (un hA') (dg hA) (dg hA') h c

theorem dropSmall_near {m k : ℕ} {M M' : Matrix (Fin m) (Fin k) ℂ} {δ : ℝ} (h : ∀ i j, ‖M i j - M' i j‖ ≤ δ) (i : Fin m) (j : Fin k) :
    ‖Spec.dropSmall 1e-10 M i j - Spec.dropSmall 1e-10 M' i j‖ ≤ δ + 2e-10 := by
  have e : ∀ M : Matrix (Fin m) (Fin k) ℂ, ‖Spec.dropSmall 1e-10 M i j - M i j‖ ≤ 1e-10 := fun M => by
    simp only [Spec.dropSmall, of_apply]
    split_ifs with h
    · rw [zero_sub, norm_neg]; exact h.le
    · rw [sub_self, norm_zero]; norm_num
  have h1 : Spec.dropSmall 1e-10 M i j - Spec.dropSmall 1e-10 M' i j =
      (Spec.dropSmall 1e-10 M i j - M i j) + (M i j - M' i j) - (Spec.dropSmall 1e-10 M' i j - M' i j) := by ring
  rw [h1]
  have h2 := norm_sub_le ((Spec.dropSmall 1e-10 M i j - M i j) + (M i j - M' i j)) (Spec.dropSmall 1e-10 M' i j - M' i j)
  have h3 := norm_add_le (Spec.dropSmall 1e-10 M i j - M i j) (M i j - M' i j)
  have h4 := e M
  have h5 := e M'
  have h6 := h i j
  rw [show (2e-10 : ℝ) = 1e-10 + 1e-10 by norm_num]
  linarith

theorem energies_near {s s' : Fin n → ℝ} {ε : ℝ} (h : ∀ k, |s k - s' k| ≤ ε) (c : Fin n → Bool) :
    |(∑ k, if c k then s k else -s k) - ∑ k, if c k then s' k else -s' k| ≤ n * ε := by
  rw [← sum_sub_distrib]
  refine (abs_sum_le_sum_abs _ _).trans ((sum_le_sum fun k _ => (?_ : _ ≤ ε)).trans (by simp))
  split_ifs
  · exact h k
  · rw [neg_sub_neg, abs_sub_comm]; exact h k

/-- The many-body spectrum written with the moduli of the energies. -/
theorem many_charpoly {H U : Op (n + n)} {s t : Fin n → ℝ} (hc : IsCanonicalU U) (hU : U * Uᴴ = 1) (hL : Uᴴ * H * U = Spec.standardForm s)
    (π : Equiv.Perm (Fin n)) (ht : ∀ k, |s k| = |t (π k)|) :
    (Spec.quad H (al n)).charpoly = ∏ c : Fin n → Bool, (Polynomial.X - Polynomial.C ((∑ k, if c k then t k else -t k : ℝ) : ℂ)) := by
  obtain ⟨V, e, hV, -, hQ⟩ := quad_spectrum hc hU hL
  rw [hQ, ← prod_modes (fun x : ℝ => Polynomial.X - Polynomial.C (x : ℂ)) π ht]
  have := charpoly_conj (U := Vᴴ) (H := diagonal (fun x => ((∑ k, if e.symm x k then s k else -s k : ℝ) : ℂ)))
    (by rw [conjTranspose_conjTranspose]; exact mul_eq_one_comm.1 hV)
  rw [conjTranspose_conjTranspose] at this
  rw [this, charpoly_diagonal]
  exact Equiv.prod_comp e.symm fun c : Fin n → Bool => (Polynomial.X - Polynomial.C ((∑ k, if c k then s k else -s k : ℝ) : ℂ))

end FF
