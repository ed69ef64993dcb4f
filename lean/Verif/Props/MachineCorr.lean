import Verif.Proofs.MachineCorr
import Verif.Props.MachineOps

/-! # C146: rounding errors of the correlation and covariance matrices -/

namespace FF.Props

open Spec Matrix Finset
open scoped ComplexOrder

variable {n : ℕ}

/-- C146: for a positive semidefinite array of complex floats, every entry of `compute_2corr_matrix`, with any value of `conjugation`, is computed
up to an error of `((1 + 2⁻⁵³)^(2^n) - 1) Tr ρ` in both parts; for every number of sites and in whatever order the products and the trace are
summed up. -/
theorem C146_correlations {plan : ℕ → ℕ → Bool → MatmulPlan (2 ^ n)} (hp : ∀ i j b, IsPlan (plan i j b)) {t : SumTree (Fin (2 ^ n))}
    (ht : IsSumOrder t) {ρ : Op (2 ^ n)} (hρ : ∀ x y, IsFloat (ρ x y)) (h : ρ.PosSemidef) (c : Option ℤ) :
    ∃ G F : Op (n + n), compute2Corr ρ n (jordanWignerAlphas n) c = .ok G ∧ compute2CorrF plan t ρ n (jordanWignerAlphasF n) c = .ok F ∧
      ∀ i j, |(F i j).re - (G i j).re| ≤ ((1 + 2⁻¹ ^ 53) ^ 2 ^ n - 1) * ρ.trace.re ∧
        |(F i j).im - (G i j).im| ≤ ((1 + 2⁻¹ ^ 53) ^ 2 ^ n - 1) * ρ.trace.re := by
  rw [(jwAlphasF_eq n).2]
  refine ⟨_, _, compute2Corr_al ρ c, compute2CorrF_al hp t hρ c, fun i j => ?_⟩
  obtain ⟨h1, h2⟩ := traceF_near ht (ρ * al n (corrL c i) * al n (corrR c j))
  obtain ⟨m1, m2⟩ := corr_mass_parts h (corrL c i) (corrR c j)
  exact ⟨near_le h1 (one_le_pow_ulp _) m1, near_le h2 (one_le_pow_ulp _) m2⟩

/-- The maximally mixed state. -/
noncomputable def mixedF (n : ℕ) : Op (2 ^ n) := of fun x y => if x = y then ⟨2 ^ (-n : ℤ), 0⟩ else 0

theorem mixedF_float (n : ℕ) (x y : Fin (2 ^ n)) : IsFloat (mixedF n x y) := by
  rw [mixedF, of_apply]
  split_ifs
  · exact ⟨⟨1, -n, by norm_num, by simp⟩, 0, 0, by norm_num, by simp⟩
  · exact isFloat_zero

theorem mixedF_psd (n : ℕ) : (mixedF n).PosSemidef ∧ (mixedF n).trace = 1 := by
  have e : mixedF n = diagonal fun _ => ((2 ^ (-n : ℤ) : ℝ) : ℂ) := by
    ext x y
    rw [mixedF, of_apply, diagonal_apply]
    rfl
  rw [e]
  constructor
  · rw [posSemidef_diagonal_iff]
    intro i
    exact_mod_cast (by positivity : (0 : ℝ) ≤ 2 ^ (-n : ℤ))
  · rw [trace_diagonal]
    simp

example : ∃ G F : Op (3 + 3), compute2Corr (mixedF 3) 3 (jordanWignerAlphas 3) (some 1) = .ok G ∧
    compute2CorrF (fun _ _ _ => loopPlan _ true) (loopOrder (List.finRange _)) (mixedF 3) 3 (jordanWignerAlphasF 3) (some 1) = .ok F ∧
    ∀ i j, |(F i j).re - (G i j).re| ≤ ((1 + 2⁻¹ ^ 53) ^ 8 - 1) * 1 := by
  obtain ⟨G, F, h1, h2, h3⟩ := C146_correlations (fun _ _ _ => loopPlan_ok (2 ^ 3) true) (loopOrder_ok _) (mixedF_float 3) (mixedF_psd 3).1 (some 1)
  refine ⟨G, F, h1, h2, fun i j => ?_⟩
  have := (h3 i j).1
  rwa [(mixedF_psd 3).2, Complex.one_re] at this

/-- C146: for any array of complex floats, positive or not, the errors are at most `(1 + 2⁻⁵³)^(2^n) - 1` times the sum of the absolute values of
the real or imaginary parts of the entries. -/
theorem C146_correlations_any {plan : ℕ → ℕ → Bool → MatmulPlan (2 ^ n)} (hp : ∀ i j b, IsPlan (plan i j b)) {t : SumTree (Fin (2 ^ n))}
    (ht : IsSumOrder t) {ρ : Op (2 ^ n)} (hρ : ∀ x y, IsFloat (ρ x y)) (c : Option ℤ) :
    ∃ G F : Op (n + n), compute2Corr ρ n (jordanWignerAlphas n) c = .ok G ∧ compute2CorrF plan t ρ n (jordanWignerAlphasF n) c = .ok F ∧
      ∀ i j, |(F i j).re - (G i j).re| ≤ ((1 + 2⁻¹ ^ 53) ^ 2 ^ n - 1) * ∑ x, ∑ y, |(ρ x y).re| ∧
        |(F i j).im - (G i j).im| ≤ ((1 + 2⁻¹ ^ 53) ^ 2 ^ n - 1) * ∑ x, ∑ y, |(ρ x y).im| := by
  rw [(jwAlphasF_eq n).2]
  refine ⟨_, _, compute2Corr_al ρ c, compute2CorrF_al hp t hρ c, fun i j => ?_⟩
  obtain ⟨h1, h2⟩ := traceF_near ht (ρ * al n (corrL c i) * al n (corrR c j))
  obtain ⟨m1, m2⟩ := corr_mass_re (ρ := ρ) (corrL c i) (corrR c j)
  exact ⟨near_le h1 (one_le_pow_ulp _) m1, near_le h2 (one_le_pow_ulp _) m2⟩

/-- The entries need not be a state. -/
example : ∃ F : Op (2 + 2), compute2CorrF (fun _ _ _ => loopPlan _ false) (loopOrder (List.finRange _)) (tenths 2) 2 (jordanWignerAlphasF 2) none = .ok F := by
  obtain ⟨_, F, -, h, -⟩ := C146_correlations_any (n := 2) (fun _ _ _ => loopPlan_ok (2 ^ 2) false) (loopOrder_ok _) (ρ := tenths 2) (tenths_float 2) none
  exact ⟨F, h⟩

/-- C146: for a positive semidefinite array of complex floats the computed occupations, the diagonal of `compute_2corr_matrix` with a negative
`conjugation`, are real and not negative. -/
theorem C146_occupations {plan : ℕ → ℕ → Bool → MatmulPlan (2 ^ n)} (hp : ∀ i j b, IsPlan (plan i j b)) {t : SumTree (Fin (2 ^ n))}
    {ρ : Op (2 ^ n)} (hρ : ∀ x y, IsFloat (ρ x y)) (h : ρ.PosSemidef) {c : ℤ} (hc : c < 0) :
    ∃ F : Op (n + n), compute2CorrF plan t ρ n (jordanWignerAlphasF n) (some c) = .ok F ∧ ∀ i, (F i i).im = 0 ∧ 0 ≤ (F i i).re := by
  rw [(jwAlphasF_eq n).2]
  refine ⟨_, compute2CorrF_al hp t hρ (some c), fun i => ?_⟩
  have e1 : corrL (some c) i = fl i := by simp [corrL, hc]
  have e2 : corrR (some c) i = i := by simp [corrR, hc]
  rw [of_apply, e1, e2]
  have hd : ∀ x, 0 ≤ (ρ x x).re ∧ (ρ x x).im = 0 := fun x => by
    have := Complex.le_def.1 (h.diag_nonneg (i := x))
    exact ⟨this.1, this.2.symm⟩
  refine ⟨tree_zero _ _ fun x => ?_, SumTree.eval_nonneg _ _ fun x => ?_⟩
  · rcases numberOp_diag ρ i x with h0 | h0 <;> rw [h0]
    · rfl
    · exact (hd x).2
  · rcases numberOp_diag ρ i x with h0 | h0 <;> rw [h0]
    · exact le_rfl
    · exact (hd x).1

example : ∃ F : Op (3 + 3), compute2CorrF (fun _ _ _ => loopPlan _ true) (loopOrder (List.finRange _)) (mixedF 3) 3 (jordanWignerAlphasF 3) (some (-1)) = .ok F ∧
    ∀ i, (F i i).im = 0 ∧ 0 ≤ (F i i).re :=
  C146_occupations (fun _ _ _ => loopPlan_ok (2 ^ 3) true) (mixedF_float 3) (mixedF_psd 3).1 (by norm_num)

/-- C146: for a positive semidefinite array of complex floats every entry of `compute_cov_matrix` is computed up to an error of
`2 ((1 + 2⁻⁵³)^(2^n + 1) - 1) Tr ρ` in both parts. For any array of complex floats the computed matrix is exactly antisymmetric. -/
theorem C146_covariance {plan : ℕ → ℕ → Bool → MatmulPlan (2 ^ n)} (hp : ∀ i j b, IsPlan (plan i j b)) {t : SumTree (Fin (2 ^ n))}
    (ht : IsSumOrder t) {ρ : Op (2 ^ n)} (hρ : ∀ x y, IsFloat (ρ x y)) :
    ∃ G F : Op (n + n), computeCovMatrix ρ (some n) (jordanWignerAlphas n) = .ok ⟨n, G⟩ ∧
      computeCovMatrixF plan t ρ n (jordanWignerAlphasF n) = .ok F ∧ Fᵀ = -F ∧
      (ρ.PosSemidef → ∀ i j, |(F i j).re - (G i j).re| ≤ 2 * ((1 + 2⁻¹ ^ 53) ^ (2 ^ n + 1) - 1) * ρ.trace.re ∧
        |(F i j).im - (G i j).im| ≤ 2 * ((1 + 2⁻¹ ^ 53) ^ (2 ^ n + 1) - 1) * ρ.trace.re) := by
  rw [(jwAlphasF_eq n).2]
  refine ⟨_, _, computeCov_al ρ, computeCovF_al hp t hρ, ?_, fun h i j => ?_⟩
  · ext i j
    rw [transpose_apply, Matrix.neg_apply, of_apply, of_apply]
    generalize traceF t (ρ * al n i * al n j) = z
    generalize traceF t (ρ * al n j * al n i) = w
    apply Complex.ext
    · simp only [addC, Complex.neg_re]
      rw [← rnd_odd]; congr 1; ring
    · simp only [addC, Complex.neg_im]
      rw [← rnd_odd]; congr 1; ring
  · obtain ⟨h1, h2⟩ := traceF_near ht (ρ * al n i * al n j)
    obtain ⟨h3, h4⟩ := traceF_near ht (ρ * al n j * al n i)
    obtain ⟨m1, m2⟩ := corr_mass_parts h i j
    obtain ⟨m3, m4⟩ := corr_mass_parts h j i
    have k1 := near_le (h1.add h3.neg).rnd (by rw [← pow_succ']; exact one_le_pow_ulp _) (add_le_add m1 m3)
    have k2 := near_le (h2.add h4.neg).rnd (by rw [← pow_succ']; exact one_le_pow_ulp _) (add_le_add m2 m4)
    rw [← pow_succ', ← two_mul] at k1 k2
    rw [mul_comm (2 : ℝ), mul_assoc]
    exact ⟨k1, k2⟩

example : ∃ G F : Op (3 + 3), computeCovMatrix (mixedF 3) (some 3) (jordanWignerAlphas 3) = .ok ⟨3, G⟩ ∧
    computeCovMatrixF (fun _ _ _ => loopPlan _ true) (loopOrder (List.finRange _)) (mixedF 3) 3 (jordanWignerAlphasF 3) = .ok F ∧ Fᵀ = -F := by
  obtain ⟨G, F, h1, h2, h3, -⟩ := C146_covariance (fun _ _ _ => loopPlan_ok (2 ^ 3) true) (loopOrder_ok _) (mixedF_float 3)
  exact ⟨G, F, h1, h2, h3⟩

/-- C146: for a state of at most 21 sites the errors of the correlations are at most `10⁻⁹`. -/
theorem C146_small {plan : ℕ → ℕ → Bool → MatmulPlan (2 ^ n)} (hp : ∀ i j b, IsPlan (plan i j b)) {t : SumTree (Fin (2 ^ n))}
    (ht : IsSumOrder t) {ρ : Op (2 ^ n)} (hρ : ∀ x y, IsFloat (ρ x y)) (h : ρ.PosSemidef) (h1 : ρ.trace = 1) (hn : n ≤ 21) (c : Option ℤ) :
    ∃ G F : Op (n + n), compute2Corr ρ n (jordanWignerAlphas n) c = .ok G ∧ compute2CorrF plan t ρ n (jordanWignerAlphasF n) c = .ok F ∧
      ∀ i j, |(F i j).re - (G i j).re| ≤ 10⁻¹ ^ 9 ∧ |(F i j).im - (G i j).im| ≤ 10⁻¹ ^ 9 := by
  obtain ⟨G, F, hG, hF, h2⟩ := C146_correlations hp ht hρ h c
  have hk := pow_ulp_le (k := 2 ^ n) ((Nat.pow_le_pow_right (by norm_num) hn).trans (by norm_num))
  refine ⟨G, F, hG, hF, fun i j => ?_⟩
  have h3 := h2 i j
  rw [h1, Complex.one_re, mul_one] at h3
  exact ⟨h3.1.trans hk, h3.2.trans hk⟩

example : ∃ G F : Op (10 + 10), compute2Corr (mixedF 10) 10 (jordanWignerAlphas 10) none = .ok G ∧
    compute2CorrF (fun _ _ _ => loopPlan _ true) (loopOrder (List.finRange _)) (mixedF 10) 10 (jordanWignerAlphasF 10) none = .ok F ∧
    ∀ i j, |(F i j).re - (G i j).re| ≤ 10⁻¹ ^ 9 ∧ |(F i j).im - (G i j).im| ≤ 10⁻¹ ^ 9 :=
  C146_small (fun _ _ _ => loopPlan_ok _ true) (loopOrder_ok _) (mixedF_float 10) (mixedF_psd 10).1 (mixedF_psd 10).2 (by norm_num) none

/-- C146: if the parts of the entries are integers with absolute values that add up to at most `2⁵³`, as for every basis state, the correlations
are computed without rounding errors. -/
theorem C146_integers {plan : ℕ → ℕ → Bool → MatmulPlan (2 ^ n)} (hp : ∀ i j b, IsPlan (plan i j b)) {t : SumTree (Fin (2 ^ n))}
    (ht : IsSumOrder t) (a b : Matrix (Fin (2 ^ n)) (Fin (2 ^ n)) ℤ) (ha : ∑ x, ∑ y, |a x y| ≤ 2 ^ 53) (hb : ∑ x, ∑ y, |b x y| ≤ 2 ^ 53)
    (c : Option ℤ) :
    compute2CorrF plan t (of fun x y => ⟨a x y, b x y⟩) n (jordanWignerAlphasF n) c =
      compute2Corr (of fun x y => ⟨a x y, b x y⟩) n (jordanWignerAlphas n) c := by
  have hg : ∀ x y, GInt ((of fun x y => ⟨a x y, b x y⟩ : Op (2 ^ n)) x y) := fun x y => ⟨⟨a x y, rfl⟩, b x y, rfl⟩
  have le : ∀ {c : Matrix (Fin (2 ^ n)) (Fin (2 ^ n)) ℤ}, ∑ x, ∑ y, |c x y| ≤ 2 ^ 53 → ∑ x, ∑ y, |(c x y : ℝ)| ≤ 2 ^ 53 := fun h => by exact_mod_cast h
  have le1 : ∀ {c : Matrix (Fin (2 ^ n)) (Fin (2 ^ n)) ℤ}, ∑ x, ∑ y, |c x y| ≤ 2 ^ 53 → ∀ x y, |(c x y : ℝ)| ≤ 2 ^ 53 := fun {c} h x y =>
    ((single_le_sum (f := fun y => |(c x y : ℝ)|) (fun _ _ => abs_nonneg _) (mem_univ y)).trans
      (single_le_sum (f := fun x => ∑ y, |(c x y : ℝ)|) (fun _ _ => sum_nonneg fun _ _ => abs_nonneg _) (mem_univ x))).trans (le h)
  rw [(jwAlphasF_eq n).2, compute2CorrF_al hp t (fun x y => gint_float (hg x y) (le1 ha x y) (le1 hb x y)) c, compute2Corr_al]
  congr 1
  ext i j
  obtain ⟨m1, m2⟩ := corr_mass_re (ρ := of fun x y => ⟨a x y, b x y⟩) (corrL c i) (corrR c j)
  exact traceF_int ht (fun x => gint_mul (fun x y => gint_mul hg (tern_al _) x y) (tern_al _) x x) (m1.trans (le ha)) (m2.trans (le hb))

/-- A basis state of three sites. -/
example : compute2CorrF (fun _ _ _ => loopPlan _ true) (loopOrder (List.finRange _)) (of fun x y => ⟨(if x = 5 ∧ y = 5 then 1 else 0 : ℤ), (0 : ℤ)⟩) 3
    (jordanWignerAlphasF 3) (some (-1)) = compute2Corr (of fun x y => ⟨(if x = 5 ∧ y = 5 then 1 else 0 : ℤ), (0 : ℤ)⟩) 3 (jordanWignerAlphas 3) (some (-1)) :=
  C146_integers (fun _ _ _ => loopPlan_ok _ true) (loopOrder_ok _) (fun x y => if x = 5 ∧ y = 5 then 1 else 0) (fun _ _ => 0)
    (by decide) (by decide) (some (-1))

end FF.Props
