import Verif.Model.MachineCorr
import Verif.Proofs.MachineBuild
import Mathlib.Analysis.Matrix.Order

/-! # Lemmas for C146 -/

namespace FF

open Matrix Finset
open scoped ComplexOrder MatrixOrder

variable {n : ℕ}

/-- A sum with at most one non-zero term. -/
theorem tree_sparse {ι : Type} [DecidableEq ι] (t : SumTree ι) (v : ι → ℝ) (k : ι) (hv : ∀ j, j ≠ k → v j = 0) (hk : rnd (v k) = v k) (hn : t.leaves.Nodup) :
    t.eval v = if k ∈ t.leaves then v k else 0 := by
  induction t with
  | zero => simp [SumTree.eval, SumTree.leaves]
  | leaf i =>
    by_cases h : i = k
    · subst h; simp [SumTree.eval, SumTree.leaves]
    · simp [SumTree.eval, SumTree.leaves, hv i h, Ne.symm h]
  | node l r ihl ihr =>
    rw [SumTree.leaves, List.nodup_append] at hn
    rw [SumTree.eval, ihl hn.1, ihr hn.2.1]
    simp only [SumTree.leaves, List.mem_append]
    by_cases h1 : k ∈ l.leaves
    · have h2 : k ∉ r.leaves := fun h => hn.2.2 k h1 k h rfl
      simp [h1, h2, hk]
    · by_cases h2 : k ∈ r.leaves
      · simp [h1, h2, hk]
      · simp [h1, h2, rnd_zero]

theorem rnd_tern {a : ℝ} (ha : rnd a = a) {w : ℂ} (hw : Tern w) : rnd (a * w.re) = a * w.re ∧ w.im = 0 := by
  rcases hw with rfl | rfl | rfl <;> simp [rnd_zero, ha, rnd_odd]

/-- Multiplication by an operator with at most one non-zero entry per column, which is 1 or -1, is exact. -/
theorem matmulF_sparse {d : ℕ} {p : MatmulPlan d} (hp : Spec.IsPlan p) {A B : Op d} (hA : ∀ x y, Spec.IsFloat (A x y)) (hB : ∀ x y, Tern (B x y))
    (h1 : ∀ y, ∃ z, ∀ x, x ≠ z → B x y = 0) : matmulF p A B = A * B ∧ ∀ x y, Spec.IsFloat ((A * B) x y) := by
  classical
  have e : ∀ x y z, (∀ w, w ≠ z → B w y = 0) → (A * B) x y = A x z * B z y := fun x y z h => by
    rw [mul_apply, sum_eq_single z]
    · intro w _ hw; rw [h w hw, mul_zero]
    · intro h; exact absurd (mem_univ z) h
  constructor
  · ext x y
    obtain ⟨z, hz⟩ := h1 y
    obtain ⟨hr, hi0⟩ := rnd_tern (rnd_float (hA x z).1) (hB z y)
    obtain ⟨hi, -⟩ := rnd_tern (rnd_float (hA x z).2) (hB z y)
    have key : ∀ (t : SumTree (Fin d × Bool)) (f : Fin d × Bool → Bool) (u : Fin d × Bool → ℝ) (b : Bool),
        (t.leaves.Nodup ∧ ∀ k, k ∈ t.leaves) → (∀ k, k ≠ (z, b) → u k = 0) → rnd (u (z, b)) = u (z, b) →
        (t.eval fun k => if f k then u k else rnd (u k)) = u (z, b) := by
      intro t f u b ht h0 h2
      rw [tree_sparse t _ (z, b) (fun k hk => by rw [h0 k hk, rnd_zero, ite_self]) (by split_ifs <;> simp only [h2]) ht.1, if_pos (ht.2 _)]
      split_ifs
      · rfl
      · exact h2
    rw [e x y z hz, matmulF, of_apply]
    apply Complex.ext
    · refine (key _ _ _ false (hp x y false) ?_ ?_).trans ?_
      · rintro ⟨k, b⟩ hk
        by_cases hkz : k = z
        · subst hkz
          cases b
          · exact absurd rfl hk
          · simp [hi0]
        · simp [hz k hkz]
      · simpa using hr
      · simp [hi0]
    · refine (key _ _ _ true (hp x y true) ?_ ?_).trans ?_
      · rintro ⟨k, b⟩ hk
        by_cases hkz : k = z
        · subst hkz
          cases b
          · simp [hi0]
          · exact absurd rfl hk
        · simp [hz k hkz]
      · simpa using hi
      · simp [hi0]
  · intro x y
    obtain ⟨z, hz⟩ := h1 y
    rw [e x y z hz]
    exact (mulC_tern (hA x z) (hB z y)).2

theorem al_column (a : Fin (n + n)) (y : Fin (2 ^ n)) : ∃ z, ∀ x, x ≠ z → al n a x y = 0 := by
  by_cases h : ∃ z, al n a z y ≠ 0
  · obtain ⟨z, hz⟩ := h
    refine ⟨z, fun x hx => ?_⟩
    by_contra h0
    obtain ⟨a1, a2, -⟩ := al_support hz
    obtain ⟨b1, b2, -⟩ := al_support h0
    apply hx
    apply Fin.ext
    apply digit_inj x.2 z.2
    funext k
    by_cases hk : k = alSite a
    · rw [hk, a2, b2]
    · rw [a1 k hk, b1 k hk]
  · push Not at h
    exact ⟨y, fun x _ => h x⟩

theorem matmulF_rho {p : MatmulPlan (2 ^ n)} (hp : Spec.IsPlan p) {A : Op (2 ^ n)} (hA : ∀ x y, Spec.IsFloat (A x y)) (a : Fin (n + n)) :
    matmulF p A (al n a) = A * al n a ∧ ∀ x y, Spec.IsFloat ((A * al n a) x y) :=
  matmulF_sparse hp hA (fun x y => tern_al a x y) (al_column a)

/-- The products in the correlation functions are exact. -/
theorem matmulF_corr {p q : MatmulPlan (2 ^ n)} (hp : Spec.IsPlan p) (hq : Spec.IsPlan q) {ρ : Op (2 ^ n)} (hρ : ∀ x y, Spec.IsFloat (ρ x y))
    (a b : Fin (n + n)) : matmulF q (matmulF p ρ (al n a)) (al n b) = ρ * al n a * al n b := by
  obtain ⟨h1, h2⟩ := matmulF_rho hp hρ a
  rw [h1, (matmulF_rho hq h2 b).1]

theorem traceF_near {d : ℕ} {t : SumTree (Fin d)} (ht : Spec.IsSumOrder t) (A : Op d) :
    Near ((1 + ulp) ^ d) A.trace.re (∑ x, |(A x x).re|) (traceF t A).re ∧ Near ((1 + ulp) ^ d) A.trace.im (∑ x, |(A x x).im|) (traceF t A).im := by
  have h1 := sumOrder_near ht (fun x => (A x x).re) (fun x => |(A x x).re|) (fun x => (A x x).re) le_rfl fun x => near_one _
  have h2 := sumOrder_near ht (fun x => (A x x).im) (fun x => |(A x x).im|) (fun x => (A x x).im) le_rfl fun x => near_one _
  rw [mul_one] at h1 h2
  rw [trace, Complex.re_sum, Complex.im_sum]
  exact ⟨h1, h2⟩

/-! ## states -/

theorem psd_offdiag {d : ℕ} {ρ : Op d} (h : ρ.PosSemidef) (x y : Fin d) : ‖ρ x y‖ ≤ ((ρ x x).re + (ρ y y).re) / 2 := by
  obtain ⟨B, rfl⟩ := CStarAlgebra.nonneg_iff_eq_star_mul_self.mp h.nonneg
  rw [star_eq_conjTranspose]
  have hd : ∀ z, ((Bᴴ * B) z z).re = ∑ k, ‖B k z‖ ^ 2 := fun z => by
    rw [mul_apply, Complex.re_sum]
    refine sum_congr rfl fun k _ => ?_
    rw [conjTranspose_apply, Complex.star_def, mul_comm, Complex.mul_conj, Complex.ofReal_re, Complex.normSq_eq_norm_sq]
  rw [hd, hd, mul_apply]
  refine (norm_sum_le _ _).trans ?_
  rw [← sum_add_distrib, sum_div]
  refine sum_le_sum fun k _ => ?_
  rw [norm_mul, conjTranspose_apply, norm_star]
  nlinarith [sq_nonneg (‖B k x‖ - ‖B k y‖)]

theorem al_cols (a : Fin (n + n)) (y : Fin (2 ^ n)) : ∑ x, ‖al n a x y‖ ≤ 1 := by
  have h := al_rows (fl a) y
  rw [← al_conjTranspose] at h
  simpa only [conjTranspose_apply, norm_star] using h

theorem pair_rows (a b : Fin (n + n)) (x : Fin (2 ^ n)) : ∑ y, ‖(al n a * al n b) x y‖ ≤ 1 := rows_mul (al_rows a) (al_rows b) x

theorem pair_cols (a b : Fin (n + n)) (y : Fin (2 ^ n)) : ∑ x, ‖(al n a * al n b) x y‖ ≤ 1 := by
  have h := pair_rows (fl b) (fl a) y
  rw [← al_conjTranspose, ← al_conjTranspose, ← conjTranspose_mul] at h
  simpa only [conjTranspose_apply, norm_star] using h

/-- The diagonal entries of `ρ a b` add up to at most the trace of `ρ`. -/
theorem corr_mass {ρ : Op (2 ^ n)} (h : ρ.PosSemidef) (a b : Fin (n + n)) : ∑ x, ‖(ρ * al n a * al n b) x x‖ ≤ ρ.trace.re := by
  set P := al n a * al n b with hP
  have nn : ∀ x, 0 ≤ (ρ x x).re := fun x => by
    have := psd_offdiag h x x
    have := norm_nonneg (ρ x x)
    linarith
  have h1 : ∀ x, ‖(ρ * al n a * al n b) x x‖ ≤ ∑ y, ((ρ x x).re + (ρ y y).re) / 2 * ‖P y x‖ := fun x => by
    rw [mul_assoc, ← hP, mul_apply]
    refine (norm_sum_le _ _).trans (sum_le_sum fun y _ => ?_)
    rw [norm_mul]
    exact mul_le_mul_of_nonneg_right (psd_offdiag h x y) (norm_nonneg _)
  have h2 : ∑ x, ∑ y, ((ρ x x).re + (ρ y y).re) / 2 * ‖P y x‖ = (∑ x, (ρ x x).re * ∑ y, ‖P y x‖) / 2 + (∑ y, (ρ y y).re * ∑ x, ‖P y x‖) / 2 := by
    simp only [mul_sum]
    rw [sum_comm (f := fun y x => (ρ y y).re * ‖P y x‖), ← add_div, ← sum_add_distrib, sum_div]
    refine sum_congr rfl fun x _ => ?_
    rw [← sum_add_distrib, sum_div]
    exact sum_congr rfl fun y _ => by ring
  have ht : ρ.trace.re = ∑ x, (ρ x x).re := by rw [trace, Complex.re_sum]; rfl
  have h3 : ∑ x, (ρ x x).re * ∑ y, ‖P y x‖ ≤ ρ.trace.re := by
    rw [ht]; exact sum_le_sum fun x _ => mul_le_of_le_one_right (nn x) (pair_cols a b x)
  have h4 : ∑ y, (ρ y y).re * ∑ x, ‖P y x‖ ≤ ρ.trace.re := by
    rw [ht]; exact sum_le_sum fun y _ => mul_le_of_le_one_right (nn y) (pair_rows a b y)
  refine (sum_le_sum fun x _ => h1 x).trans ?_
  rw [h2]
  linarith

/-- For any array they add up to at most the sum of all entries. -/
theorem corr_mass_re {ρ : Op (2 ^ n)} (a b : Fin (n + n)) : ∑ x, |((ρ * al n a * al n b) x x).re| ≤ ∑ x, ∑ y, |(ρ x y).re| ∧
    ∑ x, |((ρ * al n a * al n b) x x).im| ≤ ∑ x, ∑ y, |(ρ x y).im| := by
  constructor
  · refine sum_le_sum fun x _ => ?_
    rw [mul_assoc, mul_apply, Complex.re_sum]
    exact (abs_sum_le_sum_abs _ _).trans (sum_le_sum fun y _ => (tern_part (tern_pair a b y x)).1)
  · refine sum_le_sum fun x _ => ?_
    rw [mul_assoc, mul_apply, Complex.im_sum]
    exact (abs_sum_le_sum_abs _ _).trans (sum_le_sum fun y _ => (tern_part (tern_pair a b y x)).2)

theorem corr_mass_parts {ρ : Op (2 ^ n)} (h : ρ.PosSemidef) (a b : Fin (n + n)) : ∑ x, |((ρ * al n a * al n b) x x).re| ≤ ρ.trace.re ∧
    ∑ x, |((ρ * al n a * al n b) x x).im| ≤ ρ.trace.re :=
  ⟨(sum_le_sum fun x _ => Complex.abs_re_le_norm _).trans (corr_mass h a b), (sum_le_sum fun x _ => Complex.abs_im_le_norm _).trans (corr_mass h a b)⟩

/-- The two operators in an entry of `compute_2corr_matrix`. -/
def corrL (c : Option ℤ) (i : Fin (n + n)) : Fin (n + n) := match c with
  | none => i
  | some c => if c < 0 then fl i else i

def corrR (c : Option ℤ) (j : Fin (n + n)) : Fin (n + n) := match c with
  | none => j
  | some c => if c < 0 then j else fl j

theorem compute2Corr_al (ρ : Op (2 ^ n)) (c : Option ℤ) :
    compute2Corr ρ n (jordanWignerAlphas n) c = .ok (of fun i j => (ρ * al n (corrL c i) * al n (corrR c j)).trace) := by
  rw [jordanWignerAlphas_eq]
  refine fillArray_ok fun i j => ?_
  rw [listGet_ofFn (al n) i i.2, listGet_ofFn (al n) j j.2]
  rcases c with _ | c
  · rfl
  · simp only [corrL, corrR, of_apply]
    change (if c < 0 then (pure (npTrace (ρ * (al n i)ᴴ * al n j)) : Except PyErr ℂ) else pure (npTrace (ρ * al n i * (al n j)ᴴ))) = _
    split_ifs
    · rw [al_conjTranspose]; rfl
    · rw [al_conjTranspose]; rfl

theorem compute2CorrF_al {plan : ℕ → ℕ → Bool → MatmulPlan (2 ^ n)} (hp : ∀ i j b, Spec.IsPlan (plan i j b)) (t : SumTree (Fin (2 ^ n)))
    {ρ : Op (2 ^ n)} (hρ : ∀ x y, Spec.IsFloat (ρ x y)) (c : Option ℤ) :
    compute2CorrF plan t ρ n (jordanWignerAlphas n) c = .ok (of fun i j => traceF t (ρ * al n (corrL c i) * al n (corrR c j))) := by
  rw [jordanWignerAlphas_eq]
  refine fillArray_ok fun i j => ?_
  rw [listGet_ofFn (al n) i i.2, listGet_ofFn (al n) j j.2]
  rcases c with _ | c
  · change (pure (traceF t (matmulF (plan i j true) (matmulF (plan i j false) ρ (al n i)) (al n j))) : Except PyErr ℂ) = _
    rw [matmulF_corr (hp _ _ _) (hp _ _ _) hρ]
    rfl
  · simp only [corrL, corrR, of_apply]
    change (if c < 0 then (pure (traceF t (matmulF (plan i j true) (matmulF (plan i j false) ρ (al n i)ᴴ) (al n j))) : Except PyErr ℂ)
      else pure (traceF t (matmulF (plan i j true) (matmulF (plan i j false) ρ (al n i)) (al n j)ᴴ))) = _
    split_ifs
    · rw [al_conjTranspose, matmulF_corr (hp _ _ _) (hp _ _ _) hρ]; rfl
    · rw [al_conjTranspose, matmulF_corr (hp _ _ _) (hp _ _ _) hρ]; rfl

theorem computeCov_al (ρ : Op (2 ^ n)) :
    computeCovMatrix ρ (some n) (jordanWignerAlphas n) =
      .ok ⟨n, of fun i j => (ρ * al n i * al n j).trace - (ρ * al n j * al n i).trace⟩ := by
  rw [jordanWignerAlphas_eq, computeCovMatrix]
  rw [fillArray_ok (g := of fun i j => (ρ * al n i * al n j).trace - (ρ * al n j * al n i).trace)]
  · rfl
  · intro i j
    rw [listGet_ofFn (al n) i i.2, listGet_ofFn (al n) j j.2]
    rfl

theorem computeCovF_al {plan : ℕ → ℕ → Bool → MatmulPlan (2 ^ n)} (hp : ∀ i j b, Spec.IsPlan (plan i j b)) (t : SumTree (Fin (2 ^ n)))
    {ρ : Op (2 ^ n)} (hρ : ∀ x y, Spec.IsFloat (ρ x y)) :
    computeCovMatrixF plan t ρ n (jordanWignerAlphas n) =
      .ok (of fun i j => addC (traceF t (ρ * al n i * al n j)) (-traceF t (ρ * al n j * al n i))) := by
  rw [jordanWignerAlphas_eq]
  refine fillArray_ok fun i j => ?_
  rw [listGet_ofFn (al n) i i.2, listGet_ofFn (al n) j j.2]
  change (pure (addC (traceF t (matmulF (plan i j true) (matmulF (plan i j false) ρ (al n i)) (al n j)))
      (-(traceF t (matmulF (plan j i true) (matmulF (plan j i false) ρ (al n j)) (al n i))))) : Except PyErr ℂ) = _
  rw [matmulF_corr (hp _ _ _) (hp _ _ _) hρ, matmulF_corr (hp _ _ _) (hp _ _ _) hρ]
  rfl

theorem Near.neg {c x m y : ℝ} (h : Near c x m y) : Near c (-x) m (-y) := by
  have := h.mul (-1)
  simpa using this

theorem near_le {c x m y M : ℝ} (h : Near c x m y) (hc : 1 ≤ c) (hM : m ≤ M) : |y - x| ≤ (c - 1) * M :=
  h.err.trans (mul_le_mul_of_nonneg_left hM (by linarith))

/-- The diagonal entries of `ρ a† a` are diagonal entries of `ρ` or zero. -/
theorem numberOp_diag (ρ : Op (2 ^ n)) (i : Fin (n + n)) (x : Fin (2 ^ n)) :
    (ρ * al n (fl i) * al n i) x x = 0 ∨ (ρ * al n (fl i) * al n i) x x = ρ x x := by
  have h : (ρ * al n (fl i) * al n i) x x = ρ x x * (al n (fl i) * al n i) x x := by
    rw [mul_assoc, mul_apply, sum_eq_single x]
    · intro y _ hy
      have : (al n (fl i) * al n i) y x = 0 := by
        by_contra h0
        exact (alPair_support hy h0).1 (alSite_fl i)
      rw [this, mul_zero]
    · intro h; exact absurd (mem_univ x) h
  have h1 : (al n (fl i) * al n i) x x = ((∑ z, ‖al n i z x‖ ^ 2 : ℝ) : ℂ) := by
    rw [mul_apply]
    push_cast
    refine sum_congr rfl fun z _ => ?_
    rw [← al_conjTranspose, conjTranspose_apply, Complex.star_def, mul_comm, Complex.mul_conj, Complex.normSq_eq_norm_sq]
    push_cast
    rfl
  rcases tern_pair (fl i) i x x with h0 | h0 | h0
  · rw [h, h0, mul_zero]; exact .inl rfl
  · rw [h, h0, mul_one]; exact .inr rfl
  · exfalso
    rw [h0] at h1
    have h2 := congrArg Complex.re h1
    rw [Complex.ofReal_re] at h2
    have : (0 : ℝ) ≤ ∑ z, ‖al n i z x‖ ^ 2 := sum_nonneg fun z _ => sq_nonneg _
    simp at h2
    linarith

theorem tree_zero {ι : Type} (t : SumTree ι) (v : ι → ℝ) (h : ∀ i, v i = 0) : t.eval v = 0 := by
  induction t with
  | zero => rfl
  | leaf i => exact h i
  | node l r ihl ihr => rw [SumTree.eval, ihl, ihr, add_zero, rnd_zero]

theorem traceF_int {d : ℕ} {t : SumTree (Fin d)} (ht : Spec.IsSumOrder t) {A : Op d} (hA : ∀ x, GInt (A x x)) (h1 : ∑ x, |(A x x).re| ≤ 2 ^ 53)
    (h2 : ∑ x, |(A x x).im| ≤ 2 ^ 53) : traceF t A = A.trace := by
  have e : ∀ f : Fin d → ℝ, (t.leaves.map f).sum = ∑ i, f i := fun f => by
    rw [(ht.1.map f).sum_eq, ← List.ofFn_eq_map, List.sum_ofFn]
  have e1 := tree_int t (fun x => (A x x).re) (fun x => (hA x).1) (by rw [e]; exact h1)
  have e2 := tree_int t (fun x => (A x x).im) (fun x => (hA x).2) (by rw [e]; exact h2)
  rw [e] at e1 e2
  apply Complex.ext
  · rw [trace, Complex.re_sum]; exact e1
  · rw [trace, Complex.im_sum]; exact e2

theorem gint_mul {d : ℕ} {A B : Op d} (hA : ∀ x y, GInt (A x y)) (hB : ∀ x y, Tern (B x y)) (x y : Fin d) : GInt ((A * B) x y) := by
  rw [mul_apply]
  have : ∀ s : Finset (Fin d), GInt (∑ z ∈ s, A x z * B z y) := fun s => by
    induction s using Finset.cons_induction with
    | empty => exact ⟨⟨0, by simp⟩, 0, by simp⟩
    | cons a s ha ih =>
      rw [sum_cons]
      obtain ⟨⟨m, hm⟩, k, hk⟩ := gint_mul_tern (hA x a) (hB a y)
      obtain ⟨⟨m', hm'⟩, k', hk'⟩ := ih
      exact ⟨⟨m + m', by rw [Complex.add_re, hm, hm']; push_cast; rfl⟩, k + k', by rw [Complex.add_im, hk, hk']; push_cast; rfl⟩
  exact this univ

end FF
