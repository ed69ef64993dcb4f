import Verif.Proofs.MachineBuild
import Verif.Props.MachineSum

/-! # C145: the operators are computed without rounding errors, and what `build_op` rounds -/

namespace FF.Props

open Spec Matrix Finset

variable {n : ℕ}

/-- A matrix product by the loop over the entries, with or without fused multiply-add. -/
def loopPlan (d : ℕ) (fused : Bool) : MatmulPlan d :=
  ⟨fun _ _ _ => loopOrder (List.finRange d ×ˢ [false, true]), fun _ _ _ _ => fused⟩

theorem loopPlan_ok (d : ℕ) (fused : Bool) : IsPlan (loopPlan d fused) := by
  intro i j b
  rw [loopPlan, (loopOrder_spec _).1]
  exact ⟨(List.nodup_finRange d).product (by decide), fun k => by rw [List.mem_product]; exact ⟨List.mem_finRange _, by cases k.2 <;> decide⟩⟩

/-- C145: the Pauli operators, the lowering operators and the raising and lowering operators are computed without rounding errors,
for every number of sites. -/
theorem C145_operators (n : ℕ) :
    pauliGroupF n = (List.range (4 ^ n)).map (fun k => pauliString (digit 4 n k)) ∧
      (∀ v ps ls, generatePauliGroup (.int n) v = .ok ⟨n, ps, ls⟩ → pauliGroupF n = ps) ∧
      jordanWignerLoweringF n = jordanWignerLowering n ∧ jordanWignerAlphasF n = jordanWignerAlphas n := by
  refine ⟨pauliGroupF_eq n, fun v ps ls h => ?_, jwAlphasF_eq n⟩
  rcases Nat.eq_zero_or_pos n with rfl | hn
  · simp [generatePauliGroup] at h
  · rw [generatePauliGroup_ok n hn] at h
    injection h with h
    injection h with _ h
    have h1 : (pauliLoop n v).1 = ps := congrArg Prod.fst h
    rw [← h1, pauliLoop_eq, pauliGroupF_eq]

/-- There are 16 operators on two sites. -/
example : (pauliGroupF 2).length = 16 ∧ (jordanWignerAlphasF 2).length = 4 := by
  rw [(C145_operators 2).1, (C145_operators 2).2.2.2, jordanWignerAlphas_eq]
  simp

/-- C145: in floating point too, in whatever order the matrix products are computed, the raising and lowering operators obey the
anticommutation relations exactly: position `i` and position `j` of the list have the anticommutator 1 if they are `n` apart and 0
otherwise. -/
theorem C145_anticommutators {p q : MatmulPlan (2 ^ n)} (hp : IsPlan p) (hq : IsPlan q) (i j : ℕ) (a b : Op (2 ^ n))
    (hi : (jordanWignerAlphasF n)[i]? = some a) (hj : (jordanWignerAlphasF n)[j]? = some b) :
    (of fun x y => addC (matmulF p a b x y) (matmulF q b a x y) : Op (2 ^ n)) = if i + n = j ∨ j + n = i then 1 else 0 := by
  rw [(jwAlphasF_eq n).2, jordanWignerAlphas_eq] at hi hj
  obtain ⟨hi', rfl⟩ := List.getElem?_eq_some_iff.1 hi
  obtain ⟨hj', rfl⟩ := List.getElem?_eq_some_iff.1 hj
  rw [List.length_ofFn] at hi' hj'
  rw [List.getElem_ofFn, List.getElem_ofFn, car_float hp hq, al_anticomm, swapS_apply]
  have key : ((⟨j, hj'⟩ : Fin (n + n)) = fl ⟨i, hi'⟩) ↔ (i + n = j ∨ j + n = i) := by
    by_cases h : i < n
    · have e : (⟨i, hi'⟩ : Fin (n + n)) = Fin.castAdd n ⟨i, h⟩ := rfl
      rw [e, fl_left, Fin.ext_iff, Fin.val_natAdd]
      simp only
      omega
    · have e : (⟨i, hi'⟩ : Fin (n + n)) = Fin.natAdd n ⟨i - n, by omega⟩ := Fin.ext (by simp only [Fin.val_natAdd]; omega)
      rw [e, fl_right, Fin.ext_iff, Fin.val_castAdd]
      simp only
      omega
  simp only [key]
  split_ifs <;> simp

/-- The products of two sites computed by loops. -/
example (i j : ℕ) (a b : Op (2 ^ 2)) (hi : (jordanWignerAlphasF 2)[i]? = some a) (hj : (jordanWignerAlphasF 2)[j]? = some b) :
    (of fun x y => addC (matmulF (loopPlan _ true) a b x y) (matmulF (loopPlan _ false) b a x y) : Op (2 ^ 2)) =
      if i + 2 = j ∨ j + 2 = i then 1 else 0 :=
  C145_anticommutators (loopPlan_ok _ _) (loopPlan_ok _ _) i j a b hi hj

/-- C145: `compute_algebra_S` returns for these operators what it would return without rounding. -/
theorem C145_algebra {plan : ℕ → ℕ → MatmulPlan (2 ^ n)} (hp : ∀ i j, IsPlan (plan i j)) :
    computeAlgebraSF plan (jordanWignerAlphasF n) = computeAlgebraS (jordanWignerAlphas n) := by
  rw [(jwAlphasF_eq n).2]
  exact algebraF_eq hp

example : computeAlgebraSF (fun _ _ => loopPlan (2 ^ 3) true) (jordanWignerAlphasF 3) = computeAlgebraS (jordanWignerAlphas 3) :=
  C145_algebra fun _ _ => loopPlan_ok _ _

/-- C145: for complex floats `R` every off-diagonal entry of the operator returned by `build_op` is the exact entry, rounded once, and
every diagonal entry is exact up to `(1 + 2⁻⁵³)^n - 1` times the sum of the absolute values of the coefficients that enter it, in both
parts; for every number of sites and in whatever order the matrix products are computed. -/
theorem C145_build {plan : ℕ → ℕ → MatmulPlan (2 ^ n)} (hp : ∀ i j, IsPlan (plan i j)) (hn : 1 ≤ n) (R : Op (n + n))
    (hR : ∀ i j, IsFloat (R i j)) (direct : Bool) :
    ∃ A B : Op (2 ^ n), buildOp n R (jordanWignerAlphas n) direct = .ok A ∧ buildOpF plan n R (jordanWignerAlphasF n) direct = .ok B ∧
      (∀ x y, x ≠ y → B x y = ⟨rnd (A x y).re, rnd (A x y).im⟩) ∧
      (∀ x, direct = false →
        |(B x x).re - (A x x).re| ≤ ((1 + 2⁻¹ ^ 53) ^ n - 1) * ∑ j, |(R j j).re| ∧
        |(B x x).im - (A x x).im| ≤ ((1 + 2⁻¹ ^ 53) ^ n - 1) * ∑ j, |(R j j).im|) ∧
      (∀ x, direct = true →
        |(B x x).re - (A x x).re| ≤ ((1 + 2⁻¹ ^ 53) ^ n - 1) *
          ∑ j : Fin n, (|(R (Fin.natAdd n j) (Fin.castAdd n j)).re| + |(R (Fin.castAdd n j) (Fin.natAdd n j)).re|) ∧
        |(B x x).im - (A x x).im| ≤ ((1 + 2⁻¹ ^ 53) ^ n - 1) *
          ∑ j : Fin n, (|(R (Fin.natAdd n j) (Fin.castAdd n j)).im| + |(R (Fin.castAdd n j) (Fin.natAdd n j)).im|)) := by
  rw [(jwAlphasF_eq n).2]
  refine ⟨_, _, buildOp_entries hn R direct, buildOpF_eq hp hn R hR direct, fun x y hxy => step_offdiag hR direct hxy, fun x h => ?_, fun x h => ?_⟩
  · subst h
    exact step_diag false x
  · subst h
    have h1 := step_diag (R := R) true x
    rw [Fin.sum_univ_add, Fin.sum_univ_add] at h1
    simp only [partner, if_true, fl_left, fl_right, ← sum_add_distrib] at h1
    exact h1

/-- Coefficients that are not sums of few powers of two. -/
noncomputable def tenths (n : ℕ) : Op (n + n) := of fun i j => ⟨rnd ((i + j : ℕ) / 10), 0⟩

theorem tenths_float (n : ℕ) (i j : Fin (n + n)) : IsFloat (tenths n i j) := ⟨rnd_isFloat _, isFloat_zero.2⟩

example : ∃ A B : Op (2 ^ 3), buildOp 3 (tenths 3) (jordanWignerAlphas 3) false = .ok A ∧
    buildOpF (fun _ _ => loopPlan _ true) 3 (tenths 3) (jordanWignerAlphasF 3) false = .ok B ∧ B 0 3 = ⟨rnd (A 0 3).re, rnd (A 0 3).im⟩ := by
  obtain ⟨A, B, hA, hB, h, -⟩ := C145_build (fun _ _ => loopPlan_ok (2 ^ 3) true) (by norm_num) (tenths 3) (tenths_float 3) false
  exact ⟨A, B, hA, hB, h 0 3 (by decide)⟩

/-- C145: for a Hermitian array of complex floats the computed operator is exactly Hermitian. -/
theorem C145_hermitian {plan : ℕ → ℕ → MatmulPlan (2 ^ n)} (hp : ∀ i j, IsPlan (plan i j)) (hn : 1 ≤ n) {R : Op (n + n)}
    (hR : ∀ i j, IsFloat (R i j)) (h : R.IsHermitian) :
    ∃ B : Op (2 ^ n), buildOpF plan n R (jordanWignerAlphasF n) false = .ok B ∧ B.IsHermitian := by
  obtain ⟨A, B, hA, hB, h1, h2, -⟩ := C145_build hp hn R hR false
  rw [jordanWignerAlphas_eq, buildOp_square R (al n) hn] at hA
  have hH : A.IsHermitian := by
    rw [← Except.ok.inj hA]
    exact quad_herm (drop_herm h _) _
  refine ⟨B, hB, ?_⟩
  ext x y
  rw [conjTranspose_apply]
  by_cases hxy : x = y
  · subst hxy
    have h3 := (h2 x rfl).2
    have h4 : ∑ j, |(R j j).im| = 0 := sum_eq_zero fun j _ => by
      have := congrArg Complex.im (h.apply j j)
      simp at this
      have : (R j j).im = 0 := by linarith
      rw [this, abs_zero]
    have h5 : (A x x).im = 0 := by
      have := congrArg Complex.im (hH.apply x x)
      simp at this
      linarith
    rw [h4, mul_zero, h5, sub_zero] at h3
    have h6 : (B x x).im = 0 := abs_eq_zero.1 (le_antisymm h3 (abs_nonneg _))
    exact Complex.conj_eq_iff_im.2 h6
  · rw [h1 x y hxy, h1 y x (Ne.symm hxy)]
    exact (rndC_conj (A y x)).symm.trans (congrArg rndC (hH.apply x y))

example : ∃ B : Op (2 ^ 3), buildOpF (fun _ _ => loopPlan _ false) 3 (tenths 3) (jordanWignerAlphasF 3) false = .ok B ∧ B.IsHermitian :=
  C145_hermitian (fun _ _ => loopPlan_ok (2 ^ 3) false) (by norm_num) (tenths_float 3)
    (by ext i j; apply Complex.ext <;> simp [tenths, add_comm])

/-- C145: for coefficients whose parts are integers with absolute values that add up to at most `2⁵³` nothing is rounded. -/
theorem C145_integers {plan : ℕ → ℕ → MatmulPlan (2 ^ n)} (hp : ∀ i j, IsPlan (plan i j)) (hn : 1 ≤ n) (a b : Matrix (Fin (n + n)) (Fin (n + n)) ℤ)
    (ha : ∑ i, ∑ j, |a i j| ≤ 2 ^ 53) (hb : ∑ i, ∑ j, |b i j| ≤ 2 ^ 53) (direct : Bool) :
    buildOpF plan n (of fun i j => ⟨a i j, b i j⟩) (jordanWignerAlphasF n) direct =
      buildOp n (of fun i j => ⟨a i j, b i j⟩) (jordanWignerAlphas n) direct := by
  have hg : ∀ i j, GInt ((of fun i j => ⟨a i j, b i j⟩ : Op (n + n)) i j) := fun i j => ⟨⟨a i j, rfl⟩, b i j, rfl⟩
  have le : ∀ {c : Matrix (Fin (n + n)) (Fin (n + n)) ℤ}, ∑ i, ∑ j, |c i j| ≤ 2 ^ 53 → ∑ i, ∑ j, |(c i j : ℝ)| ≤ 2 ^ 53 := fun h => by exact_mod_cast h
  have le1 : ∀ {c : Matrix (Fin (n + n)) (Fin (n + n)) ℤ}, ∑ i, ∑ j, |c i j| ≤ 2 ^ 53 → ∀ i j, |(c i j : ℝ)| ≤ 2 ^ 53 := fun {c} h i j =>
    ((single_le_sum (f := fun j => |(c i j : ℝ)|) (fun _ _ => abs_nonneg _) (mem_univ j)).trans
      (single_le_sum (f := fun i => ∑ j, |(c i j : ℝ)|) (fun _ _ => sum_nonneg fun _ _ => abs_nonneg _) (mem_univ i))).trans (le h)
  rw [(jwAlphasF_eq n).2, buildOpF_eq hp hn _ (fun i j => gint_float (hg i j) (le1 ha i j) (le1 hb i j)) direct, buildOp_entries hn _ direct]
  congr 1
  ext x y
  exact step_int hg (le ha) (le hb) direct x y

example : buildOpF (fun _ _ => loopPlan _ true) 1 (of fun i j => ⟨(!![1, 2; -3, 4] : Matrix (Fin 2) (Fin 2) ℤ) i j, (!![0, 5; 6, 7] : Matrix (Fin 2) (Fin 2) ℤ) i j⟩)
    (jordanWignerAlphasF 1) true = buildOp 1 (of fun i j => ⟨(!![1, 2; -3, 4] : Matrix (Fin 2) (Fin 2) ℤ) i j, (!![0, 5; 6, 7] : Matrix (Fin 2) (Fin 2) ℤ) i j⟩)
      (jordanWignerAlphas 1) true :=
  C145_integers (fun _ _ => loopPlan_ok (2 ^ 1) true) le_rfl _ _ (by simp [Fin.sum_univ_two]) (by simp [Fin.sum_univ_two]) true

end FF.Props
