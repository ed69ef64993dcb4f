import Verif.Proofs.Coefficients3

/-!
# Properties of the quadratic-form functions of `ff_lib.py` (C26, C28 - C36)

`alphas = List.ofFn f` says that the Python list is `[f 0, f 1, …]`.
-/

namespace FF.Props

open Matrix
open scoped ComplexConjugate

/-! ## C26 the algebra of the alphas -/

/-- C26. `compute_algebra_S(jordan_wigner_alphas(n))` is `[[0, I], [I, 0]]`. -/
theorem C26_algebra (n : ℕ) (hn : 1 ≤ n) :
    computeAlgebraS (jordanWignerAlphas n) = .ok ⟨n, Spec.swap n⟩ := by
  rw [jordanWignerAlphas_eq, computeAlgebraS_ok (by positivity) hn _ (swapS n) al_anticomm]
  congr 2
  ext i j
  rw [← swapS_eq]
  simp only [of_apply, swapS_apply]
  split_ifs <;> simp_all
  norm_num at *

/-- C26. The defining relation `α_i α_j = S_ij 1 - α_j α_i`, with `S` the matrix computed. -/
theorem C26_relation (n : ℕ) (f : Fin (n + n) → Op (2 ^ n)) (hf : jordanWignerAlphas n = List.ofFn f)
    (i j : Fin (n + n)) : f i * f j = Spec.swap n i j • 1 - f j * f i := by
  rw [jordanWignerAlphas_eq] at hf
  obtain rfl := List.ofFn_injective hf
  rw [← swapS_eq, ← al_anticomm]; abel

example : ∃ f : Fin (2 + 2) → Op (2 ^ 2), jordanWignerAlphas 2 = List.ofFn f := ⟨_, jordanWignerAlphas_eq 2⟩

/-! ## C28 Majorana operators -/

/-- C28. The Majorana operators are `2n` Hermitian operators with `{γ_i, γ_j} = δ_ij`. -/
theorem C28_majoranas (n : ℕ) :
    ∃ g : Fin (n + n) → Op (2 ^ n), jordanWignerMajoranas n = List.ofFn g ∧
      (∀ i, (g i).IsHermitian) ∧
      ∀ i j, g i * g j + g j * g i = if i = j then 1 else 0 := by
  refine ⟨_, jordanWignerMajoranas_eq n, ?_, ?_⟩
  · intro i
    rw [IsHermitian, conjTranspose_sum]
    simp only [conjTranspose_smul, al_conjTranspose]
    rw [← Equiv.sum_comp flE]
    apply Finset.sum_congr rfl
    intro j _
    change star (buildOmega n i (fl j)) • al n (fl (fl j)) = _
    rw [fl_fl]
    congr 1
    refine Fin.addCases (fun i => ?_) (fun i => ?_) i <;>
      refine Fin.addCases (fun j => ?_) (fun j => ?_) j <;>
      simp only [fl_left, fl_right, buildOmega, blk_11, blk_12, blk_21, blk_22, Matrix.smul_apply,
        Matrix.one_apply] <;>
      split_ifs <;> simp [nu_conj]
  · intro i j
    rw [rotated_anticomm, omega_swap, Matrix.one_apply]
    split_ifs <;> simp

/-- C28. They are `rotate_operators(build_Omega(n), jordan_wigner_alphas(n))`. -/
theorem C28_rotation (n : ℕ) :
    rotateOperators (.matrixFirst (buildOmega n) (jordanWignerAlphas n)) false =
      .ok (some (jordanWignerMajoranas n)) := by
  rw [jordanWignerAlphas_eq, jordanWignerMajoranas_eq]
  exact rotate_exact (buildOmega n) (al n) (omega_entries n)

/-- C28. The formulas: `γ_i = (a_i† + a_i)/√2` for `i < n` and `γ_{n+i} = -i(a_i - a_i†)/√2`. The second one has the
opposite sign of the docstring of `jordan_wigner_majoranas`, which has `i(a_i - a_i†)/√2`. -/
theorem C28_formula (n : ℕ) (a : Fin n → Op (2 ^ n)) (ha : jordanWignerLowering n = List.ofFn a) :
    ∃ g : Fin (n + n) → Op (2 ^ n), jordanWignerMajoranas n = List.ofFn g ∧
      (∀ i, g (Fin.castAdd n i) = ((√2 : ℝ) : ℂ)⁻¹ • ((a i)ᴴ + a i)) ∧
      (∀ i, g (Fin.natAdd n i) = ((√2 : ℝ) : ℂ)⁻¹ • (-Complex.I) • (a i - (a i)ᴴ)) ∧
      ∀ i, g (Fin.natAdd n i) ≠ ((√2 : ℝ) : ℂ)⁻¹ • Complex.I • (a i - (a i)ᴴ) := by
  obtain ⟨g, hg, -, hanti⟩ := C28_majoranas n
  have hform : jordanWignerMajoranas n = List.ofFn (Fin.append
      (fun i => ((√2 : ℝ) : ℂ)⁻¹ • ((a i)ᴴ + a i)) (fun i => ((√2 : ℝ) : ℂ)⁻¹ • (-Complex.I) • (a i - (a i)ᴴ))) := by
    rw [List.ofFn_fin_append]
    simp only [jordanWignerMajoranas, ha, List.map_ofFn]
    rfl
  have hgg : g = _ := List.ofFn_injective (hg.symm.trans hform)
  have h2 : ∀ i, g (Fin.natAdd n i) = ((√2 : ℝ) : ℂ)⁻¹ • (-Complex.I) • (a i - (a i)ᴴ) := by
    intro i; rw [hgg, Fin.append_right]
  refine ⟨g, hg, fun i => by rw [hgg, Fin.append_left], h2, fun i h => ?_⟩
  have h0 : g (Fin.natAdd n i) = -g (Fin.natAdd n i) := by
    conv_lhs => rw [h]
    rw [h2, neg_smul, smul_neg, neg_neg]
  have h1 : g (Fin.natAdd n i) = 0 := by
    ext x y
    exact self_eq_neg.1 (congrFun (congrFun h0 x) y)
  have h3 := hanti (Fin.natAdd n i) (Fin.natAdd n i)
  rw [h1, if_pos rfl] at h3
  have h4 := congrFun (congrFun h3 ⟨0, by positivity⟩) ⟨0, by positivity⟩
  simp at h4

example : ∃ a : Fin 2 → Op (2 ^ 2), jordanWignerLowering 2 = List.ofFn a := ⟨_, jordanWignerLowering_eq 2⟩

/-! ## C29 rotate_operators -/

/-- C29. For `N` operators and an array with at least `N` rows and columns the result is
`β_j = Σ_i C_ji α_i`, coefficients of modulus below `1e-9` being dropped. -/
theorem C29_right {m k d N : ℕ} (C : Matrix (Fin m) (Fin k) ℂ) (f : Fin N → Op d)
    (hm : N ≤ m) (hk : N ≤ k) :
    rotateOperators (.matrixFirst C (List.ofFn f)) false =
      .ok (some (List.ofFn fun j : Fin N =>
        ∑ i : Fin N, Spec.dropSmall 1e-9 C (Fin.castLE hm j) (Fin.castLE hk i) • f i)) :=
  rotate_right C f hm hk

/-- C29. With `Left=True`: `β_j = Σ_i α_i conj(C_ij)`. -/
theorem C29_left {m k d N : ℕ} (C : Matrix (Fin m) (Fin k) ℂ) (f : Fin N → Op d)
    (hm : N ≤ m) (hk : N ≤ k) :
    rotateOperators (.matrixFirst C (List.ofFn f)) true =
      .ok (some (List.ofFn fun j : Fin N =>
        ∑ i : Fin N, conj (Spec.dropSmall 1e-9 C (Fin.castLE hm i) (Fin.castLE hk j)) • f i)) := by
  simp only [rotateOperators, List.length_ofFn]
  rw [if_neg (by omega), performRotation_ok _ _ hk hm, ← dropSmall_conjTranspose]; rfl

/-- C29. Coefficients that are zero or of modulus at least `1e-9` are all kept. -/
theorem C29_exact {m k : ℕ} (C : Matrix (Fin m) (Fin k) ℂ) (h : ∀ i j, C i j = 0 ∨ 1e-9 ≤ ‖C i j‖) :
    Spec.dropSmall 1e-9 C = C := dropSmall_id h

/-- C29. The two arguments may be given in either order. -/
theorem C29_order {m k d : ℕ} (C : Matrix (Fin m) (Fin k) ℂ) (alphas : List (Op d)) (left : Bool) :
    rotateOperators (.listFirst alphas C) left = rotateOperators (.matrixFirst C alphas) left := rfl

/-- C29. The number 0 is returned exactly for incompatible shapes: neither dimension equals the number of
operators, and not both exceed it. -/
theorem C29_incompatible {m k d : ℕ} (C : Matrix (Fin m) (Fin k) ℂ) (alphas : List (Op d)) (left : Bool) :
    rotateOperators (.matrixFirst C alphas) left = .ok none ↔
      m ≠ alphas.length ∧ k ≠ alphas.length ∧ ¬ (m > alphas.length ∧ k > alphas.length) := by
  simp only [rotateOperators]
  constructor
  · intro h
    by_contra hc
    rw [if_neg hc] at h
    cases left
    · cases hp : performRotation C alphas <;> simp [hp, bind, Except.bind, pure, Except.pure] at h
    · cases hp : performRotation Cᴴ alphas <;> simp [hp, bind, Except.bind, pure, Except.pure] at h
  · intro h; rw [if_pos h]

/-- C29. If one dimension equals the number of operators and the other is smaller, the call raises
`IndexError`. -/
theorem C29_too_small {m k d : ℕ} (C : Matrix (Fin m) (Fin k) ℂ) (alphas : List (Op d))
    (h : (m = alphas.length ∧ k < alphas.length) ∨ (k = alphas.length ∧ m < alphas.length)) :
    rotateOperators (.matrixFirst C alphas) false = .error .indexError := by
  classical
  obtain ⟨N, f, rfl⟩ : ∃ N, ∃ f : Fin N → Op d, alphas = List.ofFn f :=
    ⟨alphas.length, alphas.get, (List.ofFn_get alphas).symm⟩
  rw [List.length_ofFn] at h
  have hstep (j i : ℕ) (hi : i < N) (b : Op d) :
      (∃ b', (do
        let c ← get2 C j i
        if ‖c‖ < 1e-9 then pure b
        else do
          let a ← listGet (List.ofFn f) i
          pure (b + c • a) : Except PyErr (Op d)) = .ok b') ∨ (do
        let c ← get2 C j i
        if ‖c‖ < 1e-9 then pure b
        else do
          let a ← listGet (List.ofFn f) i
          pure (b + c • a) : Except PyErr (Op d)) = .error .indexError := by
    rw [listGet_ofFn f i hi]
    by_cases hc : j < m ∧ i < k
    · left
      rw [get2_lt C hc.1 hc.2]
      by_cases h0 : ‖C ⟨j, hc.1⟩ ⟨i, hc.2⟩‖ < 1e-9
      · exact ⟨b, by simp [bind, Except.bind, h0, pure, Except.pure]⟩
      · exact ⟨b + C ⟨j, hc.1⟩ ⟨i, hc.2⟩ • f ⟨i, hi⟩, by simp [bind, Except.bind, h0, pure, Except.pure]⟩
    · right
      simp [get2, hc, bind, Except.bind]
  have hbad (j i : ℕ) (hc : ¬ (j < m ∧ i < k)) (b : Op d) : (do
        let c ← get2 C j i
        if ‖c‖ < 1e-9 then pure b
        else do
          let a ← listGet (List.ofFn f) i
          pure (b + c • a) : Except PyErr (Op d)) = .error .indexError := by
    simp [get2, hc, bind, Except.bind]
  have hrot : performRotation C (List.ofFn f) = .error .indexError := by
    have hinner (j : ℕ) : (∃ b, (List.range (List.ofFn f).length).foldlM (fun b i => do
        let c ← get2 C j i
        if ‖c‖ < 1e-9 then pure b
        else do
          let a ← listGet (List.ofFn f) i
          pure (b + c • a)) (0 : Op d) = .ok b) ∨ (List.range (List.ofFn f).length).foldlM (fun b i => do
        let c ← get2 C j i
        if ‖c‖ < 1e-9 then pure b
        else do
          let a ← listGet (List.ofFn f) i
          pure (b + c • a)) (0 : Op d) = .error .indexError := by
      by_cases hex : ∃ i < N, ¬ (j < m ∧ i < k)
      · obtain ⟨i, hi, hc⟩ := hex
        right
        apply foldlM_error (a := i) _ (by simpa using hi) (hbad j i hc)
        intro i hi b
        exact hstep j i (by simpa using hi) b
      · left
        push Not at hex
        have hk : ∀ i < N, j < m ∧ i < k := hex
        refine ⟨_, foldlM_ok (g := fun b i => if hi : i < N then
          (if ‖C ⟨j, (hk i hi).1⟩ ⟨i, (hk i hi).2⟩‖ < 1e-9 then b
            else b + C ⟨j, (hk i hi).1⟩ ⟨i, (hk i hi).2⟩ • f ⟨i, hi⟩) else b) ?_ 0⟩
        intro i hi b
        have hi : i < N := by simpa using hi
        rw [get2_lt C (hk i hi).1 (hk i hi).2, dif_pos hi, listGet_ofFn f i hi]
        simp only [bind, Except.bind, pure, Except.pure]
        split_ifs <;> rfl
    rw [performRotation]
    rcases h with ⟨hm, hk⟩ | ⟨hk, hm⟩
    · apply mapM_error (a := 0) (fun j _ => hinner j) (by simp; omega)
      apply foldlM_error (a := k) _ (by simpa using hk) (hbad 0 k (by omega))
      intro i hi b
      exact hstep 0 i (by simpa using hi) b
    · apply mapM_error (a := m) (fun j _ => hinner j) (by simpa using hm)
      apply foldlM_error (a := 0) _ (by simp; omega) (hbad m 0 (by omega))
      intro i hi b
      exact hstep m i (by simpa using hi) b
  simp only [rotateOperators, List.length_ofFn]
  rw [if_neg (by omega)]
  simp [hrot, bind, Except.bind]

/-- C29. `Left=True` with `C`, for every shape: the outcome (also None and exceptions) of `Left=False` with the
conjugate transpose. -/
theorem C29_left_conj {m k d : ℕ} (C : Matrix (Fin m) (Fin k) ℂ) (alphas : List (Op d)) :
    rotateOperators (.matrixFirst C alphas) true = rotateOperators (.matrixFirst Cᴴ alphas) false := by
  simp only [rotateOperators]
  by_cases h : m ≠ alphas.length ∧ k ≠ alphas.length ∧ ¬ (m > alphas.length ∧ k > alphas.length)
  · rw [if_pos h, if_pos (by omega)]
  · have h' : ¬ (k ≠ alphas.length ∧ m ≠ alphas.length ∧ ¬ (k > alphas.length ∧ m > alphas.length)) := by omega
    rw [if_neg h, if_neg h']
    rfl

/-- C29. The same exception with `Left=True`. -/
theorem C29_too_small_left {m k d : ℕ} (C : Matrix (Fin m) (Fin k) ℂ) (alphas : List (Op d))
    (h : (m = alphas.length ∧ k < alphas.length) ∨ (k = alphas.length ∧ m < alphas.length)) :
    rotateOperators (.matrixFirst C alphas) true = .error .indexError := by
  rw [C29_left_conj]
  exact C29_too_small _ _ h.symm

/-- Non-vacuity: a `1 × 2` array and two operators. -/
example (a b : Op 2) : rotateOperators (.matrixFirst (0 : Matrix (Fin 1) (Fin 2) ℂ) [a, b]) true = .error .indexError :=
  C29_too_small_left _ _ (by simp)

/-- C29. Successive rotations compose by the matrix product (coefficients large enough to be kept). -/
theorem C29_compose {d N : ℕ} (C D : Op N) (f : Fin N → Op d)
    (hC : ∀ i j, C i j = 0 ∨ 1e-9 ≤ ‖C i j‖) (hD : ∀ i j, D i j = 0 ∨ 1e-9 ≤ ‖D i j‖)
    (hDC : ∀ i j, (D * C) i j = 0 ∨ 1e-9 ≤ ‖(D * C) i j‖) :
    ∃ beta, rotateOperators (.matrixFirst C (List.ofFn f)) false = .ok (some beta) ∧
      rotateOperators (.matrixFirst D beta) false =
        rotateOperators (.matrixFirst (D * C) (List.ofFn f)) false := by
  refine ⟨_, C29_right C f le_rfl le_rfl, ?_⟩
  rw [C29_right D _ le_rfl le_rfl, C29_right (D * C) _ le_rfl le_rfl, dropSmall_id hC, dropSmall_id hD,
    dropSmall_id hDC]
  congr 3
  funext j
  simp only [Fin.castLE_rfl, id, mul_apply, Finset.sum_smul, Finset.smul_sum, smul_smul]
  rw [Finset.sum_comm]

/-- Non-vacuity of C29_compose: the Hadamard-like matrix `[[1,1],[1,-1]]` squared. -/
example : ∃ C : Op 2, C 1 1 = -1 ∧ (∀ i j, C i j = 0 ∨ (1e-9 : ℝ) ≤ ‖C i j‖) ∧
    ∀ i j, (C * C) i j = 0 ∨ (1e-9 : ℝ) ≤ ‖(C * C) i j‖ := by
  refine ⟨!![1, 1; 1, -1], by simp, ?_, ?_⟩
  · intro i j; right; fin_cases i <;> fin_cases j <;> simp <;> norm_num
  · intro i j; fin_cases i <;> fin_cases j <;> simp <;> norm_num

/-! ## C30 symplectic rotations -/

/-- C30. The anticommutators of the rotated operators are given by `C S C^T`. -/
theorem C30_algebra (n : ℕ) (C : Op (n + n)) :
    ∃ b : Fin (n + n) → Op (2 ^ n),
      rotateOperators (.matrixFirst C (jordanWignerAlphas n)) false = .ok (some (List.ofFn b)) ∧
      ∀ j k, b j * b k + b k * b j =
        (Spec.dropSmall 1e-9 C * Spec.swap n * (Spec.dropSmall 1e-9 C)ᵀ) j k • 1 := by
  rw [jordanWignerAlphas_eq]
  refine ⟨_, C29_right C (al n) le_rfl le_rfl, ?_⟩
  intro j k
  simp only [Fin.castLE_rfl, id]
  rw [rotated_anticomm, swapS_eq]

/-- C30. For coefficients large enough to be kept: the rotated operators satisfy the algebra `S` exactly if
`C` is symplectic. -/
theorem C30_symplectic_iff (n : ℕ) (C : Op (n + n)) (hC : ∀ i j, C i j = 0 ∨ 1e-9 ≤ ‖C i j‖)
    (b : Fin (n + n) → Op (2 ^ n))
    (hb : rotateOperators (.matrixFirst C (jordanWignerAlphas n)) false = .ok (some (List.ofFn b))) :
    (∀ j k, b j * b k + b k * b j = Spec.swap n j k • 1) ↔ Spec.IsSymplectic C := by
  obtain ⟨b', h1, h2⟩ := C30_algebra n C
  rw [h1] at hb
  simp only [Except.ok.injEq, Option.some.injEq] at hb
  obtain rfl := List.ofFn_injective hb
  rw [dropSmall_id hC] at h2
  constructor
  · intro h
    ext j k
    exact smul_one_inj (by positivity) ((h2 j k).symm.trans (h j k))
  · intro h j k
    rw [h2]
    exact congrArg (fun M : Op (n + n) => M j k • (1 : Op (2 ^ n))) h

/-- C30. `compute_algebra_S` of the rotated operators is `C S C^T` (entries of modulus at most `1e-8` being
reported as 0). -/
theorem C30_compute_S (n : ℕ) (hn : 1 ≤ n) (C : Op (n + n))
    (b : List (Op (2 ^ n)))
    (hb : rotateOperators (.matrixFirst C (jordanWignerAlphas n)) false = .ok (some b)) :
    ∃ S : Op (n + n), computeAlgebraS b = .ok ⟨n, S⟩ ∧
      ∀ i j, let s := (Spec.dropSmall 1e-9 C * Spec.swap n * (Spec.dropSmall 1e-9 C)ᵀ) i j
        (‖s‖ ≤ 1e-8 → S i j = 0) ∧ (¬ ‖s‖ ≤ 1e-8 → S i j = s) := by
  obtain ⟨b', h1, h2⟩ := C30_algebra n C
  rw [h1] at hb
  simp only [Except.ok.injEq, Option.some.injEq] at hb
  obtain rfl := hb
  refine ⟨_, computeAlgebraS_ok (by positivity) hn b' _ h2, ?_⟩
  intro i j
  refine ⟨fun h => ?_, fun h => ?_⟩
  · rw [of_apply, if_pos h]
  · rw [of_apply, if_neg h]

/-- Non-vacuity of C30: exchanging the roles of a pair of conjugate operators is symplectic. -/
example : ∃ C : Op (1 + 1), C ≠ 1 ∧ (∀ i j, C i j = 0 ∨ (1e-9 : ℝ) ≤ ‖C i j‖) ∧ Spec.IsSymplectic C := by
  refine ⟨Spec.swap 1, ?_, ?_, ?_⟩
  · intro h; simpa [Spec.swap] using congrFun (congrFun h 0) 0
  · intro i j
    simp only [Spec.swap, of_apply]
    split_ifs
    · right; norm_num
    · left; rfl
  · rw [Spec.IsSymplectic, ← swapS_eq, swapS_transpose, mul_assoc, swapS_sq, mul_one]

/-! ## C31 build_H and build_V -/

/-- C31. The blocks of `build_H(n, A, B)` and `build_V(n, A, Z)`; a missing second matrix means zeros. -/
theorem C31_blocks (n : ℕ) (A B : Op n) :
    (Spec.block (buildH n A (some B)) 0 0 = -A.map conj ∧ Spec.block (buildH n A (some B)) 0 1 = B ∧
      Spec.block (buildH n A (some B)) 1 0 = -B.map conj ∧ Spec.block (buildH n A (some B)) 1 1 = A) ∧
    (Spec.block (buildV n A (some B)) 0 0 = -B.map conj ∧ Spec.block (buildV n A (some B)) 0 1 = A ∧
      Spec.block (buildV n A (some B)) 1 0 = -A.map conj ∧ Spec.block (buildV n A (some B)) 1 1 = B) ∧
    buildH n A none = buildH n A (some 0) ∧ buildV n A none = buildV n A (some 0) := by
  have h0 (M : Op (n + n)) (A B C D : Op n) (h : M = blk A B C D) :
      Spec.block M 0 0 = A ∧ Spec.block M 0 1 = B ∧ Spec.block M 1 0 = C ∧ Spec.block M 1 1 = D := by
    subst h
    have e0 (r : Fin n) (h) : (⟨(0 : Fin 2) * n + r, h⟩ : Fin (n + n)) = Fin.castAdd n r :=
      Fin.ext (by simp)
    have e1 (r : Fin n) (h) : (⟨(1 : Fin 2) * n + r, h⟩ : Fin (n + n)) = Fin.natAdd n r :=
      Fin.ext (by simp [add_comm])
    refine ⟨?_, ?_, ?_, ?_⟩ <;> ext i j <;> simp only [Spec.block, of_apply, e0, e1, blk_11, blk_12,
      blk_21, blk_22]
  exact ⟨h0 _ _ _ _ _ rfl, h0 _ _ _ _ _ rfl, rfl, rfl⟩

/-- C31. For Hermitian `A` and antisymmetric `B`, `build_H` is Hermitian and particle-hole symmetric, and
`build_V` is antisymmetric; in general `build_V = S build_H`. -/
theorem C31_structure (n : ℕ) (A B : Op n) (hA : A.IsHermitian) (hB : Bᵀ = -B) :
    (buildH n A (some B)).IsHermitian ∧
      Spec.swap n * (buildH n A (some B))ᵀ * Spec.swap n = - buildH n A (some B) ∧
      (buildV n A (some B))ᵀ = - buildV n A (some B) := by
  rw [← swapS_eq]
  have hph := buildH_ph A B hA hB
  refine ⟨buildH_herm A B hA hB, hph, ?_⟩
  rw [buildV_eq, transpose_mul, swapS_transpose]
  calc (buildH n A (some B))ᵀ * swapS n
      = swapS n * (swapS n * (buildH n A (some B))ᵀ * swapS n) := by
        rw [← mul_assoc, ← mul_assoc, swapS_sq, one_mul]
    _ = _ := by rw [hph, mul_neg]

/-- C31. `build_V = S build_H` for all arguments. -/
theorem C31_V_eq_SH (n : ℕ) (A : Op n) (B : Option (Op n)) :
    buildV n A B = Spec.swap n * buildH n A B := by
  rw [← swapS_eq]; exact buildV_eq A B

/-- Non-vacuity of C31: a Hermitian and an antisymmetric matrix, neither zero nor real. -/
example : ∃ A B : Op 2, A.IsHermitian ∧ Bᵀ = -B ∧ A 0 1 = Complex.I ∧ B 0 1 = Complex.I := by
  refine ⟨!![1, Complex.I; -Complex.I, 2], !![0, Complex.I; -Complex.I, 0], ?_, ?_, by simp, by simp⟩
  · ext i j; fin_cases i <;> fin_cases j <;> simp
  · ext i j; fin_cases i <;> fin_cases j <;> simp

/-! ## C32, C33 build_op -/

/-- C32. The V-form used directly and the H-form used with adjoints give the same operator, for all `A`
and `B`. -/
theorem C32_same_operator (n : ℕ) (A : Op n) (B : Option (Op n)) :
    buildOp n (buildV n A B) (jordanWignerAlphas n) true =
      buildOp n (buildH n A B) (jordanWignerAlphas n) false := by
  rcases Nat.eq_zero_or_pos n with rfl | hn
  · rfl
  · rw [jordanWignerAlphas_eq, buildOp_square_direct _ _ hn, buildOp_square _ _ hn, buildV_eq,
      dropSmall_swapS_mul, quadDirect_al]

/-- C32 (non-vacuity): for at least one site, both calls succeed. -/
theorem C32_defined (n : ℕ) (hn : 1 ≤ n) (A : Op n) (B : Option (Op n)) :
    ∃ op, buildOp n (buildH n A B) (jordanWignerAlphas n) false = .ok op := by
  rw [jordanWignerAlphas_eq, buildOp_square _ _ hn]; exact ⟨_, rfl⟩

/-- C33. `build_op(n, R, alphas) = Σ_ij R_ij α_i† α_j` over the first `2n` operators, entries of modulus
below `1e-10` being dropped. -/
theorem C33_build_op {d n : ℕ} (hn : 1 ≤ n) (R : Op (n + n)) (alphas : List (Op d))
    (f : Fin (n + n) → Op d) (hf : ∀ i : Fin (n + n), alphas[(i : ℕ)]? = some (f i)) :
    buildOp n R alphas false = .ok (Spec.quad (Spec.dropSmall 1e-10 R) f) ∧
      buildOp n R alphas true = .ok (Spec.quadDirect (Spec.dropSmall 1e-10 R) f) := by
  constructor <;> rw [buildOp_ok R alphas f hf le_rfl le_rfl hn] <;> rfl

/-- C33. If every entry is zero or of modulus at least `1e-10`, nothing is dropped. -/
theorem C33_exact {d n : ℕ} (hn : 1 ≤ n) (R : Op (n + n)) (f : Fin (n + n) → Op d)
    (hR : ∀ i j, R i j = 0 ∨ 1e-10 ≤ ‖R i j‖) :
    buildOp n R (List.ofFn f) false = .ok (∑ i, ∑ j, R i j • ((f i)ᴴ * f j)) := by
  rw [buildOp_square R f hn, dropSmall_id hR]; rfl

/-- C33. In general the error made by dropping entries is at most `1e-10` in each coefficient. -/
theorem C33_drop_error {m k : ℕ} (R : Matrix (Fin m) (Fin k) ℂ) (i : Fin m) (j : Fin k) :
    ‖R i j - Spec.dropSmall 1e-10 R i j‖ < 1e-10 := by
  rw [dropSmall_apply]
  split_ifs with h
  · simpa using h
  · simp; norm_num

/-- C33. A Hermitian coefficient matrix gives a Hermitian operator. -/
theorem C33_hermitian {d n : ℕ} (hn : 1 ≤ n) (R : Op (n + n)) (hR : R.IsHermitian) (f : Fin (n + n) → Op d) :
    ∃ op, buildOp n R (List.ofFn f) false = .ok op ∧ op.IsHermitian := by
  refine ⟨_, buildOp_square R f hn, ?_⟩
  rw [IsHermitian, lift_conjTranspose, dropSmall_conjTranspose, hR.eq]

/-- C33. An empty operator list raises `IndexError`. -/
theorem C33_empty {m k d n : ℕ} (R : Matrix (Fin m) (Fin k) ℂ) (direct : Bool) :
    buildOp n R ([] : List (Op d)) direct = .error .indexError := rfl

example : ∃ R : Op (1 + 1), R.IsHermitian ∧ R 0 1 = Complex.I := by
  refine ⟨!![1, Complex.I; -Complex.I, 2], ?_, by rfl⟩
  ext i j; fin_cases i <;> fin_cases j <;> simp

/-! ## C34 commutators -/

/-- C34. For `H = build_H(n, A, B)` with `A` Hermitian and `B` antisymmetric,
`[build_op(H), α_k] = -2 Σ_l H_kl α_l` (with the entries of `H` that `build_op` keeps). -/
theorem C34_linear (n : ℕ) (hn : 1 ≤ n) (A B : Op n) (hA : A.IsHermitian) (hB : Bᵀ = -B)
    (f : Fin (n + n) → Op (2 ^ n)) (hf : jordanWignerAlphas n = List.ofFn f) :
    ∃ op, buildOp n (buildH n A (some B)) (jordanWignerAlphas n) false = .ok op ∧
      ∀ k, op * f k - f k * op =
        (-2 : ℂ) • ∑ l, Spec.dropSmall 1e-10 (buildH n A (some B)) k l • f l := by
  rw [jordanWignerAlphas_eq] at hf
  obtain rfl := List.ofFn_injective hf
  rw [jordanWignerAlphas_eq]
  refine ⟨_, buildOp_square _ _ hn, fun k => ?_⟩
  have hph := drop_ph A B hA hB
  rw [lift_comm, hph, Finset.smul_sum]
  apply Finset.sum_congr rfl
  intro l _
  rw [smul_smul]
  congr 1
  simp only [Matrix.sub_apply, Matrix.neg_apply]; ring

/-- C34. Commutators of lifts are lifts of commutators, up to the factor 2. -/
theorem C34_commutator (n : ℕ) (hn : 1 ≤ n) (A B A' B' : Op n) (hA : A.IsHermitian) (hB : Bᵀ = -B)
    (f : Fin (n + n) → Op (2 ^ n)) (hf : jordanWignerAlphas n = List.ofFn f) :
    ∃ op op', buildOp n (buildH n A (some B)) (jordanWignerAlphas n) false = .ok op ∧
      buildOp n (buildH n A' (some B')) (jordanWignerAlphas n) false = .ok op' ∧
      let H := Spec.dropSmall 1e-10 (buildH n A (some B))
      let H' := Spec.dropSmall 1e-10 (buildH n A' (some B'))
      op * op' - op' * op = (2 : ℂ) • Spec.quad (H * H' - H' * H) f := by
  rw [jordanWignerAlphas_eq] at hf
  obtain rfl := List.ofFn_injective hf
  rw [jordanWignerAlphas_eq]
  refine ⟨_, _, buildOp_square _ _ hn, buildOp_square _ _ hn, ?_⟩
  have hph := drop_ph A B hA hB
  intro H H'
  rw [lift_lift_comm, hph, ← lift_smul]
  congr 1
  simp only [mul_sub, sub_mul, mul_neg, neg_mul, two_smul]
  abel

example : ∃ A B : Op 2, A.IsHermitian ∧ Bᵀ = -B ∧ (1e-10 : ℝ) ≤ ‖A 0 1‖ ∧ (1e-10 : ℝ) ≤ ‖B 0 1‖ := by
  refine ⟨!![1, Complex.I; -Complex.I, 2], !![0, 3; -3, 0], ?_, ?_, by norm_num, by norm_num⟩
  · ext i j; fin_cases i <;> fin_cases j <;> simp
  · ext i j; fin_cases i <;> fin_cases j <;> simp

/-! ## C35 conservation laws -/

/-- C35. Without pairing (`B = 0`), the operator commutes with the total number operator. -/
theorem C35_number (n : ℕ) (hn : 1 ≤ n) (A : Op n) (a : Fin n → Op (2 ^ n))
    (ha : jordanWignerLowering n = List.ofFn a) :
    ∃ op, buildOp n (buildH n A none) (jordanWignerAlphas n) false = .ok op ∧
      op * (∑ i, (a i)ᴴ * a i) = (∑ i, (a i)ᴴ * a i) * op := by
  rw [jordanWignerLowering_eq] at ha
  obtain rfl := List.ofFn_injective ha
  rw [jordanWignerAlphas_eq]
  refine ⟨_, buildOp_square _ _ hn, ?_⟩
  rw [number_quad, eq_comm, ← sub_eq_zero, lift_lift_comm, dropSmall_buildH]
  simp only [buildH, Option.getD_some, Option.getD_none, dropSmall_zero, swapS, blk_transpose, blk_mul,
    blk_sub, cj]
  rw [show blk _ _ _ _ = (0 : Op (n + n)) from ?_]
  · simp [Spec.quad]
  · rw [show (0 : Op (n + n)) = blk 0 0 0 0 by
      apply ext_halves <;> intro i j <;> simp [-Fin.natAdd_eq_addNat]]
    apply blk_congr <;> simp <;> ext <;> simp

/-- C35. The operator of every coefficient matrix commutes with fermion parity. -/
theorem C35_parity (n : ℕ) (hn : 1 ≤ n) (R : Op (n + n)) :
    ∃ op, buildOp n R (jordanWignerAlphas n) false = .ok op ∧
      op * Spec.parity n = Spec.parity n * op := by
  rw [jordanWignerAlphas_eq]
  refine ⟨_, buildOp_square _ _ hn, ?_⟩
  apply quad_commute
  · exact parity_al
  · intro i; rw [al_conjTranspose]; exact parity_al _

/-! ## C36 the Kitaev chain -/

/-- C36. For real parameters the coefficient matrix is Hermitian and particle-hole symmetric. -/
theorem C36_structure (n : ℕ) (mu t delta : ℝ) :
    (kitaevChain n mu t delta).IsHermitian ∧
      Spec.swap n * (kitaevChain n mu t delta)ᵀ * Spec.swap n = - kitaevChain n mu t delta := by
  rw [kitaev_eq]
  have hA : (tri n ((-mu : ℝ) : ℂ) ((-t : ℝ) : ℂ) ((-t : ℝ) : ℂ)).IsHermitian := by
    ext x y
    simp only [conjTranspose_apply, tri, of_apply, Fin.ext_iff, RCLike.star_def]
    split_ifs <;> first | omega | simp
  have hB : (tri n 0 (delta : ℂ) ((-delta : ℝ) : ℂ))ᵀ = - tri n 0 (delta : ℂ) ((-delta : ℝ) : ℂ) := by
    ext x y
    simp only [transpose_apply, Matrix.neg_apply, tri, of_apply, Fin.ext_iff]
    split_ifs <;> first | omega | simp
  obtain ⟨h1, h2, -⟩ := C31_structure n _ _ hA hB
  exact ⟨h1, h2⟩

/-- C36. The operator: `-mu (2 n_i - 1)` on every site; on every bond `i, i+1` hopping
`-2t (a_i† a_{i+1} + h.c.)` and pairing `2 delta (a_i a_{i+1} + h.c.)`, for parameters that are zero or at
least `1e-10` in modulus. -/
theorem C36_operator (n : ℕ) (hn : 1 ≤ n) (mu t delta : ℝ)
    (hmu : mu = 0 ∨ 1e-10 ≤ |mu|) (ht : t = 0 ∨ 1e-10 ≤ |t|) (hdelta : delta = 0 ∨ 1e-10 ≤ |delta|)
    (a : Fin n → Op (2 ^ n)) (ha : jordanWignerLowering n = List.ofFn a) :
    buildOp n (kitaevChain n mu t delta) (jordanWignerAlphas n) false = .ok (
      (∑ i, (-mu : ℂ) • ((2 : ℂ) • ((a i)ᴴ * a i) - 1)) +
      ∑ i : Fin n, if h : (i : ℕ) + 1 < n then
        (-2 * t : ℂ) • ((a i)ᴴ * a ⟨i + 1, h⟩ + (a ⟨i + 1, h⟩)ᴴ * a i) +
        (2 * delta : ℂ) • (a i * a ⟨i + 1, h⟩ + (a i * a ⟨i + 1, h⟩)ᴴ) else 0) := by
  rw [jordanWignerLowering_eq] at ha
  obtain rfl := List.ofFn_injective ha
  rw [jordanWignerAlphas_eq, buildOp_square _ _ hn, dropSmall_id, kitaev_quad]
  intro i j
  have hz (c : ℝ) (hc : c = 0 ∨ 1e-10 ≤ |c|) : (c : ℂ) = 0 ∨ (1e-10 : ℝ) ≤ ‖(c : ℂ)‖ := by
    rw [Complex.norm_real]; rcases hc with h | h
    · left; simp [h]
    · right; exact h
  have hneg (c : ℂ) (hc : c = 0 ∨ (1e-10 : ℝ) ≤ ‖c‖) : -c = 0 ∨ (1e-10 : ℝ) ≤ ‖-c‖ := by
    rw [neg_eq_zero, norm_neg]; exact hc
  have h1 := hz mu hmu
  have h2 := hz t ht
  have h3 := hz delta hdelta
  rw [kitaev_eq, buildH]
  refine Fin.addCases (fun i => ?_) (fun i => ?_) i <;>
    refine Fin.addCases (fun j => ?_) (fun j => ?_) j <;>
    simp only [Option.getD_some, blk_11, blk_12, blk_21, blk_22, Matrix.neg_apply, cj, map_apply, tri,
      of_apply] <;>
    split_ifs <;> (try simp only [Complex.ofReal_neg, map_neg, Complex.conj_ofReal, neg_neg, map_zero, neg_zero,
      true_or]) <;> try first | assumption | (apply hneg; assumption)

/-- Non-vacuity of C36_operator. -/
example : ((1 : ℝ) = 0 ∨ (1e-10 : ℝ) ≤ |1|) ∧ ((0.5 : ℝ) = 0 ∨ (1e-10 : ℝ) ≤ |0.5|) := by
  constructor <;> right <;> norm_num

end FF.Props
