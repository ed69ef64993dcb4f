import Verif.Proofs.Coefficients4
import Verif.Proofs.Utils
import Verif.Proofs.UtilsText

/-!
# Properties of the coefficient-matrix functions of `ff_lib.py` (C37 - C44)

`alphas = List.ofFn f` says that the Python list is `[f 0, f 1, …]`.
-/

namespace FF.Props

open Matrix
open scoped ComplexConjugate ComplexOrder

/-! ## C37 Omega and K -/

/-- C37. `build_Omega(n)` is unitary. -/
theorem C37_Omega_unitary (n : ℕ) : buildOmega n ∈ Matrix.unitaryGroup (Fin (n + n)) ℂ :=
  mem_unitaryGroup_iff'.2 (omega_unitary n)

/-- C37. The rows of `build_Omega(n)`: with the operators ordered `(a†, a)`, row `i` is `(a†_i + a_i)/√2`
and row `n + i` is `i (a†_i - a_i)/√2`. -/
theorem C37_Omega_rows (n : ℕ) (v : Fin (n + n) → ℂ) (i : Fin n) :
    (buildOmega n *ᵥ v) (Fin.castAdd n i) =
        (v (Fin.castAdd n i) + v (Fin.natAdd n i)) / (Real.sqrt 2 : ℝ) ∧
      (buildOmega n *ᵥ v) (Fin.natAdd n i) =
        Complex.I * (v (Fin.castAdd n i) - v (Fin.natAdd n i)) / (Real.sqrt 2 : ℝ) := by
  constructor <;>
    simp only [mulVec, dotProduct, Fin.sum_univ_add, buildOmega, blk_11, blk_12, blk_21, blk_22,
      Matrix.smul_apply, Matrix.one_apply, smul_eq_mul, mul_ite, mul_one, mul_zero, ite_mul, zero_mul,
      Finset.sum_ite_eq, Finset.mem_univ, if_true, nu] <;>
    push_cast <;> ring

/-- C37. `build_K(n) = Omega^dag P Omega` with `P` the reordering matrix. -/
theorem C37_K (n : ℕ) : buildK n = (buildOmega n)ᴴ * buildReordering n * buildOmega n := buildK_eq n

/-- C37. `build_K(n)` is unitary and symplectic. -/
theorem C37_K_unitary_symplectic (n : ℕ) :
    buildK n ∈ Matrix.unitaryGroup (Fin (n + n)) ℂ ∧ Spec.IsSymplectic (buildK n) := by
  constructor
  · rw [buildK_eq]
    refine mul_mem (mul_mem ?_ ?_) (C37_Omega_unitary n)
    · exact mem_unitaryGroup_iff'.2 (by
        rw [star_eq_conjTranspose, conjTranspose_conjTranspose]; exact omega_unitary' n)
    · exact mem_unitaryGroup_iff.2 (by
        rw [star_eq_conjTranspose, reordering_real]; exact reordering_mul_transpose n)
  · rw [buildK_eq]
    exact omega_conj_symp _ (reordering_mul_transpose n)

/-- C37. More generally `Omega^dag O Omega` is unitary and symplectic for every real orthogonal `O`. -/
theorem C37_orthogonal (n : ℕ) (O : Matrix (Fin (n + n)) (Fin (n + n)) ℝ) (hO : O * Oᵀ = 1) :
    let U := (buildOmega n)ᴴ * O.map Complex.ofReal * buildOmega n
    U ∈ Matrix.unitaryGroup (Fin (n + n)) ℂ ∧ Spec.IsSymplectic U := by
  have h1 : O.map Complex.ofReal * (O.map Complex.ofReal)ᵀ = 1 := by
    have e : O.map Complex.ofReal = O.map Complex.ofRealHom := rfl
    rw [← transpose_map, e, show Oᵀ.map Complex.ofReal = Oᵀ.map Complex.ofRealHom from rfl,
      ← Matrix.map_mul, hO]; simp
  have h2 : (O.map Complex.ofReal)ᴴ = (O.map Complex.ofReal)ᵀ := by ext i j; simp
  refine ⟨mul_mem (mul_mem ?_ ?_) (C37_Omega_unitary n), omega_conj_symp _ h1⟩
  · exact mem_unitaryGroup_iff'.2 (by
      rw [star_eq_conjTranspose, conjTranspose_conjTranspose]; exact omega_unitary' n)
  · exact mem_unitaryGroup_iff.2 (by rw [star_eq_conjTranspose, h2, h1])

example : (!![3/5, 4/5; -4/5, 3/5] : Matrix (Fin (1 + 1)) (Fin (1 + 1)) ℝ) * (!![3/5, 4/5; -4/5, 3/5])ᵀ = 1 := by
  ext i j; fin_cases i <;> fin_cases j <;> norm_num [mul_apply, Fin.sum_univ_two]

/-! ## C38 the reordering matrix -/

/-- C38. For every row vector `v = [x…, p…]`, `v P = [x_0, p_0, x_1, p_1, …]`. -/
theorem C38_interleaves (n : ℕ) (x p : Fin n → ℂ) (i : Fin n) :
    (Fin.append x p ᵥ* buildReordering n) ⟨2 * i, by omega⟩ = x i ∧
      (Fin.append x p ᵥ* buildReordering n) ⟨2 * i + 1, by omega⟩ = p i := by
  have h (k : Fin (n + n)) : (Fin.append x p ᵥ* buildReordering n) (reord n k) = Fin.append x p k := by
    simp only [vecMul, dotProduct, reordering_apply, (reord_injective n).eq_iff, mul_ite, mul_one, mul_zero,
      Finset.sum_ite_eq, Finset.mem_univ, if_true]
  refine ⟨?_, ?_⟩
  · have := h (Fin.castAdd n i); rwa [reord_left, Fin.append_left] at this
  · have := h (Fin.natAdd n i); rwa [reord_right, Fin.append_right] at this

/-- C38. `P` is a permutation matrix and `P^T` undoes it. -/
theorem C38_permutation (n : ℕ) :
    (∃ σ : Equiv.Perm (Fin (n + n)), ∀ i j, buildReordering n i j = if j = σ i then 1 else 0) ∧
      buildReordering n * (buildReordering n)ᵀ = 1 ∧ (buildReordering n)ᵀ * buildReordering n = 1 ∧
      ∀ v : Fin (n + n) → ℂ, (v ᵥ* buildReordering n) ᵥ* (buildReordering n)ᵀ = v := by
  refine ⟨⟨Equiv.ofBijective _ (Finite.injective_iff_bijective.1 (reord_injective n)),
    fun i j => reordering_apply n i j⟩, reordering_mul_transpose n,
    mul_eq_one_comm.1 (reordering_mul_transpose n), fun v => ?_⟩
  rw [vecMul_vecMul, reordering_mul_transpose, vecMul_one]

/-! ## C39 is_symp -/

/-- C39. `is_symp(U)` is true exactly if `U S U^T` agrees with `S` within the tolerance of `np.allclose`,
whether or not `U` has the canonical block form. -/
theorem C39_decides {n : ℕ} (U : Op (n + n)) :
    isSymp U = true ↔ ∀ i j, ‖(U * Spec.swap n * Uᵀ) i j - Spec.swap n i j‖ ≤
      1e-8 + 1e-5 * ‖Spec.swap n i j‖ := by
  rw [← swapS_eq]
  simp only [isSymp]
  split_ifs <;> simp_all [allclose, isclose]

/-- C39. Exactly symplectic matrices are accepted, also when they are not in the canonical form. -/
theorem C39_exact {n : ℕ} (U : Op (n + n)) (h : Spec.IsSymplectic U) : isSymp U = true := by
  rw [C39_decides, h]
  intro i j
  rw [sub_self, norm_zero]
  positivity

/-- C39. Symplectic matrices are closed under product, transpose and inverse (and are invertible). -/
theorem C39_group {n : ℕ} (U V : Op (n + n)) (hU : Spec.IsSymplectic U) (hV : Spec.IsSymplectic V) :
    isSymp (U * V) = true ∧ isSymp Uᵀ = true ∧ IsUnit U.det ∧ isSymp U⁻¹ = true ∧
      isSymp (1 : Op (n + n)) = true :=
  ⟨C39_exact _ (symp_mul hU hV), C39_exact _ (symp_transpose hU), (symp_inv hU).1,
    C39_exact _ (symp_inv hU).2, C39_exact _ (symp_one n)⟩

/-- C39. A matrix far from symplectic is rejected. -/
theorem C39_rejects {n : ℕ} (U : Op (n + n)) (i j : Fin (n + n))
    (h : 1e-4 < ‖(U * Spec.swap n * Uᵀ) i j - Spec.swap n i j‖) : isSymp U = false := by
  rw [Bool.eq_false_iff, ne_eq, C39_decides]
  intro hc
  have h1 := hc i j
  have h2 : ‖Spec.swap n i j‖ ≤ 1 := by
    simp only [Spec.swap, of_apply]; split_ifs <;> simp
  norm_num at h h1 h2 ⊢
  linarith

/-- A symplectic matrix that is neither unitary nor in canonical form. -/
example : Spec.IsSymplectic (n := 1) (!![2, 0; 0, 1/2] : Op 2) := by
  unfold Spec.IsSymplectic
  have hs : Spec.swap 1 = (!![0, 1; 1, 0] : Op 2) := by
    ext i j; fin_cases i <;> fin_cases j <;> simp [Spec.swap]
  change (!![2, 0; 0, 1/2] : Op 2) * (Spec.swap 1 : Op 2) * (!![2, 0; 0, 1/2] : Op 2)ᵀ = _
  rw [hs]
  ext i j; fin_cases i <;> fin_cases j <;> norm_num [mul_apply, Fin.sum_univ_two]

example : 1e-4 < ‖((2 : Op (1 + 1)) * Spec.swap 1 * (2 : Op (1 + 1))ᵀ) 0 1 - Spec.swap 1 0 1‖ := by
  have : (2 : Op (1 + 1)) = (2 : ℂ) • 1 := by ext i j; simp [Matrix.ofNat_apply, Matrix.one_apply]
  rw [this]
  simp [Spec.swap]
  norm_num

/-! ## C40 check_canonical_form -/

/-- C40. For every array, the result is true exactly if the array is square of even dimension, real,
skew-symmetric and zero outside the off-diagonal entries of the 2 x 2 diagonal blocks, the last three
within the tolerance of `np.allclose`. -/
theorem C40_decides {m k : ℕ} (L : Matrix (Fin m) (Fin k) ℂ) :
    checkCanonicalForm L = true ↔ ∃ (h : k = m), Even m ∧
      (let M : Op m := L.submatrix id (Fin.cast h.symm)
       (∀ i j, isclose (M i j) (conj (M i j))) ∧ (∀ i j, isclose (M i j) (-M j i)) ∧
       ∀ i j : Fin m, ((i : ℕ) / 2 ≠ (j : ℕ) / 2 ∨ i = j) → isclose 0 (M i j)) := by
  classical
  rw [checkCanonicalForm]
  by_cases hm : m % 2 ≠ 0
  · rw [if_pos hm]
    constructor
    · intro h; cases h
    · rintro ⟨_, h, _⟩; exact absurd (Nat.even_iff.1 h) hm
  rw [if_neg hm]
  by_cases hk : k ≠ m
  · rw [dif_pos hk]
    constructor
    · intro h; cases h
    · rintro ⟨h, _⟩; exact absurd h hk
  rw [dif_neg hk]
  have hk' := not_not.1 hk
  subst hk'
  rw [not_not] at hm
  have hev : Even k := Nat.even_iff.2 hm
  simp only [Fin.cast_refl, exists_true_left, hev, true_and]
  have hs : L.submatrix id id = L := rfl
  have key : ∀ (p q r : Prop) [Decidable (¬ p ∨ ¬ q)] [Decidable (¬ r)],
      ((if ¬ p ∨ ¬ q then false else if ¬ r then false else true) = true) ↔ p ∧ q ∧ r := by
    intro p q r _ _
    by_cases hp : p <;> by_cases hq : q <;> by_cases hr : r <;> simp [hp, hq, hr]
  change (if ¬ allclose L (cj L) ∨ ¬ allclose L (-L.transpose) then false
    else if ¬ allclose (canonicalCopy L (k / 2)) L then false else true) = true ↔ _
  have hcopy : allclose (canonicalCopy L (k / 2)) L ↔
      ∀ i j : Fin k, ((i : ℕ) / 2 ≠ (j : ℕ) / 2 ∨ i = j) → isclose 0 (L i j) := by
    rw [allclose]
    refine forall_congr' fun i => forall_congr' fun j => ?_
    rw [canonicalCopy_apply L (k / 2) (by omega)]
    by_cases h : (i : ℕ) / 2 = (j : ℕ) / 2 ∧ i ≠ j
    · rw [if_pos h]
      constructor
      · intro _ h'; exact absurd h (by rw [not_and_or, not_not]; exact h')
      · intro _; exact isclose_self _
    · rw [if_neg h]
      rw [not_and_or, not_not] at h
      exact ⟨fun h' _ => h', fun h' => h' h⟩
  have h1 : allclose L (cj L) ↔ ∀ i j, isclose (L i j) (conj (L i j)) := Iff.rfl
  have h2 : allclose L (-L.transpose) ↔ ∀ i j, isclose (L i j) (-L j i) := Iff.rfl
  change _ ↔ (∀ i j, isclose (L i j) (conj (L i j))) ∧ (∀ i j, isclose (L i j) (-L j i)) ∧ _
  rw [← h1, ← h2]
  refine (key _ _ _).trans (and_congr_right fun _ => and_congr_right fun _ => hcopy)

/-- C40. For square arrays of even size. -/
theorem C40_square {n : ℕ} (L : Op (2 * n)) :
    checkCanonicalForm L = true ↔
      (∀ i j, isclose (L i j) (conj (L i j))) ∧ (∀ i j, isclose (L i j) (-L j i)) ∧
       ∀ i j : Fin (2 * n), ((i : ℕ) / 2 ≠ (j : ℕ) / 2 ∨ i = j) → isclose 0 (L i j) := by
  rw [C40_decides]
  exact ⟨fun ⟨_, _, h⟩ => h, fun h => ⟨rfl, even_two_mul n, h⟩⟩

/-- C40. The exact canonical form `⊕ [[0, λ_k], [-λ_k, 0]]` is accepted, for every real `λ`. -/
theorem C40_exact {n : ℕ} (lam : Fin n → ℝ) :
    checkCanonicalForm (Matrix.of fun i j : Fin (2 * n) =>
      if (i : ℕ) / 2 = (j : ℕ) / 2 then
        (if (i : ℕ) < j then (lam ⟨(i : ℕ) / 2, by omega⟩ : ℂ)
         else if (j : ℕ) < i then -(lam ⟨(j : ℕ) / 2, by omega⟩ : ℂ) else 0)
      else 0) = true := by
  rw [C40_square]
  refine ⟨?_, ?_, ?_⟩
  · intro i j
    simp only [of_apply]
    split_ifs <;> simp [isclose_self]
  · intro i j
    simp only [of_apply]
    by_cases h : (i : ℕ) / 2 = (j : ℕ) / 2
    · simp only [h, if_true]
      rcases lt_trichotomy (i : ℕ) j with h1 | h1 | h1
      · simp [h1, h1.not_gt, isclose_self]
      · simp [h1, isclose_self]
      · simp [h1, h1.not_gt, isclose_self]
    · rw [if_neg h, if_neg (fun e => h e.symm), neg_zero]; exact isclose_self _
  · intro i j h
    simp only [of_apply]
    rcases h with h | rfl
    · rw [if_neg h]; exact isclose_self _
    · simp [isclose_self]

/-- C40. Not every array is accepted: the identity is not in canonical form. -/
example : checkCanonicalForm (1 : Op 2) = false := by
  rw [Bool.eq_false_iff, ne_eq, C40_decides]
  rintro ⟨_, _, _, _, h⟩
  have := h 0 0 (Or.inr rfl)
  norm_num [isclose] at this

/-! ## C41 Gaussian states -/

/-- C41 (proved part). For `n ≥ 3`, every Hermitian coefficient matrix `H` and every list of `2n`
operators, the result is `exp(-build_op(H))/trace`, a Hermitian positive definite matrix of trace one.
What is missing: `n = 2` (see `C41_violation`) and `n = 1` with `H` not of the form `build_H`. -/
theorem C41_coefficients_partial (n : ℕ) (hn : 3 ≤ n) (H : Op (n + n)) (hH : H.IsHermitian)
    (f : Fin (n + n) → Op (2 ^ n)) :
    ∃ Q rho, buildOp n H (List.ofFn f) false = .ok Q ∧
      generateGaussianState n H (some (List.ofFn f)) = .ok (some rho) ∧
      rho = (expm (-Q)).trace⁻¹ • expm (-Q) ∧ rho.PosDef ∧ rho.trace = 1 := by
  have hne : ¬ n + n = 2 ^ n := by
    have h : ∀ k, 3 ≤ k → k + k < 2 ^ k := by
      intro k hk
      induction k, hk using Nat.le_induction with
      | base => norm_num
      | succ k hk ih => rw [pow_succ]; omega
    exact (h n hn).ne
  have hq := quad_herm (drop_herm hH 1e-10) f
  obtain ⟨h1, h2⟩ := gibbs_ok (Nat.pos_of_ne_zero (by positivity)) hq
  refine ⟨_, _, buildOp_square H f (by omega), ?_, rfl, h1, h2⟩
  exact ggs_coeff hne (buildOp_square H f (by omega))

/-- C41. Without a list of operators the Jordan-Wigner operators are used. -/
theorem C41_default (n h : ℕ) (H : Op h) :
    generateGaussianState n H none = generateGaussianState n H (some (jordanWignerAlphas n)) := rfl

/-- C41. An operator of dimension `2^n` is used as it is (for `n ≥ 3`, when it cannot be mistaken for a
coefficient matrix). -/
theorem C41_operator (n : ℕ) (hn : 3 ≤ n) (Q : Op (2 ^ n)) (hQ : Q.IsHermitian)
    (alphas : List (Op (2 ^ n))) :
    ∃ rho, generateGaussianState n Q (some alphas) = .ok (some rho) ∧
      rho = (expm (-Q)).trace⁻¹ • expm (-Q) ∧ rho.PosDef ∧ rho.trace = 1 := by
  obtain ⟨h1, h2⟩ := gibbs_ok (Nat.pos_of_ne_zero (by positivity)) hQ
  refine ⟨_, ggs_op rfl Q ?_, rfl, h1, h2⟩
  intro h
  exfalso
  have h : ∀ k, 3 ≤ k → 2 * k < 2 ^ k := by
    intro k hk
    induction k, hk using Nat.le_induction with
    | base => norm_num
    | succ k hk ih => rw [pow_succ]; omega
  have := h n hn
  omega

example : ((2 : ℂ) • (1 : Op (3 + 3))).IsHermitian := by
  rw [IsHermitian, conjTranspose_smul, conjTranspose_one]; simp

/-- C41. A matrix of any other size gives the number 0. -/
theorem C41_other (n h : ℕ) (H : Op h) (alphas : Option (List (Op (2 ^ n)))) (h1 : h ≠ 2 * n)
    (h2 : h ≠ 2 ^ n) : generateGaussianState n H alphas = .ok none := by
  rw [generateGaussianState]
  simp only [if_neg h1, dif_neg h2]
  rfl

/-- C41 (proved part). For one site the matrices `build_H(1, A)` are covered as well (entries of modulus
below `1e-10` would be dropped by `build_op`). -/
theorem C41_one_site_partial (a : ℝ) (ha : 1e-10 ≤ |a|) :
    ∃ Q rho, buildOp 1 (buildH 1 (Matrix.of fun _ _ => (a : ℂ)) none) (jordanWignerAlphas 1) false = .ok Q ∧
      generateGaussianState 1 (buildH 1 (Matrix.of fun _ _ => (a : ℂ)) none) none = .ok (some rho) ∧
      rho = (expm (-Q)).trace⁻¹ • expm (-Q) ∧ rho.PosDef ∧ rho.trace = 1 := by
  set H := buildH 1 (Matrix.of fun _ _ => (a : ℂ)) none with hHdef
  have hH : H.IsHermitian :=
    buildH_herm (n := 1) (Matrix.of fun _ _ => (a : ℂ)) 0 (by ext i j; simp) (by simp)
  have hb : buildOp 1 H (List.ofFn (al 1)) false = .ok _ := buildOp_square H (al 1) le_rfl
  have hdrop : Spec.dropSmall 1e-10 H = H := by
    apply dropSmall_id
    intro i j
    refine Fin.addCases (fun i => ?_) (fun i => ?_) i <;>
      refine Fin.addCases (fun j => ?_) (fun j => ?_) j <;>
      simp [hHdef, buildH, blk_11, blk_12, blk_21, blk_22, cj, ha, -Fin.natAdd_eq_addNat]
  rw [hdrop] at hb
  obtain ⟨h1, h2⟩ := gibbs_ok (d := 2 ^ 1) (by norm_num) (quad_herm hH (al 1))
  rw [C41_default, jordanWignerAlphas_eq]
  refine ⟨_, _, hb, ?_, rfl, h1, h2⟩
  have hq : Spec.quad H (al 1) = castOp (by norm_num) H := by
    have e : (jwLower 1 0)ᴴ * jwLower 1 0 = _ := number_diag (n := 1) 0
    have e2 : jwLower 1 0 * (jwLower 1 0)ᴴ + (jwLower 1 0)ᴴ * jwLower 1 0 = _ := car_mixed (n := 1) 0 0
    rw [if_pos rfl] at e2
    have e3 : jwLower 1 0 * (jwLower 1 0)ᴴ = 1 - (jwLower 1 0)ᴴ * jwLower 1 0 := by
      rw [← e2]; abel
    simp only [Spec.quad, Fin.sum_univ_add, Finset.univ_unique, Fin.default_eq_zero, Finset.sum_singleton,
      al_left, al_right, conjTranspose_conjTranspose]
    simp only [hHdef, buildH, blk_11, blk_12, blk_21, blk_22, cj, of_apply, Matrix.neg_apply, map_apply,
      Option.getD_none, Matrix.zero_apply, zero_smul, add_zero, zero_add, neg_zero, Complex.conj_ofReal,
      map_zero]
    change (-(a : ℂ)) • (jwLower 1 0 * (jwLower 1 0)ᴴ) + (a : ℂ) • ((jwLower 1 0)ᴴ * jwLower 1 0) = _
    rw [e3, e]
    ext i j
    fin_cases i <;> fin_cases j <;>
      simp [castOp, Spec.digit, blk_one']
  rw [hq]
  exact ggs_op _ H (fun _ => ⟨_, hb⟩)

/-- C41 is violated for two sites: `2n = 2^n`, and a coefficient matrix is taken for an operator. For
`H = build_H(2, A)` with `A = [[0, 1], [1, 0]]` the returned state is not `exp(-build_op(H))/trace`. -/
theorem C41_violation :
    ∃ A : Op 2, A.IsHermitian ∧ ∃ Q rho, buildOp 2 (buildH 2 A none) (jordanWignerAlphas 2) false = .ok Q ∧
      generateGaussianState 2 (buildH 2 A none) none = .ok (some rho) ∧
      rho ≠ (expm (-Q)).trace⁻¹ • expm (-Q) := by
  refine ⟨!![0, 1; 1, 0], by ext i j; fin_cases i <;> fin_cases j <;> simp, ?_⟩
  set H := buildH 2 !![0, 1; 1, 0] none with hHdef
  rw [C41_default, jordanWignerAlphas_eq]
  have hb : buildOp 2 H (List.ofFn (al 2)) false = .ok _ := buildOp_square H (al 2) (by norm_num)
  refine ⟨_, _, hb, ggs_op (n := 2) (by norm_num) H (fun _ => ⟨_, hb⟩), ?_⟩
  intro h
  set Q := Spec.quad (Spec.dropSmall 1e-10 H) (al 2)
  set G : Op (2 ^ 2) := castOp (by norm_num) H with hG
  -- the second matrix commutes with parity, so its (0, 1) entry vanishes
  have hpar : Q * Spec.parity 2 = Spec.parity 2 * Q := by
    apply quad_commute
    · exact parity_al
    · intro i; rw [al_conjTranspose]; exact parity_al _
  have h01 : expm (-Q) 0 1 = 0 := by
    have hc := expm_comm (M := -Q) (P := Spec.parity 2) (by rw [Matrix.neg_mul, Matrix.mul_neg, hpar])
    have h0 := congrFun (congrFun hc 0) 1
    rw [Spec.parity, mul_diagonal, diagonal_mul] at h0
    have d0 : (∑ i : Fin 2, (Spec.digit 2 2 ((0 : Fin (2 ^ 2)) : ℕ) i : ℕ)) = 0 := by decide
    have d1 : (∑ i : Fin 2, (Spec.digit 2 2 ((1 : Fin (2 ^ 2)) : ℕ) i : ℕ)) = 1 := by decide
    rw [d0, d1] at h0
    simp only [pow_one, pow_zero, one_mul] at h0
    linear_combination (-1 / 2 : ℂ) * h0
  have h2 := congrFun (congrFun h 0) 1
  rw [Matrix.smul_apply, Matrix.smul_apply, h01, smul_zero, smul_eq_mul, mul_eq_zero, inv_eq_zero] at h2
  have hherm : G.IsHermitian := by
    have h0 : H.IsHermitian := buildH_herm (n := 2) !![0, 1; 1, 0] 0
      (by ext i j; fin_cases i <;> fin_cases j <;> simp) (by simp)
    rw [hG, IsHermitian, castOp, conjTranspose_submatrix, h0.eq]
  haveI : Nonempty (Fin (2 ^ 2)) := ⟨0⟩
  have ht : npTrace (expm (-G)) ≠ 0 := by
    rw [npTrace_eq]; exact (expm_posDef hherm.neg).trace_pos.ne'
  have h3 := h2.resolve_left ht
  -- but the (0, 1) entry of exp(-H) is sinh 1
  have hv : expm (-G) *ᵥ ![1, 1, 0, 0] = Complex.exp 1 • ![1, 1, 0, 0] := by
    apply expm_eigenvector
    funext i
    fin_cases i <;> simp [hG, hHdef, buildH, blk_two, cj, castOp, mulVec, dotProduct, Fin.sum_univ_succ]
  have hw : expm (-G) *ᵥ ![1, -1, 0, 0] = Complex.exp (-1) • ![1, -1, 0, 0] := by
    apply expm_eigenvector
    funext i
    fin_cases i <;> simp [hG, hHdef, buildH, blk_two, cj, castOp, mulVec, dotProduct, Fin.sum_univ_succ]
  have hv0 := congrFun hv 0
  have hw0 := congrFun hw 0
  simp [mulVec, dotProduct, Fin.sum_univ_succ, h3] at hv0 hw0
  have h4 : Complex.exp 1 = Complex.exp (-1) := by rw [← hv0, ← hw0]
  have h5 : Real.exp 1 = Real.exp (-1) := by
    have := congrArg Complex.re h4
    rw [← Complex.ofReal_one, ← Complex.ofReal_neg] at this
    simpa only [Complex.exp_ofReal_re] using this
  have := Real.exp_injective h5
  norm_num at this

/-! ## C42 covariance matrices -/

/-- C42 (proved part). For every matrix, number of sites and list of `2n` operators, the result is
`Gamma - Gamma^T` with `Gamma = compute_2corr_matrix(rho, n, alphas)`, and it is antisymmetric.
What is missing: leaving out `n_sites` (see `C42_violation`). -/
theorem C42_antisymmetric_partial {d n : ℕ} (rho : Op d) (f : Fin (n + n) → Op d) :
    ∃ G Gam, computeCovMatrix rho (some n) (List.ofFn f) = .ok ⟨n, G⟩ ∧
      compute2Corr rho n (List.ofFn f) none = .ok Gam ∧ G = Gam - Gamᵀ ∧ Gᵀ = -G ∧
      ∀ i j, G i j = (rho * (f i * f j - f j * f i)).trace := by
  refine ⟨Matrix.of fun i j => (rho * f i * f j).trace - (rho * f j * f i).trace,
    Matrix.of fun i j => (rho * f i * f j).trace, ?_, ?_, ?_, ?_, ?_⟩
  · have : fillArray n _ = .ok (Matrix.of fun i j => (rho * f i * f j).trace - (rho * f j * f i).trace) :=
      fillArray_ok (f := fun i j => do
        let ai ← listGet (List.ofFn f) i
        let aj ← listGet (List.ofFn f) j
        pure (npTrace (rho * ai * aj) - npTrace (rho * aj * ai))) fun i j => by
          rw [listGet_ofFn f i i.2, listGet_ofFn f j j.2]; rfl
    rw [computeCovMatrix, this]
    rfl
  · exact fillArray_ok fun i j => by
      rw [listGet_ofFn f i i.2, listGet_ofFn f j j.2]; rfl
  · ext i j; rfl
  · ext i j; simp
  · intro i j
    rw [mul_sub, trace_sub, ← mul_assoc, ← mul_assoc]; rfl

/-- C42 (proved part). For the Jordan-Wigner operators the covariance matrix is `2 Gamma - S Tr(rho)`. -/
theorem C42_jordan_wigner_partial {n : ℕ} (rho : Op (2 ^ n)) :
    ∃ G Gam, computeCovMatrix rho (some n) (jordanWignerAlphas n) = .ok ⟨n, G⟩ ∧
      compute2Corr rho n (jordanWignerAlphas n) none = .ok Gam ∧
      G = (2 : ℂ) • Gam - rho.trace • Spec.swap n := by
  rw [jordanWignerAlphas_eq]
  obtain ⟨G, Gam, h1, h2, h3, -, h5⟩ := C42_antisymmetric_partial rho (al n)
  refine ⟨G, Gam, h1, h2, ?_⟩
  have hGam : Gam = Matrix.of fun i j => (rho * al n i * al n j).trace := by
    have : compute2Corr rho n (List.ofFn (al n)) none =
        .ok (Matrix.of fun i j => (rho * al n i * al n j).trace) := fillArray_ok fun i j => by
      rw [listGet_ofFn _ i i.2, listGet_ofFn _ j j.2]; rfl
    rw [this] at h2
    exact (Except.ok.inj h2).symm
  ext i j
  have := trace_al rho i j
  rw [h3, hGam, ← swapS_eq]
  simp only [Matrix.sub_apply, Matrix.smul_apply, of_apply, transpose_apply, smul_eq_mul]
  linear_combination -this

/-- C42 is violated when `n_sites` is left out: the call raises for every matrix and list. -/
theorem C42_violation {d : ℕ} (rho : Op d) (alphas : List (Op d)) :
    computeCovMatrix rho none alphas = .error .typeError := rfl

/-! ## C43 two-point correlation matrices -/

/-- C43. The entries: `Gamma_ij = Tr(rho f_i f_j)`, `P_ij = Tr(rho f_i f_j^dag)` for a non-negative
`conjugation` and `eta_ij = Tr(rho f_i^dag f_j)` for a negative one. -/
theorem C43_entries {d n : ℕ} (rho : Op d) (f : Fin (n + n) → Op d) (c : ℤ) :
    compute2Corr rho n (List.ofFn f) none = .ok (Matrix.of fun i j => (rho * f i * f j).trace) ∧
    compute2Corr rho n (List.ofFn f) (some c) =
      .ok (Matrix.of fun i j => if c < 0 then (rho * (f i)ᴴ * f j).trace else (rho * f i * (f j)ᴴ).trace) := by
  constructor
  · exact fillArray_ok fun i j => by
      rw [listGet_ofFn f i i.2, listGet_ofFn f j j.2]; rfl
  · exact fillArray_ok fun i j => by
      rw [listGet_ofFn f i i.2, listGet_ofFn f j j.2]
      simp only [of_apply]
      change (if c < 0 then _ else _) = _
      split_ifs <;> rfl

/-- C43. For the Jordan-Wigner operators `Gamma + Gamma^T = Tr(rho) S`, `P = Gamma S` (a swap of the column
halves) and `eta = S Gamma` (a swap of the row halves). -/
theorem C43_relations {n : ℕ} (rho : Op (2 ^ n)) (Gam P eta : Op (n + n))
    (h0 : compute2Corr rho n (jordanWignerAlphas n) none = .ok Gam)
    (h1 : compute2Corr rho n (jordanWignerAlphas n) (some 1) = .ok P)
    (h2 : compute2Corr rho n (jordanWignerAlphas n) (some (-1)) = .ok eta) :
    Gam + Gamᵀ = rho.trace • Spec.swap n ∧ P = Gam * Spec.swap n ∧ eta = Spec.swap n * Gam ∧
      eta + Pᵀ = rho.trace • 1 := by
  rw [jordanWignerAlphas_eq] at h0 h1 h2
  rw [(C43_entries rho (al n) 1).1] at h0
  rw [(C43_entries rho (al n) 1).2] at h1
  rw [(C43_entries rho (al n) (-1)).2] at h2
  obtain rfl := Except.ok.inj h0
  obtain rfl := Except.ok.inj h1
  obtain rfl := Except.ok.inj h2
  rw [← swapS_eq]
  have hG : (Matrix.of fun i j => (rho * al n i * al n j).trace : Op (n + n)) +
      (Matrix.of fun i j => (rho * al n i * al n j).trace : Op (n + n))ᵀ = rho.trace • swapS n := by
    ext i j
    simp only [Matrix.add_apply, transpose_apply, of_apply, Matrix.smul_apply, smul_eq_mul, trace_al]
  have hP : (Matrix.of fun i j => if (1 : ℤ) < 0 then (rho * (al n i)ᴴ * al n j).trace else
      (rho * al n i * (al n j)ᴴ).trace : Op (n + n)) =
      (Matrix.of fun i j => (rho * al n i * al n j).trace : Op (n + n)) * swapS n := by
    ext i j
    rw [mul_swapS]
    simp [al_conjTranspose]
  have hE : (Matrix.of fun i j => if (-1 : ℤ) < 0 then (rho * (al n i)ᴴ * al n j).trace else
      (rho * al n i * (al n j)ᴴ).trace : Op (n + n)) =
      swapS n * (Matrix.of fun i j => (rho * al n i * al n j).trace : Op (n + n)) := by
    ext i j
    rw [swapS_mul]
    simp [al_conjTranspose]
  refine ⟨hG, hP, hE, ?_⟩
  rw [hP, hE, transpose_mul, swapS_transpose, ← mul_add, hG, Matrix.mul_smul, swapS_sq]

/-- The hypotheses of `C43_relations` and `C43_state` hold for every matrix: the calls never raise. -/
example {n : ℕ} (rho : Op (2 ^ n)) (c : ℤ) : ∃ G, compute2Corr rho n (jordanWignerAlphas n) (some c) = .ok G := by
  rw [jordanWignerAlphas_eq]; exact ⟨_, (C43_entries rho (al n) c).2⟩

/-- C43. For a state `rho`, the matrices `P` and `eta` are Hermitian with `0 ≤ eta ≤ 1` and `0 ≤ P ≤ 1`;
the diagonal of the lower right block of `eta` contains the occupation probabilities of the sites. -/
theorem C43_state {n : ℕ} (rho : Op (2 ^ n)) (hrho : Spec.IsDensity rho) (P eta : Op (n + n))
    (h1 : compute2Corr rho n (jordanWignerAlphas n) (some 1) = .ok P)
    (h2 : compute2Corr rho n (jordanWignerAlphas n) (some (-1)) = .ok eta) :
    eta.PosSemidef ∧ (1 - eta).PosSemidef ∧ P.PosSemidef ∧ (1 - P).PosSemidef ∧
      (∀ i : Fin n, eta (Fin.natAdd n i) (Fin.natAdd n i) =
        ∑ x : Fin (2 ^ n), ((Spec.digit 2 n x i : ℕ) : ℂ) * rho x x) ∧
      ∀ i : Fin n, eta (Fin.castAdd n i) (Fin.castAdd n i) =
        1 - ∑ x : Fin (2 ^ n), ((Spec.digit 2 n x i : ℕ) : ℂ) * rho x x := by
  obtain ⟨Gam, h0⟩ : ∃ Gam, compute2Corr rho n (jordanWignerAlphas n) none = .ok Gam := by
    rw [jordanWignerAlphas_eq]; exact ⟨_, (C43_entries rho (al n) 1).1⟩
  obtain ⟨-, -, -, hsum⟩ := C43_relations rho Gam P eta h0 h1 h2
  rw [hrho.trace_one, one_smul] at hsum
  rw [jordanWignerAlphas_eq] at h1 h2
  rw [(C43_entries rho (al n) 1).2] at h1
  rw [(C43_entries rho (al n) (-1)).2] at h2
  have hP : P = Matrix.of fun i j => (rho * al n i * (al n j)ᴴ).trace := by
    rw [← Except.ok.inj h1]; rfl
  have hE : eta = Matrix.of fun i j => (rho * (al n i)ᴴ * al n j).trace := by
    rw [← Except.ok.inj h2]; rfl
  have hpe : eta.PosSemidef := by rw [hE]; exact eta_psd hrho.psd _
  have hpP : P.PosSemidef := by
    have := eta_psd hrho.psd fun i => (al n i)ᴴ
    simp only [conjTranspose_conjTranspose] at this
    rw [hP]; exact this
  have hocc : ∀ i : Fin n, eta (Fin.natAdd n i) (Fin.natAdd n i) =
      ∑ x : Fin (2 ^ n), ((Spec.digit 2 n x i : ℕ) : ℂ) * rho x x := by
    intro i
    rw [hE, of_apply, al_right, mul_assoc, number_diag, trace]
    simp only [diag_apply, mul_diagonal]
    exact Finset.sum_congr rfl fun x _ => mul_comm _ _
  refine ⟨hpe, ?_, hpP, ?_, hocc, ?_⟩
  · rw [← hsum, add_sub_cancel_left]; exact hpP.transpose
  · have : 1 - P = etaᵀ := by
      have := congrArg transpose hsum
      rw [transpose_add, transpose_transpose, transpose_one] at this
      rw [← this, add_sub_cancel_right]
    rw [this]; exact hpe.transpose
  · intro i
    have e : eta (Fin.castAdd n i) (Fin.castAdd n i) + eta (Fin.natAdd n i) (Fin.natAdd n i) = rho.trace := by
      rw [hE]
      simp only [of_apply, al_left, al_right, conjTranspose_conjTranspose]
      rw [← trace_add, mul_assoc, mul_assoc, ← mul_add, car_mixed, if_pos rfl, mul_one]
    rw [← hocc, ← hrho.trace_one, ← e]; ring

/-- C43. `correlation_matrix(rho)` is `compute_2corr_matrix` with the number of sites found from the
dimension. -/
theorem C43_correlation_matrix {n : ℕ} (rho : Op (2 ^ n)) :
    ∃ Gam, compute2Corr rho n (jordanWignerAlphas n) none = .ok Gam ∧
      correlationMatrix rho = .ok ⟨n, Gam⟩ := by
  obtain ⟨Gam, h0⟩ : ∃ Gam, compute2Corr rho n (jordanWignerAlphas n) none = .ok Gam := by
    rw [jordanWignerAlphas_eq]; exact ⟨_, (C43_entries rho (al n) 1).1⟩
  refine ⟨Gam, h0, ?_⟩
  have hn : (rint (Real.logb 2 ((2 ^ n : ℕ) : ℝ))).toNat = n := by
    have : Real.logb 2 ((2 ^ n : ℕ) : ℝ) = (n : ℤ) := by
      push_cast
      rw [Real.logb_pow, Real.logb_self_eq_one (by norm_num), mul_one]
    rw [this, rint_int]
    simp
  have hgen : ∀ m, m = n → (if e : 2 ^ n = 2 ^ m then (do
      let G ← compute2Corr (castOp e rho) m (jordanWignerAlphas m) none
      pure (⟨m, G⟩ : (n : ℕ) × Op (n + n))) else .error .valueError) = .ok ⟨n, Gam⟩ := by
    rintro m rfl
    rw [dif_pos rfl, show castOp rfl rho = rho from rfl, h0]
    rfl
  rw [correlationMatrix, if_neg (by positivity)]
  exact hgen _ hn

/-- C43. A matrix whose dimension is not a power of two is rejected: with OverflowError if it is empty, and with
ValueError otherwise. -/
theorem C43_dimension {N : ℕ} (rho : Op N) (h : ∀ n, N ≠ 2 ^ n) :
    correlationMatrix rho = .error (if N = 0 then .overflowError else .valueError) := by
  rw [correlationMatrix]
  split_ifs
  · rfl
  · exact dif_neg (h _)

example : (∀ n, 3 ≠ 2 ^ n) ∧ ∀ n, 0 ≠ 2 ^ n := by
  refine ⟨fun n h => ?_, fun n h => ?_⟩
  · rcases n with _ | _ | n
    · norm_num at h
    · norm_num at h
    · rw [pow_succ, pow_succ] at h; omega
  · exact absurd h.symm (by positivity)

/-- A two-site state meets the hypothesis of `C43_state`. -/
example : Spec.IsDensity ((1 / 4 : ℂ) • (1 : Op (2 ^ 2))) := by
  constructor
  · exact PosSemidef.one.smul (by norm_num [Complex.le_def])
  · simp

/-! ## C44 is_matchgate -/

/-- C44. `is_matchgate` is false for every shape other than (4,4). -/
theorem C44_shape {m k : ℕ} (M : Matrix (Fin m) (Fin k) ℂ) (h : ¬ (m = 4 ∧ k = 4)) :
    isMatchgate M = false := by
  rw [isMatchgate, dif_neg h]

/-- C44. For a 4 x 4 array it is true exactly if the determinants of the inner and the corner block agree
within the tolerance of `np.isclose`. -/
theorem C44_decides (M : Op 4) :
    isMatchgate M = true ↔
      isclose (M 1 1 * M 2 2 - M 1 2 * M 2 1) (M 0 0 * M 3 3 - M 0 3 * M 3 0) := by
  classical
  rw [isMatchgate, dif_pos ⟨rfl, rfl⟩]
  change (if isclose (det (M.submatrix ![1, 2] ![1, 2])) (det !![M 0 0, M 0 3; M 3 0, M 3 3]) then
    true else false) = true ↔ _
  rw [det_fin_two, det_fin_two_of]
  simp

/-- C44. Exact parity-preserving matchgates are accepted and closed under products and multiplication by
scalars. -/
theorem C44_closed (M N : Op 4) (hM : Spec.ExactMatchgate M) (hN : Spec.ExactMatchgate N) (c : ℂ) :
    isMatchgate M = true ∧ Spec.ExactMatchgate (M * N) ∧ isMatchgate (M * N) = true ∧
      Spec.ExactMatchgate (c • M) ∧ isMatchgate (c • M) = true := by
  have hex (M : Op 4) (h : Spec.ExactMatchgate M) : isMatchgate M = true := by
    rw [C44_decides, h.2]; exact isclose_self _
  have h1 : Spec.ExactMatchgate (M * N) := by
    obtain ⟨⟨a1, a2, a3, a4, a5, a6, a7, a8⟩, ha⟩ := hM
    obtain ⟨⟨b1, b2, b3, b4, b5, b6, b7, b8⟩, hb⟩ := hN
    refine ⟨⟨?_, ?_, ?_, ?_, ?_, ?_, ?_, ?_⟩, ?_⟩ <;>
      simp only [mul_apply, Fin.sum_univ_four, a1, a2, a3, a4, a5, a6, a7, a8, b1, b2, b3, b4, b5, b6, b7, b8,
        mul_zero, zero_mul, add_zero, zero_add]
    linear_combination (N 1 1 * N 2 2 - N 1 2 * N 2 1) * ha + (M 0 0 * M 3 3 - M 0 3 * M 3 0) * hb
  have h2 : Spec.ExactMatchgate (c • M) := by
    obtain ⟨⟨a1, a2, a3, a4, a5, a6, a7, a8⟩, ha⟩ := hM
    refine ⟨⟨?_, ?_, ?_, ?_, ?_, ?_, ?_, ?_⟩, ?_⟩ <;>
      simp only [Matrix.smul_apply, smul_eq_mul, a1, a2, a3, a4, a5, a6, a7, a8, mul_zero]
    linear_combination c ^ 2 * ha
  exact ⟨hex M hM, h1, hex _ h1, h2, hex _ h2⟩

/-- The fermionic swap is such a matchgate; the ordinary swap is not. -/
example : Spec.ExactMatchgate !![1, 0, 0, 0; 0, 0, 1, 0; 0, 1, 0, 0; 0, 0, 0, -1] ∧
    isMatchgate (!![1, 0, 0, 0; 0, 0, 1, 0; 0, 1, 0, 0; 0, 0, 0, 1] : Op 4) = false := by
  constructor
  · simp [Spec.ExactMatchgate]
  · rw [Bool.eq_false_iff, ne_eq, C44_decides]
    have e : (!![1, 0, 0, 0; 0, 0, 1, 0; 0, 1, 0, 0; 0, 0, 0, 1] : Op 4) 3 3 = 1 := rfl
    have e1 : (!![1, 0, 0, 0; 0, 0, 1, 0; 0, 1, 0, 0; 0, 0, 0, 1] : Op 4) 3 0 = 0 := rfl
    have e2 : (!![1, 0, 0, 0; 0, 0, 1, 0; 0, 1, 0, 0; 0, 0, 0, 1] : Op 4) 2 1 = 1 := rfl
    have e3 : (!![1, 0, 0, 0; 0, 0, 1, 0; 0, 1, 0, 0; 0, 0, 0, 1] : Op 4) 1 2 = 1 := rfl
    have e4 : (!![1, 0, 0, 0; 0, 0, 1, 0; 0, 1, 0, 0; 0, 0, 0, 1] : Op 4) 1 1 = 0 := rfl
    have e5 : (!![1, 0, 0, 0; 0, 0, 1, 0; 0, 1, 0, 0; 0, 0, 0, 1] : Op 4) 0 0 = 1 := rfl
    rw [e, e1, e2, e3, e4, e5]
    norm_num [isclose]

end FF.Props
