import Verif.Proofs.Operators2

/-!
# Properties of the permutation, Pauli and Jordan-Wigner functions of `ff_lib.py` (C22 - C27)

Proofs here only assemble the helper lemmas of `Verif/Proofs/Operators*.lean`.
-/

namespace FF.Props

open Matrix
open scoped ComplexConjugate

/-! ## C22 permutation_to_matrix -/

/-- C22. For every permutation `σ` of `0..n-1` the function returns a matrix `P` with
`P e_i = e_{σ i}`; it is orthogonal and its determinant is the sign of `σ`. -/
theorem C22_permutation {n : ℕ} (σ : Equiv.Perm (Fin n)) :
    ∃ P : Matrix (Fin n) (Fin n) ℤ,
      permutationToMatrix (fun i => ((σ i : ℕ) : ℤ)) = some P ∧
      (∀ i, P *ᵥ Pi.single i 1 = Pi.single (σ i) 1) ∧
      P * Pᵀ = 1 ∧ Pᵀ * P = 1 ∧ P.det = (Equiv.Perm.sign σ : ℤ) := by
  have hr : ∀ i, (0 : ℤ) ≤ ((σ i : ℕ) : ℤ) ∧ ((σ i : ℕ) : ℤ) < n := fun i => by
    have := (σ i).2; omega
  have hP : (Matrix.of fun (x y : Fin n) => if ((x : ℕ) : ℤ) = ((σ y : ℕ) : ℤ) then (1 : ℤ) else 0) =
      (Equiv.Perm.permMatrix ℤ σ)ᵀ := by
    ext x y
    simp [Equiv.Perm.permMatrix, PEquiv.toMatrix_apply, Fin.val_inj, eq_comm]
  have h1 : (Equiv.Perm.permMatrix ℤ σ)ᵀ * Equiv.Perm.permMatrix ℤ σ = 1 := by
    rw [transpose_permMatrix, ← Matrix.permMatrix_mul]; simp
  have h2 : Equiv.Perm.permMatrix ℤ σ * (Equiv.Perm.permMatrix ℤ σ)ᵀ = 1 := by
    rw [transpose_permMatrix, ← Matrix.permMatrix_mul]; simp
  refine ⟨_, ptm_some _ hr, ?_, ?_, ?_, ?_⟩
  · intro i
    rw [mulVec_single_one]
    funext x
    simp only [col_apply, of_apply, Pi.single_apply, Nat.cast_inj, Fin.val_inj]
  · rw [hP, transpose_transpose, h1]
  · rw [hP, transpose_transpose, h2]
  · rw [hP, Matrix.det_transpose, Matrix.det_permutation]; simp

/-- C22. Composition of permutations goes to the matrix product. -/
theorem C22_composition {n : ℕ} (σ τ : Equiv.Perm (Fin n)) :
    ∃ P Q R : Matrix (Fin n) (Fin n) ℤ,
      permutationToMatrix (fun i => ((σ i : ℕ) : ℤ)) = some P ∧
      permutationToMatrix (fun i => ((τ i : ℕ) : ℤ)) = some Q ∧
      permutationToMatrix (fun i => ((σ (τ i) : ℕ) : ℤ)) = some R ∧ R = P * Q := by
  have hr (f : Fin n → Fin n) : ∀ i, (0 : ℤ) ≤ ((f i : ℕ) : ℤ) ∧ ((f i : ℕ) : ℤ) < n := fun i => by
    have := (f i).2; omega
  refine ⟨_, _, _, ptm_some _ (hr σ), ptm_some _ (hr τ), ptm_some _ (hr fun i => σ (τ i)), ?_⟩
  ext x y
  simp only [of_apply, mul_apply, Nat.cast_inj, Fin.val_inj]
  rw [Finset.sum_eq_single (τ y)]
  · simp
  · intro b _ hb; simp [hb]
  · simp

/-- C22. The result is `None` exactly if some entry lies outside `0..n-1`. (Partial: a valid permutation
must also have no repetition, see `C22_violation`.) -/
theorem C22_none_partial {n : ℕ} (p : Fin n → ℤ) :
    permutationToMatrix p = none ↔ ∃ i, p i < 0 ∨ (n : ℤ) ≤ p i := by
  constructor
  · intro h
    by_contra hc
    push Not at hc
    rw [ptm_some p hc] at h
    cases h
  · rintro ⟨i, hi⟩
    exact ptm_none p i (by omega)

/-- C22 violated: lists with repetitions, which are not permutations, are not rejected, for every `n ≥ 2`;
the matrix returned is singular. -/
theorem C22_violation (n : ℕ) (hn : 2 ≤ n) :
    ∃ p : Fin n → ℤ, (¬ ∃ σ : Equiv.Perm (Fin n), ∀ i, p i = (σ i : ℕ)) ∧
      ∃ P, permutationToMatrix p = some P ∧ P.det = 0 := by
  refine ⟨fun _ => 0, ?_, _, ptm_some _ (fun _ => ⟨le_rfl, by omega⟩), ?_⟩
  · rintro ⟨σ, h⟩
    have h0 := h ⟨0, by omega⟩
    have h1 := h ⟨1, by omega⟩
    have : σ ⟨0, by omega⟩ = σ ⟨1, by omega⟩ := Fin.ext (by simp only at h0 h1; omega)
    simpa using σ.injective this
  · apply Matrix.det_eq_zero_of_row_eq_zero (⟨1, by omega⟩ : Fin n)
    intro j; simp

/-- C22, for every list with entries in range, with or without repetitions: the matrix sends `e_i` to `e_{p i}`.
It is orthogonal iff the list is a permutation, and otherwise it is singular. -/
theorem C22_outcome {n : ℕ} (p : Fin n → ℤ) (hp : ∀ i, 0 ≤ p i ∧ p i < n) :
    ∃ P : Matrix (Fin n) (Fin n) ℤ, permutationToMatrix p = some P ∧
      (∀ i x, (P *ᵥ Pi.single i 1) x = if ((x : ℕ) : ℤ) = p i then 1 else 0) ∧
      ((∃ σ : Equiv.Perm (Fin n), ∀ i, p i = (σ i : ℕ)) ↔ P * Pᵀ = 1) ∧
      ((¬ ∃ σ : Equiv.Perm (Fin n), ∀ i, p i = (σ i : ℕ)) ↔ P.det = 0) := by
  have hdet : ∀ σ : Equiv.Perm (Fin n), (Equiv.Perm.sign σ : ℤ) ≠ 0 := fun σ => Units.ne_zero _
  have hs : ¬ (∃ σ : Equiv.Perm (Fin n), ∀ i, p i = (σ i : ℕ)) →
      (Matrix.of fun (x y : Fin n) => if ((x : ℕ) : ℤ) = p y then (1 : ℤ) else 0).det = 0 := by
    intro h
    have hni : ¬ Function.Injective p := by
      intro hi
      have hf : Function.Injective (fun i : Fin n => (⟨(p i).toNat, by have := hp i; omega⟩ : Fin n)) := by
        intro i j hij
        have := Fin.mk.inj hij
        have h1 := hp i
        have h2 := hp j
        exact hi (by omega)
      exact h ⟨Equiv.ofBijective _ (Finite.injective_iff_bijective.1 hf), fun i => by
        have := hp i
        simp only [Equiv.ofBijective_apply]
        omega⟩
    simp only [Function.Injective, not_forall] at hni
    obtain ⟨i, j, hij, hne⟩ := hni
    refine Matrix.det_zero_of_column_eq hne fun k => ?_
    simp [hij]
  have hperm : ∀ σ : Equiv.Perm (Fin n), (∀ i, p i = (σ i : ℕ)) → p = fun i => ((σ i : ℕ) : ℤ) := fun σ h => funext h
  refine ⟨_, ptm_some p hp, fun i x => by simp, ⟨?_, ?_⟩, ⟨hs, ?_⟩⟩
  · rintro ⟨σ, h⟩
    obtain ⟨P, h1, -, h2, -⟩ := C22_permutation σ
    rw [← hperm σ h, ptm_some p hp, Option.some.injEq] at h1
    rw [h1]; exact h2
  · intro h
    by_contra hc
    have := congrArg Matrix.det h
    rw [Matrix.det_mul, hs hc, zero_mul, Matrix.det_one] at this
    exact one_ne_zero this.symm
  · rintro h0 ⟨σ, h⟩
    obtain ⟨P, h1, -, -, -, h2⟩ := C22_permutation σ
    rw [← hperm σ h, ptm_some p hp, Option.some.injEq] at h1
    rw [h1, h2] at h0
    exact hdet σ h0

example : ∀ i, 0 ≤ (![1, 0, 1] : Fin 3 → ℤ) i ∧ (![1, 0, 1] : Fin 3 → ℤ) i < (3 : ℕ) := by decide

example : permutationToMatrix ![2, 0, 1] = some !![0, 1, 0; 0, 0, 1; 1, 0, 0] := by decide
example : permutationToMatrix ![2, 0, 3] = none := by decide

/-! ## C23, C24 the Pauli group -/

/-- C23. `generate_pauli_group(n)` returns the `4^n` Pauli strings in lexicographic order: entry `k` is the
string whose letters are the base-4 digits of `k`. -/
theorem C23_pauli_group (n : ℕ) (hn : 1 ≤ n) (verbose : Bool) :
    ∃ ops lines, generatePauliGroup (.int n) verbose = .ok ⟨n, ops, lines⟩ ∧
      ops.length = 4 ^ n ∧
      ∀ k (hk : k < ops.length), ops[k] = Spec.pauliString (Spec.digit 4 n k) := by
  refine ⟨_, _, generatePauliGroup_ok n hn verbose, ?_, ?_⟩
  · simp [pauliLoop_eq]
  · intro k hk
    simp [pauliLoop_eq]

/-- C23. Each returned operator is Hermitian and unitary, the operators are pairwise orthogonal with
`Tr(P_j P_k) = 2^n δ_jk`, the first is the identity and the others are traceless. -/
theorem C23_orthogonal (n : ℕ) (verbose : Bool) (ops : List (Op (2 ^ n))) (lines : List (List Char))
    (h : generatePauliGroup (.int n) verbose = .ok ⟨n, ops, lines⟩)
    (j k : ℕ) (hj : j < ops.length) (hk : k < ops.length) :
    ops[j].IsHermitian ∧ ops[j] ∈ Matrix.unitaryGroup (Fin (2 ^ n)) ℂ ∧
      (ops[j] * ops[k]).trace = (if j = k then 2 ^ n else 0) ∧
      (j = 0 → ops[j] = 1) ∧ (j ≠ 0 → ops[j].trace = 0) := by
  have hn : 1 ≤ n := by
    by_contra hc
    have : n = 0 := by omega
    subst this; simp [generatePauliGroup] at h
  rw [generatePauliGroup_ok n hn] at h
  obtain rfl : ops = (pauliLoop n verbose).1 := by
    cases h; rfl
  have hl : (pauliLoop n verbose).1.length = 4 ^ n := by simp [pauliLoop_eq]
  have hg (m : ℕ) (hm : m < (pauliLoop n verbose).1.length) :
      (pauliLoop n verbose).1[m] = Spec.pauliString (Spec.digit 4 n m) := by simp [pauliLoop_eq]
  have hherm : (Spec.pauliString (Spec.digit 4 n j))ᴴ = Spec.pauliString (Spec.digit 4 n j) := by
    simp only [pauliString_eq, kronAll_conjTranspose, pauli_herm]
  have hsq : Spec.pauliString (Spec.digit 4 n j) * Spec.pauliString (Spec.digit 4 n j) = 1 := by
    simp only [pauliString_eq, kronAll_mul, pauli_sq, kronAll_one]
  have hz : Spec.pauliString (Spec.digit 4 n 0) = 1 := by
    have : Spec.digit 4 n 0 = fun _ => 0 := by funext i; simp [Spec.digit]
    simp only [this, pauliString_eq, pauli_zero, kronAll_one]
  rw [hg j hj, hg k hk]
  rw [hl] at hj hk
  refine ⟨hherm, ?_, ?_, ?_, ?_⟩
  · rw [Matrix.mem_unitaryGroup_iff, star_eq_conjTranspose, hherm, hsq]
  · rw [pauliString_trace_mul]
    by_cases hjk : j = k
    · rw [if_pos (by rw [hjk]), if_pos hjk]
    · rw [if_neg (fun e => hjk (digit_inj hj hk e)), if_neg hjk]
  · rintro rfl; exact hz
  · intro hj0
    have := pauliString_trace_mul (Spec.digit 4 n j) (Spec.digit 4 n 0)
    rwa [hz, mul_one, if_neg (fun e => hj0 (digit_inj hj (by positivity) e))] at this

/-- C23. A non-positive number raises `ValueError`, a non-integer `TypeError`. -/
theorem C23_errors (verbose : Bool) :
    (∀ n : ℤ, n ≤ 0 → generatePauliGroup (.int n) verbose = .error .valueError) ∧
      generatePauliGroup .other verbose = .error .typeError :=
  ⟨fun n hn => by simp [generatePauliGroup, hn], rfl⟩

/-- C24. With `verbose` the `k`-th printed line is the Pauli word of the `k`-th returned operator, one line
per operator; without, nothing is printed and the same list is returned. -/
theorem C24_names (n : ℕ) (hn : 1 ≤ n) :
    ∃ ops lines, generatePauliGroup (.int n) true = .ok ⟨n, ops, lines⟩ ∧
      generatePauliGroup (.int n) false = .ok ⟨n, ops, []⟩ ∧ lines.length = ops.length ∧
      ∀ k (hk : k < ops.length) (hk' : k < lines.length), ∃ w : Fin n → Fin 4,
        ops[k] = Spec.pauliString w ∧ lines[k] = List.ofFn fun i => Spec.pauliLetter (w i) := by
  refine ⟨(pauliLoop n true).1, (pauliLoop n true).2, generatePauliGroup_ok n hn true, ?_, ?_, ?_⟩
  · rw [generatePauliGroup_ok n hn]
    simp [pauliLoop_eq]
  · simp [pauliLoop_eq]
  · intro k hk hk'
    exact ⟨Spec.digit 4 n k, by simp [pauliLoop_eq], by simp [pauliLoop_eq]⟩

/-- Non-vacuity of C23/C24: for two qubits, entry 7 of the list is the string `XZ`. -/
example : ∃ ops lines, generatePauliGroup (.int 2) true = .ok ⟨2, ops, lines⟩ ∧ ops.length = 16 ∧
    lines[7]? = some ['X', 'Z'] := by
  refine ⟨_, _, generatePauliGroup_ok 2 (by norm_num) true, ?_, ?_⟩
  · simp [pauliLoop_eq]
  · simp [pauliLoop_eq, Spec.pauliLetter, Spec.digit]
    rfl

/-! ## C25 - C27 Jordan-Wigner operators -/

/-- C25. The canonical anticommutation relations, for every number of sites. -/
theorem C25_car (n : ℕ) (i j : ℕ) (hi : i < (jordanWignerLowering n).length)
    (hj : j < (jordanWignerLowering n).length) :
    let a := jordanWignerLowering n
    a[i] * a[j] + a[j] * a[i] = 0 ∧
      a[i] * a[j]ᴴ + a[j]ᴴ * a[i] = if i = j then 1 else 0 := by
  have hi' : i < n := by simpa [jordanWignerLowering] using hi
  have hj' : j < n := by simpa [jordanWignerLowering] using hj
  have h1 := car_lower (⟨i, hi'⟩ : Fin n) ⟨j, hj'⟩
  have h2 := car_mixed (⟨i, hi'⟩ : Fin n) ⟨j, hj'⟩
  simp only [Fin.mk.injEq] at h2
  simp only [jordanWignerLowering, List.getElem_map, List.getElem_range]
  exact ⟨h1, h2⟩

/-- C25. There is one lowering operator per site, so the relations above cover every pair of sites. -/
theorem C25_length (n : ℕ) : (jordanWignerLowering n).length = n := by simp [jordanWignerLowering]

example : (1 : ℕ) < (jordanWignerLowering 3).length := by rw [C25_length]; norm_num

/-- C26. `jordan_wigner_alphas(n)` has `2n` entries, the adjoint of entry `n + i` is entry `i`, and entry
`n + i` is lowering operator `i`. (The matrix `S` is in `C26_algebra`.) -/
theorem C26_alphas (n : ℕ) :
    (jordanWignerAlphas n).length = 2 * n ∧
    ∀ i (_ : i < n), ∃ a, (jordanWignerLowering n)[i]? = some a ∧
      (jordanWignerAlphas n)[n + i]? = some a ∧ (jordanWignerAlphas n)[i]? = some aᴴ := by
  have hl := C25_length n
  constructor
  · simp [jordanWignerAlphas, hl]; omega
  · intro i hi
    refine ⟨jwLower n i, ?_, ?_, ?_⟩
    · simp [jordanWignerLowering, hi]
    · rw [jordanWignerAlphas, List.getElem?_append_right (by simp [hl])]
      simp [jordanWignerLowering, hi]
    · rw [jordanWignerAlphas, List.getElem?_append_left (by simp [hl, hi])]
      simp [jordanWignerLowering, hi]

/-- C27. Lowering operator `i` applied to the basis vector with occupations `b`: zero if site `i` is empty,
otherwise the vector with site `i` emptied, with the sign of the number of occupied sites before `i`. -/
theorem C27_lowering (n : ℕ) (i : Fin n) (b : Fin n → Fin 2) :
    ∃ a, (jordanWignerLowering n)[(i : ℕ)]? = some a ∧
      (b i = 0 → a *ᵥ Spec.fock b = 0) ∧
      (b i = 1 → a *ᵥ Spec.fock b =
        ((-1 : ℂ) ^ (∑ k : Fin n, if k < i then (b k : ℕ) else 0)) •
          Spec.fock (Function.update b i 0)) := by
  refine ⟨jwLower n i, by simp [jordanWignerLowering], ?_, ?_⟩
  · intro h; rw [jwLower_fock, h, if_neg (by decide)]
  · intro h; rw [jwLower_fock, if_pos h]

/-- C27. The adjoint fills an empty site with the same sign, and annihilates an occupied one. -/
theorem C27_raising (n : ℕ) (i : Fin n) (b : Fin n → Fin 2) :
    ∃ a, (jordanWignerLowering n)[(i : ℕ)]? = some a ∧
      (b i = 1 → aᴴ *ᵥ Spec.fock b = 0) ∧
      (b i = 0 → aᴴ *ᵥ Spec.fock b =
        ((-1 : ℂ) ^ (∑ k : Fin n, if k < i then (b k : ℕ) else 0)) •
          Spec.fock (Function.update b i 1)) := by
  refine ⟨jwLower n i, by simp [jordanWignerLowering], ?_, ?_⟩
  · intro h; rw [jwRaise_fock, h, if_neg (by decide)]
  · intro h; rw [jwRaise_fock, if_pos h]

/-- C27. `a_i^dag a_i` reads the occupation of site `i`. -/
theorem C27_number (n : ℕ) (i : Fin n) (b : Fin n → Fin 2) :
    ∃ a, (jordanWignerLowering n)[(i : ℕ)]? = some a ∧
      (aᴴ * a) *ᵥ Spec.fock b = (b i : ℂ) • Spec.fock b := by
  refine ⟨jwLower n i, by simp [jordanWignerLowering], ?_⟩
  rw [← mulVec_mulVec, jwLower_fock]
  by_cases h : b i = 1
  · rw [if_pos h, mulVec_smul, jwRaise_fock, if_pos (by simp), h]
    have e1 : (∑ k : Fin n, if k < i then ((Function.update b i 0 k : Fin 2) : ℕ) else 0) =
        ∑ k : Fin n, if k < i then (b k : ℕ) else 0 := by
      apply Finset.sum_congr rfl
      intro k _
      split_ifs with hk
      · rw [Function.update_of_ne hk.ne]
      · rfl
    have e2 : Function.update (Function.update b i 0) i 1 = b := by
      rw [Function.update_idem, ← h, Function.update_eq_self]
    rw [e1, e2, smul_smul, ← pow_add, ← two_mul, pow_mul]
    simp
  · have h0 : b i = 0 := by omega
    rw [if_neg h, mulVec_zero, h0]
    simp

/-- C27. The vacuum is the first basis vector, and every basis vector is some `fock b`. -/
theorem C27_vacuum (n : ℕ) :
    (∀ x : Fin (2 ^ n), Spec.fock (fun _ : Fin n => 0) x = if (x : ℕ) = 0 then 1 else 0) ∧
      ∀ x : Fin (2 ^ n), ∃ b : Fin n → Fin 2, Spec.fock b = Pi.single x 1 := by
  constructor
  · intro x; simp [Spec.fock, Spec.basisIndex]
  · intro x
    refine ⟨Spec.digit 2 n x, ?_⟩
    rw [fock_eq, ← (eq_bIdx x _).2 rfl]

/-- Non-vacuity of C27: on three sites, `a_2 |1 0 1> = - |1 0 0>`. -/
example : ∃ a, (jordanWignerLowering 3)[2]? = some a ∧
    a *ᵥ Spec.fock (![1, 0, 1] : Fin 3 → Fin 2) = - Spec.fock (![1, 0, 0] : Fin 3 → Fin 2) := by
  obtain ⟨a, h, -, h1⟩ := C27_lowering 3 2 ![1, 0, 1]
  refine ⟨a, h, ?_⟩
  rw [h1 rfl]
  have : Function.update (![1, 0, 1] : Fin 3 → Fin 2) 2 0 = ![1, 0, 0] := by decide
  rw [this]
  have e : (∑ k : Fin 3, if k < 2 then (((![1, 0, 1] : Fin 3 → Fin 2) k : Fin 2) : ℕ) else 0) = 1 := by
    decide
  rw [e]; simp

end FF.Props
