import Verif.Props.TightBinding
import Verif.Proofs.Weyl

/-! # Property C147: small changes of the coefficients change the energies little -/

namespace FF.Props

open Matrix
open scoped ComplexOrder

variable {n : ℕ}

/-- `np.linalg.eigvalsh`: the eigenvalues of Hermitian arrays, in ascending order, differ by at most the largest difference of two entries
times the number of rows. -/
theorem C147_eigvalsh {N : ℕ} {A A' : Op N} (hA : A.IsHermitian) (hA' : A'.IsHermitian) {δ : ℝ} (h : ∀ i j, ‖A i j - A' i j‖ ≤ δ) (k : Fin N) :
    |eigvalsh A k - eigvalsh A' k| ≤ N * δ := by
  have key : ∀ {A A' : Op N}, A.IsHermitian → A'.IsHermitian → (∀ i j, ‖A i j - A' i j‖ ≤ δ) → eigvalsh A k ≤ eigvalsh A' k + N * δ :=
    fun {A A'} hA hA' h => by
      refine eigvalsh_le hA hA' (fun x => ?_) k
      have := (abs_le.1 (form_le (E := A - A') h x)).2
      rw [sub_mulVec, dotProduct_sub, Complex.sub_re] at this
      linarith
  rw [abs_le]
  have h1 := key hA hA' h
  have h2 := key hA' hA fun i j => by rw [norm_sub_rev]; exact h i j
  constructor <;> linarith

variable {A B A' B' : Op n} {δ : ℝ}

/-- C147. Changing no entry of `A` and `B` by more than `δ` changes the energies `±ε_1, ..., ±ε_n` of `build_H(A, B)` by at most `2 n δ`:
their moduli can be matched up so that no two partners differ by more. -/
theorem C147_modes (hA : A.IsHermitian) (hB : Bᵀ = -B) (hA' : A'.IsHermitian) (hB' : B'ᵀ = -B') (hδ : 0 ≤ δ)
    (hAA : ∀ i j, ‖A i j - A' i j‖ ≤ δ) (hBB : ∀ i j, ‖B i j - B' i j‖ ≤ δ)
    (ε ε' : Fin n → ℝ) (hε : IsModes (buildH n A (some B)) ε) (hε' : IsModes (buildH n A' (some B')) ε') :
    ∃ π : Equiv.Perm (Fin n), ∀ k, abs (|ε k| - |ε' (π k)|) ≤ 2 * n * δ := by
  obtain ⟨U, s, -, hU, hL⟩ := exists_canonical (buildH_herm A B hA hB) (buildH_ph A B hA hB)
  obtain ⟨U', s', -, hU', hL'⟩ := exists_canonical (buildH_herm A' B' hA' hB') (buildH_ph A' B' hA' hB')
  obtain ⟨p, hp⟩ := modes_unique hU hL (by rw [← prod_pm']; exact hε)
  obtain ⟨p', hp'⟩ := modes_unique hU' hL' (by rw [← prod_pm']; exact hε')
  obtain ⟨π, hπ⟩ := modes_near hU hU' hL hL' (ε := 2 * n * δ) (by positivity) fun x => by
    have := form_le (buildH_near hAA hBB) x
    push_cast at this
    exact this.trans_eq (by ring)
  refine ⟨(p.symm.trans π).trans p', fun k => ?_⟩
  have h1 := hπ (p.symm k)
  rw [hp, hp', Equiv.apply_symm_apply] at h1
  exact h1

/-- C147. What `eigh_sp` returns on the diagonal of `L` are the energies of `H = build_H(A, B)` up to `6e-10 n`, whatever their sizes
(without energies between 0 and the cut-off `1e-10` they are exact, C45). -/
theorem C147_eigh_energies (hA : A.IsHermitian) (hB : Bᵀ = -B) (ε : Fin n → ℝ) (hε : IsModes (buildH n A (some B)) ε)
    (schur : RMat (n + n) → RMat (n + n) × RMat (n + n)) (argsort : (Fin n → ℝ) → Fin n → ℕ)
    (hschur : SchurOk (buildH n A (some B)) schur) (hsort : ArgsortOk argsort) :
    ∃ (L U : Op (n + n)) (π : Equiv.Perm (Fin n)), eighSp schur argsort (buildH n A (some B)) = .ok (L, U) ∧
      ∀ k, abs (|ε k| - |(L (Fin.natAdd n (π k)) (Fin.natAdd n (π k))).re|) ≤ 6e-10 * n := by
  obtain ⟨L, U, s, hrun, hU, hc, hL, hap, -⟩ := eigh_main schur argsort (buildH_herm A B hA hB) (buildH_ph A B hA hB) hschur hsort
  obtain ⟨U0, s0, -, hU0, hL0⟩ := exists_canonical (buildH_herm A B hA hB) (buildH_ph A B hA hB)
  have hU' : Uᴴ * U = 1 := mul_eq_one_comm.1 hU
  have hL1 : Uᴴ * (U * Spec.standardForm s * Uᴴ) * U = Spec.standardForm s := by
    rw [← mul_assoc, ← mul_assoc, hU', one_mul, mul_assoc, hU', mul_one]
  have hH : buildH n A (some B) = U * L * Uᴴ := by
    rw [← hL, mul_assoc, mul_assoc (Uᴴ * _), hU, mul_one, ← mul_assoc, hU, one_mul]
  obtain ⟨π, hπ⟩ := modes_near hU0 hU hL0 hL1 (ε := (n + n : ℕ) * 2e-10) (by positivity) fun x => by
    rw [hH, ← sub_mul, ← mul_sub]
    exact form_rotate_le hU hap x
  obtain ⟨p, hp⟩ := modes_unique hU0 hL0 (by rw [← prod_pm']; exact hε)
  refine ⟨L, U, p.symm.trans π, hrun, fun k => ?_⟩
  have h1 := hπ (p.symm k)
  rw [hp, Equiv.apply_symm_apply] at h1
  rw [Equiv.trans_apply]
  set j := π (p.symm k)
  have h2 := (Complex.abs_re_le_norm _).trans (hap (Fin.natAdd n j) (Fin.natAdd n j))
  rw [standardForm_right, Complex.sub_re, Complex.ofReal_re] at h2
  have h3 := abs_abs_sub_abs_le_abs_sub (L (Fin.natAdd n j) (Fin.natAdd n j)).re (s j)
  have hn : (1 : ℝ) ≤ n := by exact_mod_cast (Nat.one_le_of_lt k.2)
  have h4 := abs_le.1 (h3.trans h2)
  have h5 := abs_le.1 h1
  push_cast at h5
  rw [abs_le]
  norm_num at h4 h5 ⊢
  constructor <;> linarith [h4.1, h4.2, h5.1, h5.2]

/-- C147. Changing no entry of `A` and `B` by more than `δ` changes the energies that `eigh_sp` returns, up to their order and signs, by at most
`2 n δ`, and by what its cut-off adds. -/
theorem C147_eigh (hA : A.IsHermitian) (hB : Bᵀ = -B) (hA' : A'.IsHermitian) (hB' : B'ᵀ = -B') (hδ : 0 ≤ δ)
    (hAA : ∀ i j, ‖A i j - A' i j‖ ≤ δ) (hBB : ∀ i j, ‖B i j - B' i j‖ ≤ δ)
    (schur : RMat (n + n) → RMat (n + n) × RMat (n + n)) (argsort : (Fin n → ℝ) → Fin n → ℕ)
    (hschur : SchurOk (buildH n A (some B)) schur) (hschur' : SchurOk (buildH n A' (some B')) schur) (hsort : ArgsortOk argsort) :
    ∃ (L U L' U' : Op (n + n)) (π : Equiv.Perm (Fin n)), eighSp schur argsort (buildH n A (some B)) = .ok (L, U) ∧
      eighSp schur argsort (buildH n A' (some B')) = .ok (L', U') ∧
      ∀ k, abs (|(L (Fin.natAdd n k) (Fin.natAdd n k)).re| - |(L' (Fin.natAdd n (π k)) (Fin.natAdd n (π k))).re|) ≤ 2 * n * δ + 12e-10 * n := by
  obtain ⟨ε, hε⟩ := C126_modes_exist A B hA hB
  obtain ⟨ε', hε'⟩ := C126_modes_exist A' B' hA' hB'
  obtain ⟨L, U, p, hrun, hp⟩ := C147_eigh_energies hA hB ε hε schur argsort hschur hsort
  obtain ⟨L', U', p', hrun', hp'⟩ := C147_eigh_energies hA' hB' ε' hε' schur argsort hschur' hsort
  obtain ⟨π, hπ⟩ := C147_modes hA hB hA' hB' hδ hAA hBB ε ε' hε hε'
  refine ⟨L, U, L', U', (p.symm.trans π).trans p', hrun, hrun', fun k => ?_⟩
  have h1 := abs_le.1 (hp (p.symm k))
  have h2 := abs_le.1 (hπ (p.symm k))
  have h3 := abs_le.1 (hp' (π (p.symm k)))
  rw [Equiv.apply_symm_apply] at h1
  rw [Equiv.trans_apply, Equiv.trans_apply, abs_le]
  norm_num at h1 h2 h3 ⊢
  constructor <;> linarith [h1.1, h1.2, h2.1, h2.2, h3.1, h3.2]

/-- C147. The many-body energies: changing no entry of `A` and `B` by more than `δ` changes each of the `2^n` energies of
`build_op(build_H(A, B))`, in ascending order, by at most `2 n² δ`, and by what skipping the entries below `1e-10` adds. -/
theorem C147_many_body (hn : 1 ≤ n) (hA : A.IsHermitian) (hB : Bᵀ = -B) (hA' : A'.IsHermitian) (hB' : B'ᵀ = -B') (hδ : 0 ≤ δ)
    (hAA : ∀ i j, ‖A i j - A' i j‖ ≤ δ) (hBB : ∀ i j, ‖B i j - B' i j‖ ≤ δ) :
    ∃ Q Q' : Op (2 ^ n), buildOp n (buildH n A (some B)) (jordanWignerAlphas n) false = .ok Q ∧
      buildOp n (buildH n A' (some B')) (jordanWignerAlphas n) false = .ok Q' ∧
      ∀ j, |eigvalsh Q j - eigvalsh Q' j| ≤ 2 * n ^ 2 * (δ + 2e-10) := by
  have hd := drop_herm hA 1e-10
  have hd' := drop_herm hA' 1e-10
  have hs := drop_skew hB 1e-10
  have hs' := drop_skew hB' 1e-10
  obtain ⟨U, s, hc, hU, hL⟩ := exists_canonical (buildH_herm _ _ hd hs) (buildH_ph _ _ hd hs)
  obtain ⟨U', s', hc', hU', hL'⟩ := exists_canonical (buildH_herm _ _ hd' hs') (buildH_ph _ _ hd' hs')
  obtain ⟨π, hπ⟩ := modes_near hU hU' hL hL' (ε := 2 * n * (δ + 2e-10)) (by positivity) fun x => by
    have := form_le (buildH_near (dropSmall_near hAA) (dropSmall_near hBB)) x
    push_cast at this
    exact this.trans_eq (by ring)
  refine ⟨Spec.quad (buildH n (Spec.dropSmall 1e-10 A) (some (Spec.dropSmall 1e-10 B))) (al n),
    Spec.quad (buildH n (Spec.dropSmall 1e-10 A') (some (Spec.dropSmall 1e-10 B'))) (al n), ?_, ?_, fun j => ?_⟩
  · rw [jordanWignerAlphas_eq, buildOp_square _ _ hn, dropSmall_buildH]; rfl
  · rw [jordanWignerAlphas_eq, buildOp_square _ _ hn, dropSmall_buildH]; rfl
  · have e1 := many_charpoly (t := fun k => |s k|) hc hU hL 1 fun k => by simp
    have e2 := many_charpoly (t := fun k => |s' (π k)|) hc' hU' hL' π.symm fun k => by simp
    rw [eigvalsh_charpoly (quad_herm (buildH_herm _ _ hd hs) _)] at e1
    rw [eigvalsh_charpoly (quad_herm (buildH_herm _ _ hd' hs') _)] at e2
    refine (sorted_of_match (eigvalsh_mono _) (eigvalsh_mono _) _ _ (prod_roots_any e1) (prod_roots_any e2) (fun c => energies_near hπ c) j).trans (le_of_eq ?_)
    ring

/-- The hypotheses hold for non-trivial arrays: two sites with hopping and pairing, whose hopping is changed by a hundredth. -/
example : ∃ A B A' B' : Op 2, A.IsHermitian ∧ Bᵀ = -B ∧ A'.IsHermitian ∧ B'ᵀ = -B' ∧ A ≠ A' ∧ B ≠ 0 ∧ (∀ i j, ‖A i j - A' i j‖ ≤ 1 / 100) ∧
    ∀ i j, ‖B i j - B' i j‖ ≤ 1 / 100 := by
  refine ⟨!![1, Complex.I; -Complex.I, 2], !![0, 1; -1, 0], !![1, 1.01 * Complex.I; -1.01 * Complex.I, 2], !![0, 1; -1, 0], ?_, ?_, ?_, ?_, ?_, ?_, ?_, ?_⟩
  · ext i j; fin_cases i <;> fin_cases j <;> simp
  · ext i j; fin_cases i <;> fin_cases j <;> simp
  · ext i j; fin_cases i <;> fin_cases j <;> simp [Complex.ext_iff]
  · ext i j; fin_cases i <;> fin_cases j <;> simp
  · intro h
    have := congrArg Complex.im (congrFun (congrFun h 0) 1)
    norm_num at this
  · intro h
    have := congrFun (congrFun h 0) 1
    simp at this
  · have e1 : Complex.I - 1.01 * Complex.I = -(0.01 * Complex.I) := by ring_nf
    have e2 : -Complex.I + 1.01 * Complex.I = 0.01 * Complex.I := by ring_nf
    intro i j
    fin_cases i <;> fin_cases j <;> simp [e1, e2] <;> norm_num
  · intro i j
    fin_cases i <;> fin_cases j <;> simp

/-- The hypotheses of `C147_eigh` hold for one site with energies 1 and 1.01. -/
example : ∃ (as : (Fin 1 → ℝ) → Fin 1 → ℕ) (L U L' U' : Op (1 + 1)) (π : Equiv.Perm (Fin 1)), eighSp (fun M => (M, 1)) as (buildH 1 (of fun _ _ => 1) (some 0)) = .ok (L, U) ∧
    eighSp (fun M => (M, 1)) as (buildH 1 (of fun _ _ => 1.01) (some 0)) = .ok (L', U') ∧
    ∀ k, abs (|(L (Fin.natAdd 1 k) (Fin.natAdd 1 k)).re| - |(L' (Fin.natAdd 1 (π k)) (Fin.natAdd 1 (π k))).re|) ≤ 2 * (1 : ℕ) * (1 / 100) + 12e-10 * (1 : ℕ) := by
  have h1 : (of fun _ _ => 1 : Op 1).IsHermitian := by ext i j; simp
  have h2 : (of fun _ _ => 1.01 : Op 1).IsHermitian := by ext i j; simp [Complex.ext_iff]
  have h0 : (0 : Op 1)ᵀ = -0 := by simp
  obtain ⟨as, has⟩ := argsort_exists (n := 1)
  refine ⟨as, C147_eigh h1 h0 h2 h0 (by norm_num) (fun i j => ?_) (fun i j => ?_) _ _ (schurOk_one (buildH_herm _ _ h1 h0) (buildH_ph _ _ h1 h0))
    (schurOk_one (buildH_herm _ _ h2 h0) (buildH_ph _ _ h2 h0)) has⟩
  · simp only [of_apply]; norm_num
  · simp only [sub_self, norm_zero]; norm_num

end FF.Props
