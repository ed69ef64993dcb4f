import Verif.Proofs.Crossings
import Verif.Proofs.DirectSum
import Mathlib.LinearAlgebra.Matrix.Charpoly.Eigs
import Mathlib.Combinatorics.SimpleGraph.AdjMatrix
import Mathlib.Analysis.Complex.Polynomial.Basic

/-!
# Properties C01-C11: the combinatorial matrix functions

Every function returns `Except PyErr _`; `.ok x` means the Python call returns `x`.
-/

namespace FF.Props

open Equiv Matrix

variable {K : Type}

/-! ## C01 -/

/-- C01: for the sequence `[σ(0), …, σ(n-1)]` of any permutation `σ`, `sgn` is the sign of `σ`. -/
theorem C01_sgn_eq_sign {n : ℕ} (σ : Perm (Fin n)) :
    sgn (List.ofFn fun i => (σ i : ℕ)) = (Perm.sign σ : ℤ) :=
  sgn_permList σ

/-- C01: `sgn` of a composition is the product of the `sgn`s. -/
theorem C01_sgn_mul {n : ℕ} (σ τ : Perm (Fin n)) :
    sgn (List.ofFn fun i => ((σ * τ) i : ℕ))
      = sgn (List.ofFn fun i => (σ i : ℕ)) * sgn (List.ofFn fun i => (τ i : ℕ)) := by
  rw [C01_sgn_eq_sign, C01_sgn_eq_sign, C01_sgn_eq_sign, Perm.sign_mul]; push_cast; rfl

/-- C01: exchanging two entries of a permutation flips `sgn`. -/
theorem C01_sgn_swap {n : ℕ} (σ : Perm (Fin n)) (a b : Fin n) (hab : a ≠ b) :
    sgn (List.ofFn fun i => (σ (swap a b i) : ℕ)) = - sgn (List.ofFn fun i => (σ i : ℕ)) := by
  have := C01_sgn_mul σ (swap a b)
  simp only [Perm.mul_apply] at this
  rw [this, C01_sgn_eq_sign (swap a b), Perm.sign_swap hab]; simp

/-- C01: the sequences covered are exactly the rearrangements of `range(n)`. -/
theorem C01_all_sequences {n : ℕ} (p : List ℕ) (hp : p.Perm (List.range n)) :
    ∃ σ : Perm (Fin n), p = List.ofFn (fun i => (σ i : ℕ)) ∧ sgn p = (Perm.sign σ : ℤ) := by
  obtain ⟨σ, rfl⟩ := mem_permList_iff.1 hp
  exact ⟨σ, rfl, sgn_permList σ⟩

example : sgn [2, 0, 1, 3] = 1 ∧ sgn [1, 0, 2] = -1 ∧ [2, 0, 1, 3].Perm (List.range 4) := by decide

/-! ## C02 -/

/-- C02: `dt` is the determinant. -/
theorem C02_dt_eq_det [CommRing K] {n : ℕ} (A : Matrix (Fin n) (Fin n) K) : dt A = .ok A.det :=
  dt_ok A

/-- C02: `dt` is multiplicative, transposition invariant, normalised. -/
theorem C02_dt_mul [CommRing K] {n : ℕ} (A B : Matrix (Fin n) (Fin n) K) :
    ∃ a b, dt A = .ok a ∧ dt B = .ok b ∧ dt (A * B) = .ok (a * b) ∧ dt Aᵀ = .ok a ∧
      dt (1 : Matrix (Fin n) (Fin n) K) = .ok 1 :=
  ⟨A.det, B.det, dt_ok A, dt_ok B, by rw [dt_ok, det_mul], by rw [dt_ok, det_transpose],
    by rw [dt_ok, det_one]⟩

example : dt !![(1 : ℤ), 2; 3, 4] = .ok (-2) := by
  rw [C02_dt_eq_det, det_fin_two]; rfl

/-! ## C03 -/

/-- C03: `pt` is the permanent. -/
theorem C03_pt_eq_permanent [CommRing K] {n : ℕ} (A : Matrix (Fin n) (Fin n) K) :
    pt A = .ok (∑ σ : Perm (Fin n), ∏ i, A (σ i) i) :=
  pt_ok A

/-- C03: `pt` is invariant under transposition and any reordering of rows and of columns. -/
theorem C03_pt_invariant [CommRing K] {n : ℕ} (A : Matrix (Fin n) (Fin n) K)
    (ρ κ : Perm (Fin n)) : pt Aᵀ = pt A ∧ pt (A.submatrix ρ κ) = pt A := by
  refine ⟨by rw [pt_ok, pt_ok, permanent_transpose], ?_⟩
  rw [pt_ok, pt_ok]
  have h : A.submatrix ρ κ = (A.submatrix ρ id).submatrix id κ := by ext; simp
  rw [h, permanent_permute_rows, permanent_permute_cols]

example : pt !![(1 : ℤ), 2; 3, 4] = .ok 10 := by
  rw [C03_pt_eq_permanent]; decide

/-! ## C04 -/

/-- C04: the hafnian of a symmetric matrix is the sum over perfect matchings of the products of the
matched entries. (For odd `n` there is no perfect matching and both sides are `0`.) -/
theorem C04_hf_eq_sum_matchings [Field K] [CharZero K] {n : ℕ} (A : Matrix (Fin n) (Fin n) K)
    (hA : A.IsSymm) :
    hf A = .ok (∑ M ∈ Spec.perfectMatchings n, ∏ e ∈ M, A e.1 e.2) :=
  hf_eq_sum_matchings A hA

/-- C04: the hafnian of an adjacency matrix counts the perfect matchings of the graph. -/
theorem C04_hf_adj_counts [Field K] [CharZero K] {n : ℕ} (G : SimpleGraph (Fin n))
    [DecidableRel G.Adj] :
    hf (G.adjMatrix K) = .ok ((Spec.matchingsOf G).card : K) := by
  classical
  rw [C04_hf_eq_sum_matchings _ (SimpleGraph.isSymm_adjMatrix G)]
  have h : ∀ M : Finset (Fin n × Fin n), ∏ e ∈ M, G.adjMatrix K e.1 e.2
      = if ∀ e ∈ M, G.Adj e.1 e.2 then 1 else 0 := by
    intro M
    split
    · rename_i h
      exact Finset.prod_eq_one fun e he => by simp [h e he]
    · rename_i h
      push Not at h
      obtain ⟨e, he, hne⟩ := h
      exact Finset.prod_eq_zero he (by simp [hne])
  simp only [h, Finset.sum_boole]
  congr 3
  ext M
  simp [Spec.perfectMatchings, Spec.matchingsOf]

example : (!![(0 : ℚ), 1; 1, 0]).IsSymm := by decide

/-! ## C05 -/

/-- C05: `pf(A)^2 = dt(A)` for every skew-symmetric matrix. -/
theorem C05_pf_sq [Field K] [CharZero K] {n : ℕ} (A : Matrix (Fin n) (Fin n) K) (hA : Aᵀ = -A) :
    ∃ x, pf A = .ok x ∧ dt A = .ok (x ^ 2) := by
  obtain ⟨x, hx, hd⟩ := pf_sq_gen A hA
  exact ⟨x, hx, by rw [dt_ok, hd]⟩

example : (!![(0 : ℚ), 3; -3, 0])ᵀ = -!![(0 : ℚ), 3; -3, 0] := by decide

/-! ## C125 -/

/-- C125: the Pfaffian of a skew-symmetric matrix is the sum over all perfect matchings of the products of the matched
entries, each with the parity of its crossings as sign. (For odd `n` there is no perfect matching and both sides are
`0`.) -/
theorem C125_pf_eq_sum_matchings [Field K] [CharZero K] {n : ℕ} (A : Matrix (Fin n) (Fin n) K) (hA : Aᵀ = -A) :
    pf A = .ok (∑ M ∈ Spec.perfectMatchings n, (-1) ^ Spec.crossings M * ∏ e ∈ M, A e.1 e.2) :=
  pf_eq_sum_matchings A hA

/-- C125: the formula of docs/tutorials.rst for the Pfaffian, for every matrix with an even number of rows. -/
theorem C125_pf_formula [Field K] {m : ℕ} (A : Matrix (Fin (2 * m)) (Fin (2 * m)) K) :
    pf A = .ok (1 / (2 ^ m * (m.factorial : K)) * ∑ σ : Perm (Fin (2 * m)), ((Perm.sign σ : ℤ) : K) *
      ∏ i : Fin m, A (σ ⟨2 * i, by omega⟩) (σ ⟨2 * i + 1, by omega⟩)) := by
  rw [pf_ok, pfVal, div_eq_inv_mul, one_div]
  rfl

/-- C125: the same for the hafnian. -/
theorem C125_hf_formula [Field K] {m : ℕ} (A : Matrix (Fin (2 * m)) (Fin (2 * m)) K) :
    hf A = .ok (1 / (2 ^ m * (m.factorial : K)) * ∑ σ : Perm (Fin (2 * m)),
      ∏ i : Fin m, A (σ ⟨2 * i, by omega⟩) (σ ⟨2 * i + 1, by omega⟩)) := by
  rw [hf_ok, hfVal, div_eq_inv_mul, one_div]
  rfl

/-- A skew-symmetric matrix, and a matching with a crossing. -/
example : (!![(0 : ℚ), 1, 2, 3; -1, 0, 4, 5; -2, -4, 0, 6; -3, -5, -6, 0])ᵀ
      = -!![(0 : ℚ), 1, 2, 3; -1, 0, 4, 5; -2, -4, 0, 6; -3, -5, -6, 0] ∧
    Spec.IsPerfectMatching ({(0, 2), (1, 3)} : Finset (Fin 4 × Fin 4)) ∧
    Spec.crossings ({(0, 2), (1, 3)} : Finset (Fin 4 × Fin 4)) = 1 := by
  refine ⟨by decide +kernel, ⟨by decide, by unfold ExistsUnique; decide⟩, by decide⟩

/-! ## C06 -/

/-- C06: `pf(B A B^T) = dt(B) pf(A)` for all square `A`, `B` of the same size. -/
theorem C06_pf_congruence [Field K] {n : ℕ} (A B : Matrix (Fin n) (Fin n) K) :
    ∃ x d, pf A = .ok x ∧ dt B = .ok d ∧ pf (B * A * Bᵀ) = .ok (d * x) := by
  obtain ⟨x, hx, hx'⟩ := pf_congr_gen A B
  exact ⟨x, B.det, hx, dt_ok B, hx'⟩

/-- C06: swapping two rows and the same two columns flips the sign of `pf`. -/
theorem C06_pf_swap [Field K] [CharZero K] {n : ℕ} (A : Matrix (Fin n) (Fin n) K) (a b : Fin n)
    (hab : a ≠ b) :
    ∃ x, pf A = .ok x ∧ pf (A.submatrix (swap a b) (swap a b)) = .ok (-x) := by
  rcases Nat.even_or_odd' n with ⟨m, rfl | rfl⟩
  · refine ⟨pfVal A, pf_ok A, ?_⟩
    have := pf_perm A (swap a b)
    rw [Perm.sign_swap hab] at this
    rw [pf_ok]
    have e : A.reindex (swap a b) (swap a b) = A.submatrix (swap a b) (swap a b) := by
      rw [reindex_apply, symm_swap]
    rw [e] at this
    rw [this]; simp
  · exact ⟨0, pf_odd (by omega) A, by rw [pf_odd (by omega)]; simp⟩

example : pf !![(0 : ℚ), 3; -3, 0] = .ok 3 := by
  have h := pf_ok (m := 1) !![(0 : ℚ), 3; -3, 0]
  refine h.trans ?_
  congr 1
  have : (Finset.univ : Finset (Perm (Fin (2 * 1)))) = {1, swap 0 1} := by decide
  simp only [pfVal, this]
  rw [Finset.sum_pair (by decide)]
  simp [ev, od, Perm.sign_swap]

/-! ## C07 -/

/-- C07: `pf` and `hf` of a matrix with an odd number of rows are `0`, and so is `dt` of an
odd-dimensional skew-symmetric matrix. -/
theorem C07_odd [Field K] [CharZero K] {n : ℕ} (hn : Odd n) (A : Matrix (Fin n) (Fin n) K) :
    pf A = .ok 0 ∧ hf A = .ok 0 ∧ (Aᵀ = -A → dt A = .ok 0) := by
  have hn' := Nat.odd_iff.1 hn
  refine ⟨pf_odd hn' A, hf_odd hn' A, fun hA => ?_⟩
  obtain ⟨x, hx, hd⟩ := C05_pf_sq A hA
  rw [pf_odd hn' A] at hx
  cases hx
  simpa using hd

example : Odd 3 ∧ (!![(0 : ℚ), 1, 2; -1, 0, 3; -2, -3, 0])ᵀ = -!![(0 : ℚ), 1, 2; -1, 0, 3; -2, -3, 0] := by
  decide

/-! ## C08 -/

/-- The block matrix `[[0, A], [B, 0]]` as an array of shape `(2n, 2n)`. -/
def offDiagonal [Zero K] {n : ℕ} (A B : Matrix (Fin n) (Fin n) K) :
    Matrix (Fin (n + n)) (Fin (n + n)) K :=
  Matrix.of fun i j =>
    Fin.addCases
      (fun i' => Fin.addCases (fun _ => 0) (fun j' => A i' j') j)
      (fun i' => Fin.addCases (fun j' => B i' j') (fun _ => 0) j) i

theorem offDiagonal_eq [Field K] {n : ℕ} (s : K) (A : Matrix (Fin n) (Fin n) K) :
    offDiagonal A (s • Aᵀ) = bip s A := by
  ext i j
  refine Fin.addCases (fun i => ?_) (fun i => ?_) i <;>
    refine Fin.addCases (fun j => ?_) (fun j => ?_) j <;>
    simp [offDiagonal, bip, -Fin.natAdd_eq_addNat]

/-- C08: the hafnian of the biadjacency block matrix is the permanent. -/
theorem C08_hf_bipartite [Field K] [CharZero K] {n : ℕ} (A : Matrix (Fin n) (Fin n) K) :
    ∃ x, pt A = .ok x ∧ hf (offDiagonal A Aᵀ) = .ok x := by
  refine ⟨A.permanent, pt_ok A, ?_⟩
  have := offDiagonal_eq (1 : K) A
  rw [one_smul] at this
  rw [this, hf_eq_hfM _ (bip_isSymm A), hfM_bip]

/-- C08: the Pfaffian of the signed biadjacency block matrix is the determinant up to the sign
`(-1)^(n(n-1)/2)`. -/
theorem C08_pf_bipartite [Field K] [CharZero K] {n : ℕ} (A : Matrix (Fin n) (Fin n) K) :
    ∃ x, dt A = .ok x ∧ pf (offDiagonal A (-Aᵀ)) = .ok ((-1) ^ (n * (n - 1) / 2) * x) := by
  refine ⟨A.det, dt_ok A, ?_⟩
  have := offDiagonal_eq (-1 : K) A
  rw [neg_smul, one_smul] at this
  rw [this, pf_bip]

/-! ## C09 -/

/-- C09: `pf` only sees the antisymmetric part, `hf` only the symmetric part. -/
theorem C09_parts [Field K] [CharZero K] {n : ℕ} (A : Matrix (Fin n) (Fin n) K) :
    pf A = pf ((1 / 2 : K) • (A - Aᵀ)) ∧ hf A = hf ((1 / 2 : K) • (A + Aᵀ)) :=
  ⟨(pf_skew A).symm, (hf_symm A).symm⟩

/-- C09: consequently `pf` vanishes on non-empty symmetric matrices. -/
theorem C09_pf_symmetric [Field K] [CharZero K] {n : ℕ} (hn : n ≠ 0) (A : Matrix (Fin n) (Fin n) K)
    (hA : A.IsSymm) : pf A = .ok 0 := by
  rw [(C09_parts A).1, hA, sub_self, smul_zero]
  obtain ⟨x, hx, hd⟩ := C05_pf_sq (0 : Matrix (Fin n) (Fin n) K) (by simp)
  haveI : Nonempty (Fin n) := ⟨⟨0, Nat.pos_of_ne_zero hn⟩⟩
  rw [dt_ok, det_zero] at hd
  have h0 : x ^ 2 = 0 := by injection hd with hd; exact hd.symm
  rw [hx, pow_eq_zero_iff (by norm_num) |>.1 h0]

/-- C09: `pf(A^T) = (-1)^(n/2) pf(A)` and `hf(A^T) = hf(A)`. -/
theorem C09_transpose [Field K] [CharZero K] {n : ℕ} (A : Matrix (Fin n) (Fin n) K) :
    (∃ x, pf A = .ok x ∧ pf Aᵀ = .ok ((-1) ^ (n / 2) * x)) ∧ hf Aᵀ = hf A := by
  refine ⟨?_, by rw [(C09_parts A).2, (C09_parts Aᵀ).2, transpose_transpose, add_comm]⟩
  rcases Nat.even_or_odd' n with ⟨m, rfl | rfl⟩
  · refine ⟨pfVal A, pf_ok A, ?_⟩
    have e : (1 / 2 : K) • (Aᵀ - Aᵀᵀ) = -((1 / 2 : K) • (A - Aᵀ)) := by
      rw [transpose_transpose, ← smul_neg, neg_sub]
    rw [pf_ok, ← pfVal_skew Aᵀ, e, ← pfVal_skew A]
    congr 1
    have h2 : 2 * m / 2 = m := by omega
    simp only [pfVal, h2, Matrix.neg_apply, Finset.prod_neg, Finset.card_univ, Fintype.card_fin]
    rw [← mul_div_assoc, Finset.mul_sum]
    congr 1
    exact Finset.sum_congr rfl fun σ _ => by ring
  · exact ⟨0, pf_odd (by omega) A, by rw [pf_odd (by omega)]; simp⟩

example : (2 : ℕ) ≠ 0 ∧ (!![(5 : ℚ), 1; 1, 7]).IsSymm := by decide

/-! ## C10 -/

/-- The contract of `np.linalg.eigvals` on square matrices: when it succeeds, it returns the roots of
the characteristic polynomial with multiplicity; it can only fail with `LinAlgError`. -/
structure EigvalsContract
    (eigvals : {n : ℕ} → Matrix (Fin n) (Fin n) ℂ → Except PyErr (List ℂ)) : Prop where
  roots : ∀ {n : ℕ} (A : Matrix (Fin n) (Fin n) ℂ) l, eigvals A = .ok l →
    (l : Multiset ℂ) = A.charpoly.roots
  fails : ∀ {n : ℕ} (A : Matrix (Fin n) (Fin n) ℂ) e, eigvals A = .error e → e = .linAlgError

/-- C10: whenever the eigenvalue routine succeeds on a square matrix, `dt_eigen` returns what `dt`
returns. -/
theorem C10_dt_eigen
    (eigvals : {n : ℕ} → Matrix (Fin n) (Fin n) ℂ → Except PyErr (List ℂ))
    (hc : EigvalsContract eigvals) {n : ℕ} (A : Matrix (Fin n) (Fin n) ℂ)
    (hs : ∃ l, eigvals A = .ok l) :
    ∃ d, dtEigen eigvals A = .ok (some d) ∧ dt A = .ok d := by
  obtain ⟨l, hl⟩ := hs
  refine ⟨A.det, ?_, dt_ok A⟩
  have hA : A.submatrix id (Fin.cast rfl) = A := by ext; simp
  unfold dtEigen
  rw [dif_neg (by simp)]
  simp only [hA, hl]
  rw [det_eq_prod_roots_charpoly A, ← hc.roots A l hl, Multiset.prod_coe, List.prod_eq_foldl]

/-- C10: `dt_eigen` returns `None` exactly when the matrix is not square or the eigenvalue routine
fails; it never raises. -/
theorem C10_dt_eigen_none
    (eigvals : {n : ℕ} → Matrix (Fin n) (Fin n) ℂ → Except PyErr (List ℂ))
    (hc : EigvalsContract eigvals) {m n : ℕ} (A : Matrix (Fin m) (Fin n) ℂ) :
    (dtEigen eigvals A = .ok none ↔
      m ≠ n ∨ ∃ h : n = m, eigvals (A.submatrix id (Fin.cast h.symm)) = .error .linAlgError) ∧
    ∀ e, dtEigen eigvals A ≠ .error e := by
  unfold dtEigen
  by_cases h : m = n
  · subst h
    rw [dif_neg (by simp)]
    have hA : A.submatrix id (Fin.cast rfl) = A := by ext; simp
    rcases he : eigvals A with e | l
    · have := hc.fails _ _ he
      subst this
      simp [he]
    · simp [he]
  · rw [dif_pos h]
    simp [h]

/-- The contract can be met. -/
noncomputable example :
    { f : {n : ℕ} → Matrix (Fin n) (Fin n) ℂ → Except PyErr (List ℂ) // EigvalsContract f } :=
  ⟨fun A => .ok A.charpoly.roots.toList,
    ⟨fun A l h => by cases h; exact Multiset.coe_toList _, fun A e h => by cases h⟩⟩

/-! ## C11 -/

/-- C11: `dt` and `pt` are multiplicative over `kron_plus`. -/
theorem C11_dt_pt_kron_plus [CommRing K] {p r : ℕ} (A : Matrix (Fin p) (Fin p) K)
    (B : Matrix (Fin r) (Fin r) K) :
    ∃ C a b a' b', kronPlus A B = .ok C ∧ dt A = .ok a ∧ dt B = .ok b ∧ dt C = .ok (a * b) ∧
      pt A = .ok a' ∧ pt B = .ok b' ∧ pt C = .ok (a' * b') :=
  ⟨dsum A B, A.det, B.det, A.permanent, B.permanent, kronPlus_ok A B, dt_ok A, dt_ok B,
    by rw [dt_ok, det_dsum], pt_ok A, pt_ok B, by rw [pt_ok, permanent_dsum]⟩

/-- C11: `pf` and `hf` are multiplicative over `kron_plus` (for all sizes, even or odd). -/
theorem C11_pf_hf_kron_plus [Field K] [CharZero K] {p r : ℕ} (A : Matrix (Fin p) (Fin p) K)
    (B : Matrix (Fin r) (Fin r) K) :
    ∃ C a b a' b', kronPlus A B = .ok C ∧ pf A = .ok a ∧ pf B = .ok b ∧ pf C = .ok (a * b) ∧
      hf A = .ok a' ∧ hf B = .ok b' ∧ hf C = .ok (a' * b') := by
  obtain ⟨a, b, h1, h2, h3⟩ := pf_dsum A B
  obtain ⟨a', b', h1', h2', h3'⟩ := hf_dsum A B
  exact ⟨dsum A B, a, b, a', b', kronPlus_ok A B, h1, h2, h3, h1', h2', h3'⟩

end FF.Props
