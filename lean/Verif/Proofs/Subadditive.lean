import Verif.Proofs.Klein

/-! # Proofs: the entropy of a state and of its parts -/

namespace FF

open Matrix Finset
open scoped ComplexOrder

variable {a b N : ℕ}

theorem trace_kron_left (ρ : Op (a * b)) (A : Op a) : (ρ * npKron A (1 : Op b)).trace = (pt2 ρ * A).trace := by
  simp only [Matrix.trace, diag_apply, mul_apply]
  rw [← finProdFinEquiv.sum_comp, Fintype.sum_prod_type]
  refine sum_congr rfl fun i _ => ?_
  have : ∀ j : Fin b, ∑ y, ρ (finProdFinEquiv (i, j)) y * npKron A 1 y (finProdFinEquiv (i, j)) =
      ∑ k, ρ (finProdFinEquiv (i, j)) (finProdFinEquiv (k, j)) * A k i := fun j => by
    rw [← finProdFinEquiv.sum_comp, Fintype.sum_prod_type]
    refine sum_congr rfl fun k _ => ?_
    simp only [npKron_prod, one_apply]
    rw [sum_eq_single j (fun m _ hm => by rw [if_neg hm]; ring) (by simp), if_pos rfl, mul_one]
  rw [sum_congr rfl fun j _ => this j, sum_comm]
  refine sum_congr rfl fun k _ => ?_
  rw [pt2, sum_apply2, sum_mul]
  rfl

theorem trace_kron_right (ρ : Op (a * b)) (B : Op b) : (ρ * npKron (1 : Op a) B).trace = (pt1 ρ * B).trace := by
  simp only [Matrix.trace, diag_apply, mul_apply]
  rw [← finProdFinEquiv.sum_comp, Fintype.sum_prod_type, sum_comm]
  refine sum_congr rfl fun j _ => ?_
  have : ∀ i : Fin a, ∑ y, ρ (finProdFinEquiv (i, j)) y * npKron 1 B y (finProdFinEquiv (i, j)) =
      ∑ k, ρ (finProdFinEquiv (i, j)) (finProdFinEquiv (i, k)) * B k j := fun i => by
    rw [← finProdFinEquiv.sum_comp, Fintype.sum_prod_type, sum_comm]
    refine sum_congr rfl fun k _ => ?_
    simp only [npKron_prod, one_apply]
    rw [sum_eq_single i (fun m _ hm => by rw [if_neg hm]; ring) (by simp), if_pos rfl, one_mul]
  rw [sum_congr rfl fun i _ => this i, sum_comm]
  refine sum_congr rfl fun k _ => ?_
  rw [pt1, sum_apply2, sum_mul]
  rfl

theorem pt2_conj {Y : Op a} {X : Op b} (hX : X * Xᴴ = 1) (ρ : Op (a * b)) :
    pt2 ((npKron Y X)ᴴ * ρ * npKron Y X) = Yᴴ * pt2 ρ * Y := by
  rw [ext_iff_trace_mul_right]
  intro A
  rw [← trace_kron_left, Matrix.mul_assoc, Matrix.mul_assoc, trace_mul_comm, npKron_conjTranspose, npKron_mul, mul_one, Matrix.mul_assoc,
    npKron_mul, hX, trace_kron_left, show Yᴴ * pt2 ρ * Y * A = Yᴴ * (pt2 ρ * (Y * A)) by simp only [Matrix.mul_assoc],
    trace_mul_comm Yᴴ]
  simp only [Matrix.mul_assoc]

theorem pt1_conj {Y : Op a} {X : Op b} (hY : Y * Yᴴ = 1) (ρ : Op (a * b)) :
    pt1 ((npKron Y X)ᴴ * ρ * npKron Y X) = Xᴴ * pt1 ρ * X := by
  rw [ext_iff_trace_mul_right]
  intro A
  rw [← trace_kron_right, Matrix.mul_assoc, Matrix.mul_assoc, trace_mul_comm, npKron_conjTranspose, npKron_mul, mul_one, Matrix.mul_assoc,
    npKron_mul, hY, trace_kron_right, show Xᴴ * pt1 ρ * X * A = Xᴴ * (pt1 ρ * (X * A)) by simp only [Matrix.mul_assoc],
    trace_mul_comm Xᴴ]
  simp only [Matrix.mul_assoc]

/-- A real symmetric matrix has real eigenvectors. -/
theorem real_basis {M : Matrix (Fin N) (Fin N) ℝ} (hM : M.IsSymm) {l : Fin N → ℝ} (hl : Spec.IsSpectrum (M.map ((↑) : ℝ → ℂ)) l) :
    ∃ O : Matrix (Fin N) (Fin N) ℝ, O * Oᵀ = 1 ∧ M = O * diagonal l * Oᵀ := by
  have hH : M.IsHermitian := by rw [IsHermitian, conjTranspose_eq_transpose_of_trivial]; exact hM
  obtain ⟨U, d, hU, hd⟩ : ∃ (U : Matrix (Fin N) (Fin N) ℝ) (d : Fin N → ℝ), U * Uᵀ = 1 ∧ M = U * diagonal d * Uᵀ := by
    refine ⟨hH.eigenvectorUnitary, hH.eigenvalues, ?_, ?_⟩
    · have : (hH.eigenvectorUnitary : Matrix (Fin N) (Fin N) ℝ) * (hH.eigenvectorUnitary : Matrix (Fin N) (Fin N) ℝ)ᴴ = 1 :=
        Unitary.coe_mul_star_self hH.eigenvectorUnitary
      rwa [conjTranspose_eq_transpose_of_trivial] at this
    · have := hH.spectral_theorem
      rw [Unitary.conjStarAlgAut_apply, star_eq_conjTranspose, conjTranspose_eq_transpose_of_trivial] at this
      exact this
  have hc : (M.map ((↑) : ℝ → ℂ)).charpoly = ∏ i, (Polynomial.X - Polynomial.C ((d i : ℝ) : ℂ)) := by
    have hU2 : (U.map ((↑) : ℝ → ℂ)) * (U.map ((↑) : ℝ → ℂ))ᴴ = 1 := by
      have := congrArg (fun Z : Matrix (Fin N) (Fin N) ℝ => Z.map Complex.ofRealHom) hU
      simp only [Matrix.map_mul, Matrix.map_one _ (map_zero _) (map_one _)] at this
      rw [← this]
      congr 1
      ext i j
      simp [conjTranspose_apply, transpose_apply]
    have hM2 : M.map ((↑) : ℝ → ℂ) = (U.map ((↑) : ℝ → ℂ)) * diagonal (fun i => ((d i : ℝ) : ℂ)) * (U.map ((↑) : ℝ → ℂ))ᴴ := by
      have := congrArg (fun Z : Matrix (Fin N) (Fin N) ℝ => Z.map Complex.ofRealHom) hd
      simp only [Matrix.map_mul] at this
      refine this.trans ?_
      congr 1
      · congr 1
        ext i j
        rw [map_apply, diagonal_apply, diagonal_apply]
        split_ifs <;> simp
      · ext i j
        simp [conjTranspose_apply, transpose_apply]
    rw [hM2, charpoly_unitary hU2, charpoly_diagonal]
  obtain ⟨π, hπ⟩ := same_roots (hl.2.symm.trans hc)
  refine ⟨U.submatrix id π, ?_, ?_⟩
  · rw [transpose_submatrix, submatrix_mul_equiv, hU, submatrix_id_id]
  · have : diagonal l = (diagonal d).submatrix π π := by
      rw [submatrix_diagonal_equiv]
      congr 1
      funext i
      simp [hπ i]
    rw [this, transpose_submatrix, submatrix_mul_equiv, submatrix_mul_equiv, submatrix_id_id, ← hd]

/-- An eigenbasis of the matrix or of its real part in which the diagonal of the matrix consists of these eigenvalues. -/
theorem re_basis {T : Op N} (hT : T.IsHermitian) {l : Fin N → ℝ} {R : Op N} (hR : R = T ∨ R = reMat T) (hl : Spec.IsSpectrum R l) :
    ∃ Y : Op N, Y * Yᴴ = 1 ∧ R = Y * diagonal (fun i => ((l i : ℝ) : ℂ)) * Yᴴ ∧ ∀ x, ((Yᴴ * T * Y) x x).re = l x := by
  rcases hR with rfl | rfl
  · obtain ⟨Y, hY, hR⟩ := spectrum_basis hT hl
    have hY' : Yᴴ * Y = 1 := mul_eq_one_comm.1 hY
    refine ⟨Y, hY, hR, fun x => ?_⟩
    rw [hR, show Yᴴ * (Y * diagonal (fun i => ((l i : ℝ) : ℂ)) * Yᴴ) * Y = (Yᴴ * Y) * diagonal (fun i => ((l i : ℝ) : ℂ)) * (Yᴴ * Y) by
      simp only [Matrix.mul_assoc], hY', one_mul, mul_one, diagonal_apply_eq, Complex.ofReal_re]
  · obtain ⟨M, hM⟩ : ∃ M : Matrix (Fin N) (Fin N) ℝ, M = Matrix.of fun i j => (T i j).re := ⟨_, rfl⟩
    have hRM : reMat T = M.map ((↑) : ℝ → ℂ) := by ext i j; rw [hM]; rfl
    have hsym : M.IsSymm := by
      ext i j
      rw [hM, transpose_apply, of_apply, of_apply, ← hT.apply i j, Complex.star_def, Complex.conj_re]
    rw [hRM] at hl
    obtain ⟨O, hO, hMO⟩ := real_basis hsym hl
    have e : ∀ Z W : Matrix (Fin N) (Fin N) ℝ, (Z * W).map ((↑) : ℝ → ℂ) = Z.map ((↑) : ℝ → ℂ) * W.map ((↑) : ℝ → ℂ) := fun Z W =>
      Matrix.map_mul (f := Complex.ofRealHom)
    have eh : (O.map ((↑) : ℝ → ℂ))ᴴ = Oᵀ.map ((↑) : ℝ → ℂ) := by ext i j; simp [conjTranspose_apply]
    refine ⟨O.map ((↑) : ℝ → ℂ), ?_, ?_, fun x => ?_⟩
    · rw [eh, ← e, hO, Matrix.map_one _ Complex.ofReal_zero Complex.ofReal_one]
    · rw [hRM, eh, hMO, e, e, diagonal_map Complex.ofReal_zero]
    · have h1 : (Oᵀ * M * O) x x = l x := by
        rw [hMO, show Oᵀ * (O * diagonal l * Oᵀ) * O = (Oᵀ * O) * diagonal l * (Oᵀ * O) by simp only [Matrix.mul_assoc],
          mul_eq_one_comm.1 hO, one_mul, mul_one, diagonal_apply_eq]
      rw [← h1, eh]
      simp only [mul_apply, Complex.re_sum, map_apply, transpose_apply, Complex.re_mul_ofReal, Complex.re_ofReal_mul, hM, of_apply]

end FF
