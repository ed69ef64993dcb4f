import Verif.Proofs.Distance3
import Verif.Proofs.Operators
import Mathlib.LinearAlgebra.Matrix.Charpoly.Coeff
import Mathlib.LinearAlgebra.Matrix.Charpoly.Basic

/-! # The trace norm of Hermitian matrices -/

namespace FF

open Matrix
open scoped ComplexOrder ComplexConjugate

variable {d : ℕ}

/-- The sum of the moduli of the eigenvalues. -/
noncomputable def tnorm (X : Op d) : ℝ := (X.charpoly.roots.map fun z => ‖z‖).sum

theorem herm_diag {X : Op d} (hX : X.IsHermitian) : ∃ (U : Op d) (l : Fin d → ℝ), U * Uᴴ = 1 ∧ Uᴴ * U = 1 ∧
    X = U * diagonal (fun i => (l i : ℂ)) * Uᴴ ∧ X.charpoly.roots = Finset.univ.val.map fun i => (l i : ℂ) := by
  refine ⟨hX.eigenvectorUnitary, hX.eigenvalues, ?_, ?_, ?_, ?_⟩
  · exact mem_unitaryGroup_iff.1 hX.eigenvectorUnitary.2
  · exact mem_unitaryGroup_iff'.1 hX.eigenvectorUnitary.2
  · have := hX.spectral_theorem
    rw [Unitary.conjStarAlgAut_apply] at this
    exact this
  · rw [hX.roots_charpoly_eq_eigenvalues]
    rfl

theorem tnorm_eq {X : Op d} {l : Fin d → ℝ} (h : X.charpoly.roots = Finset.univ.val.map fun i => (l i : ℂ)) :
    tnorm X = ∑ i, |l i| := by
  rw [tnorm, h, Multiset.map_map]
  simp only [Function.comp_apply, Complex.norm_real, Real.norm_eq_abs]
  rfl

theorem unitary_entry {V : Op d} (hV : V * Vᴴ = 1) (i j : Fin d) : ‖V i j‖ ≤ 1 := by
  have h := congrFun (congrFun hV i) i
  rw [mul_apply, one_apply_eq] at h
  simp only [conjTranspose_apply, Complex.star_def, Complex.mul_conj, Complex.normSq_eq_norm_sq] at h
  have h2 : ∑ j, ‖V i j‖ ^ 2 = 1 := by exact_mod_cast h
  have h3 := Finset.single_le_sum (f := fun j => ‖V i j‖ ^ 2) (fun j _ => by positivity) (Finset.mem_univ j)
  rw [h2] at h3
  have h4 : ‖V i j‖ ^ 2 ≤ 1 ^ 2 := by simpa using h3
  exact (sq_le_sq₀ (norm_nonneg _) zero_le_one).1 h4

theorem tnorm_bound {X : Op d} (hX : X.IsHermitian) {S : Op d} (hS : S * Sᴴ = 1) : ‖(S * X).trace‖ ≤ tnorm X := by
  obtain ⟨U, l, h1, h2, h3, h4⟩ := herm_diag hX
  rw [tnorm_eq h4]
  have e : (S * X).trace = ∑ i, (Uᴴ * S * U) i i * (l i : ℂ) := by
    rw [h3, ← mul_assoc, ← mul_assoc, trace_mul_comm, ← mul_assoc, ← mul_assoc, trace]
    simp only [diag_apply, mul_diagonal]
  have hV : (Uᴴ * S * U) * (Uᴴ * S * U)ᴴ = 1 := by
    rw [conjTranspose_mul, conjTranspose_mul, conjTranspose_conjTranspose]
    calc Uᴴ * S * U * (Uᴴ * (Sᴴ * U)) = Uᴴ * (S * (U * Uᴴ) * Sᴴ) * U := by noncomm_ring
      _ = 1 := by rw [h1, mul_one, hS, mul_one, h2]
  rw [e]
  refine (norm_sum_le _ _).trans (Finset.sum_le_sum fun i _ => ?_)
  rw [norm_mul, Complex.norm_real, Real.norm_eq_abs]
  exact mul_le_of_le_one_left (abs_nonneg _) (unitary_entry hV i i)

theorem tnorm_attained {X : Op d} (hX : X.IsHermitian) : ∃ S : Op d, S * Sᴴ = 1 ∧ (S * X).trace = (tnorm X : ℂ) := by
  classical
  obtain ⟨U, l, h1, h2, h3, h4⟩ := herm_diag hX
  set s : Fin d → ℂ := fun i => if 0 ≤ l i then 1 else -1 with hs
  have hss : diagonal s * (diagonal s)ᴴ = (1 : Op d) := by
    rw [diagonal_conjTranspose, diagonal_mul_diagonal, ← diagonal_one]
    congr 1
    funext i
    simp only [hs, Pi.star_apply]
    split <;> simp
  refine ⟨U * diagonal s * Uᴴ, ?_, ?_⟩
  · rw [conjTranspose_mul, conjTranspose_mul, conjTranspose_conjTranspose]
    calc U * diagonal s * Uᴴ * (U * ((diagonal s)ᴴ * Uᴴ)) = U * (diagonal s * (Uᴴ * U) * (diagonal s)ᴴ) * Uᴴ := by
          noncomm_ring
      _ = 1 := by rw [h2, mul_one, hss, mul_one, h1]
  · have : U * diagonal s * Uᴴ * X = U * (diagonal s * diagonal fun i => (l i : ℂ)) * Uᴴ := by
      rw [h3]
      calc U * diagonal s * Uᴴ * (U * diagonal (fun i => (l i : ℂ)) * Uᴴ)
          = U * (diagonal s * (Uᴴ * U) * diagonal (fun i => (l i : ℂ))) * Uᴴ := by noncomm_ring
        _ = _ := by rw [h2, mul_one]
    rw [this, trace_mul_comm, ← mul_assoc, h2, one_mul, diagonal_mul_diagonal, trace_diagonal, tnorm_eq h4,
      Complex.ofReal_sum]
    refine Finset.sum_congr rfl fun i _ => ?_
    simp only [hs]
    split
    · rw [one_mul, abs_of_nonneg ‹_›]
    · rw [neg_one_mul, abs_of_neg (not_le.1 ‹_›), Complex.ofReal_neg]

theorem tnorm_nonneg (X : Op d) : 0 ≤ tnorm X := by
  rw [tnorm]
  refine Multiset.sum_nonneg fun x hx => ?_
  obtain ⟨z, -, rfl⟩ := Multiset.mem_map.1 hx
  exact norm_nonneg z

theorem tnorm_triangle {X Y : Op d} (hX : X.IsHermitian) (hY : Y.IsHermitian) : tnorm (X + Y) ≤ tnorm X + tnorm Y := by
  obtain ⟨S, hS, h⟩ := tnorm_attained (hX.add hY)
  have h1 := tnorm_bound hX hS
  have h2 := tnorm_bound hY hS
  rw [mul_add, trace_add] at h
  have h3 : ‖((tnorm (X + Y) : ℝ) : ℂ)‖ ≤ ‖(S * X).trace‖ + ‖(S * Y).trace‖ := by rw [← h]; exact norm_add_le _ _
  rw [Complex.norm_real, Real.norm_eq_abs, abs_of_nonneg (tnorm_nonneg _)] at h3
  linarith

theorem tnorm_zero_iff {X : Op d} (hX : X.IsHermitian) : tnorm X = 0 ↔ X = 0 := by
  constructor
  · intro h
    obtain ⟨U, l, h1, h2, h3, h4⟩ := herm_diag hX
    rw [tnorm_eq h4, Finset.sum_eq_zero_iff_of_nonneg fun i _ => abs_nonneg _] at h
    have : (fun i => (l i : ℂ)) = 0 := by
      funext i
      rw [abs_eq_zero.1 (h i (Finset.mem_univ i)), Complex.ofReal_zero]; rfl
    rw [h3, this]
    simp
  · rintro rfl
    obtain ⟨S, -, h⟩ := tnorm_attained (X := (0 : Op d)) isHermitian_zero
    rw [mul_zero, trace_zero] at h
    exact_mod_cast h.symm

theorem tnorm_neg {X : Op d} (hX : X.IsHermitian) : tnorm (-X) = tnorm X := by
  have key : ∀ {Y : Op d}, Y.IsHermitian → tnorm (-Y) ≤ tnorm Y := by
    intro Y hY
    obtain ⟨S, hS, h⟩ := tnorm_attained hY.neg
    have h1 := tnorm_bound hY hS
    rw [mul_neg, trace_neg] at h
    rw [← norm_neg, h, Complex.norm_real, Real.norm_eq_abs, abs_of_nonneg (tnorm_nonneg _)] at h1
    exact h1
  refine le_antisymm (key hX) ?_
  have := key hX.neg
  rwa [neg_neg] at this

theorem tnorm_conj (X : Op d) {V : Op d} (hV : Vᴴ * V = 1) : tnorm (V * X * Vᴴ) = tnorm X := by
  rw [tnorm, charpoly_mul_comm, ← mul_assoc, hV, one_mul]
  rfl

theorem tnorm_density {ρ : Op d} (h : Spec.IsDensity ρ) : tnorm ρ = 1 := by
  have hl := h.psd.isHermitian
  have h4 := hl.roots_charpoly_eq_eigenvalues
  rw [tnorm_eq (l := hl.eigenvalues) h4]
  have h1 : ∀ i, |hl.eigenvalues i| = hl.eigenvalues i := fun i => abs_of_nonneg (h.psd.eigenvalues_nonneg i)
  simp_rw [h1]
  have h2 := hl.trace_eq_sum_eigenvalues
  rw [h.trace_one] at h2
  apply Complex.ofReal_injective
  push_cast
  exact h2.symm

theorem tnorm_diag_le {X : Op d} (hX : X.IsHermitian) : ∑ i, |(X i i).re| ≤ tnorm X := by
  classical
  set s : Fin d → ℂ := fun i => if 0 ≤ (X i i).re then 1 else -1 with hs
  have hss : diagonal s * (diagonal s)ᴴ = (1 : Op d) := by
    rw [diagonal_conjTranspose, diagonal_mul_diagonal, ← diagonal_one]
    congr 1
    funext i
    simp only [hs, Pi.star_apply]
    split <;> simp
  have h := tnorm_bound hX hss
  have e : (diagonal s * X).trace = ((∑ i, |(X i i).re| : ℝ) : ℂ) := by
    rw [trace, Complex.ofReal_sum]
    refine Finset.sum_congr rfl fun i _ => ?_
    have hi : X i i = ((X i i).re : ℂ) := (Complex.conj_eq_iff_re.1 (hX.apply i i)).symm
    rw [diag_apply, diagonal_mul, hi, Complex.ofReal_re]
    simp only [hs]
    split
    · rw [one_mul, abs_of_nonneg ‹_›]
    · rw [neg_one_mul, abs_of_neg (not_le.1 ‹_›), Complex.ofReal_neg]
  rw [e, Complex.norm_real, Real.norm_eq_abs, abs_of_nonneg (Finset.sum_nonneg fun i _ => abs_nonneg _)] at h
  exact h

theorem tnorm_diagonal (l : Fin d → ℝ) : tnorm (diagonal fun i => (l i : ℂ)) = ∑ i, |l i| := by
  refine tnorm_eq ?_
  rw [charpoly_diagonal, Polynomial.roots_prod _ _ (Finset.prod_ne_zero_iff.2 fun i _ => Polynomial.X_sub_C_ne_zero _)]
  simp [Polynomial.roots_X_sub_C, Multiset.bind_singleton]

theorem state_cast {x : Arr} {ρ : Op d} (h : Spec.IsState x ρ) : castToDensityMatrix x = .ok ⟨d, ρ⟩ ∧ Spec.IsDensity ρ := by
  rcases h with ⟨ψ, hψ, rfl, rfl⟩ | ⟨hρ, rfl⟩ | ⟨p, hp, rfl, rfl, h2⟩
  · refine ⟨Props.C16_unit_vector d ψ hψ, proj_psd ψ, ?_⟩
    rw [proj_trace, hψ]; norm_num
  · exact ⟨Props.C16_density d ρ hρ, hρ⟩
  · refine ⟨Props.C16_prob_vector d p hp h2, diag_psd hp.nonneg, ?_⟩
    rw [trace_diagonal]
    exact_mod_cast hp.sum_one

theorem state_represents {x : Arr} {ρ : Op d} (h : Spec.IsState x ρ) : Spec.Represents x fun i => (ρ i i).re := by
  rcases h with ⟨ψ, hψ, rfl, rfl⟩ | ⟨hρ, rfl⟩ | ⟨p, hp, rfl, rfl, h2⟩
  · refine .inl ⟨ψ, hψ, rfl, fun i => ?_⟩
    simp only [Spec.proj, of_apply, Complex.star_def, Complex.mul_conj, Complex.normSq_eq_norm_sq, Complex.ofReal_re]
  · exact .inr (.inl ⟨ρ, hρ, rfl, fun i => Complex.conj_eq_iff_re.1 (hρ.psd.isHermitian.apply i i)⟩)
  · refine .inr (.inr ⟨?_, ?_, ?_⟩) <;> simp only [diagonal_apply_eq, Complex.ofReal_re]
    · exact hp
    · exact h2

/-- No test distinguishes better than half the trace norm. -/
theorem helstrom_le {X : Op d} (hX : X.IsHermitian) (h0 : X.trace = 0) {E : Op d} (hE : E.PosSemidef)
    (hE' : (1 - E).PosSemidef) : ((E * X).trace).re ≤ 1 / 2 * tnorm X := by
  obtain ⟨U, l, h1, h2, h3, h4⟩ := herm_diag hX
  rw [tnorm_eq h4]
  have e : (E * X).trace = ∑ i, (Uᴴ * E * U) i i * (l i : ℂ) := by
    rw [h3, ← mul_assoc, ← mul_assoc, trace_mul_comm, ← mul_assoc, ← mul_assoc, trace]
    simp only [diag_apply, mul_diagonal]
  have hs : ∑ i, l i = 0 := by
    rw [h3, trace_mul_comm, ← mul_assoc, h2, one_mul, trace_diagonal] at h0
    exact_mod_cast h0
  have hv : ∀ i, 0 ≤ ((Uᴴ * E * U) i i).re ∧ ((Uᴴ * E * U) i i).re ≤ 1 := by
    intro i
    have a1 := (hE.conjTranspose_mul_mul_same U).diag_nonneg (i := i)
    have a2 := (hE'.conjTranspose_mul_mul_same U).diag_nonneg (i := i)
    rw [mul_sub, mul_one, sub_mul, h2, Matrix.sub_apply, one_apply_eq] at a2
    have b1 := (Complex.le_def.1 a1).1
    have b2 := (Complex.le_def.1 a2).1
    simp only [Complex.zero_re, Complex.sub_re, Complex.one_re] at b1 b2
    exact ⟨b1, by linarith⟩
  rw [e, Complex.re_sum]
  have key : ∀ i, ((Uᴴ * E * U) i i * (l i : ℂ)).re ≤ 1 / 2 * |l i| + 1 / 2 * l i := by
    intro i
    rw [Complex.re_mul_ofReal]
    obtain ⟨b1, b2⟩ := hv i
    rcases abs_cases (l i) with ⟨h, h'⟩ | ⟨h, h'⟩ <;> rw [h] <;> nlinarith
  refine (Finset.sum_le_sum fun i _ => key i).trans ?_
  rw [Finset.sum_add_distrib, ← Finset.mul_sum, ← Finset.mul_sum, hs]
  simp

theorem helstrom_attained {X : Op d} (hX : X.IsHermitian) (h0 : X.trace = 0) : ∃ E : Op d, E.PosSemidef ∧
    (1 - E).PosSemidef ∧ ((E * X).trace).re = 1 / 2 * tnorm X := by
  classical
  obtain ⟨U, l, h1, h2, h3, h4⟩ := herm_diag hX
  have hs : ∑ i, l i = 0 := by
    rw [h3, trace_mul_comm, ← mul_assoc, h2, one_mul, trace_diagonal] at h0
    exact_mod_cast h0
  set s : Fin d → ℝ := fun i => if 0 ≤ l i then 1 else 0 with hsd
  have p1 : (U * diagonal (fun i => (s i : ℂ)) * Uᴴ).PosSemidef :=
    (diag_psd fun i => by simp only [hsd]; split <;> norm_num).mul_mul_conjTranspose_same U
  refine ⟨U * diagonal (fun i => (s i : ℂ)) * Uᴴ, p1, ?_, ?_⟩
  · have : 1 - U * diagonal (fun i => (s i : ℂ)) * Uᴴ = U * diagonal (fun i => ((1 - s i : ℝ) : ℂ)) * Uᴴ := by
      have e : (diagonal fun i => ((1 - s i : ℝ) : ℂ)) = 1 - diagonal fun i => (s i : ℂ) := by
        rw [← diagonal_one, diagonal_sub]
        congr 1
        funext i
        push_cast; rfl
      rw [e, mul_sub, mul_one, sub_mul, h1]
    rw [this]
    exact (diag_psd fun i => by simp only [hsd]; split <;> norm_num).mul_mul_conjTranspose_same U
  · have : U * diagonal (fun i => (s i : ℂ)) * Uᴴ * X =
        U * (diagonal (fun i => (s i : ℂ)) * diagonal fun i => (l i : ℂ)) * Uᴴ := by
      rw [h3]
      calc U * diagonal (fun i => (s i : ℂ)) * Uᴴ * (U * diagonal (fun i => (l i : ℂ)) * Uᴴ)
          = U * (diagonal (fun i => (s i : ℂ)) * (Uᴴ * U) * diagonal (fun i => (l i : ℂ))) * Uᴴ := by noncomm_ring
        _ = _ := by rw [h2, mul_one]
    rw [this, trace_mul_comm, ← mul_assoc, h2, one_mul, diagonal_mul_diagonal, trace_diagonal, tnorm_eq h4,
      Complex.re_sum]
    have key : ∀ i, ((s i : ℂ) * (l i : ℂ)).re = 1 / 2 * |l i| + 1 / 2 * l i := by
      intro i
      rw [Complex.re_mul_ofReal, Complex.ofReal_re]
      simp only [hsd]
      split
      · rw [abs_of_nonneg ‹_›]; ring
      · rw [abs_of_neg (not_le.1 ‹_›)]; ring
    rw [Finset.sum_congr rfl fun i _ => key i, Finset.sum_add_distrib, ← Finset.mul_sum, ← Finset.mul_sum, hs]
    simp

/-- `Tr(S Tr_1 X) = Tr((1 ⊗ S) X)`. -/
theorem trace_pt1_mul {a b : ℕ} (S : Op b) (X : Matrix (Fin (a * b)) (Fin (a * b)) ℂ) :
    (S * pt1 X).trace = (npKron (1 : Op a) S * X).trace := by
  simp only [trace, diag_apply, mul_apply, pt1, sum_apply2, submatrix_apply]
  have h : ∀ f : Fin (a * b) → ℂ, ∑ k, f k = ∑ i : Fin a, ∑ j : Fin b, f (finProdFinEquiv (i, j)) := by
    intro f
    rw [← Finset.sum_product', Finset.univ_product_univ]
    exact (Equiv.sum_comp finProdFinEquiv f).symm
  have hk : ∀ (i j : Fin a) (x y : Fin b), npKron (1 : Op a) S (finProdFinEquiv (i, x)) (finProdFinEquiv (j, y)) =
      if i = j then S x y else 0 := by
    intro i j x y
    have e1 := finProdFinEquiv.symm_apply_apply (i, x)
    have e2 := finProdFinEquiv.symm_apply_apply (j, y)
    simp only [finProdFinEquiv_symm_apply, Prod.mk.injEq] at e1 e2
    rw [npKron, of_apply, e1.1, e1.2, e2.1, e2.2, one_apply]
    split <;> simp
  rw [h]
  simp_rw [h fun _ => _, hk, ite_mul, zero_mul]
  simp only [Finset.sum_ite_eq, Finset.mem_univ, if_true, Finset.mul_sum]
  have : ∀ i : Fin a, ∀ x : Fin b, (∑ j : Fin a, ∑ y : Fin b, if i = j then
      S x y * X (finProdFinEquiv (j, y)) (finProdFinEquiv (i, x)) else 0) =
      ∑ y, S x y * X (finProdFinEquiv (i, y)) (finProdFinEquiv (i, x)) := by
    intro i x
    rw [Finset.sum_eq_single i]
    · simp
    · intro j _ hj
      exact Finset.sum_eq_zero fun y _ => if_neg (Ne.symm hj)
    · simp
  simp_rw [this]
  conv_rhs => rw [Finset.sum_comm]
  exact Finset.sum_congr rfl fun x _ => Finset.sum_comm

theorem tnorm_pt1 {a b : ℕ} {X : Matrix (Fin (a * b)) (Fin (a * b)) ℂ} (hX : X.IsHermitian) :
    tnorm (pt1 X) ≤ tnorm X := by
  obtain ⟨S, hS, h⟩ := tnorm_attained (pt1_herm hX)
  have hS' : npKron (1 : Op a) S * (npKron (1 : Op a) S)ᴴ = 1 := by
    rw [npKron_conjTranspose, npKron_mul, conjTranspose_one, mul_one, hS, npKron_one]
  have h1 := tnorm_bound hX hS'
  rw [← trace_pt1_mul, h, Complex.norm_real, Real.norm_eq_abs, abs_of_nonneg (tnorm_nonneg _)] at h1
  exact h1

end FF
