import Verif.Proofs.Kitaev
import Verif.Proofs.SchurExists
import Mathlib.LinearAlgebra.Eigenspace.Basic
import Mathlib.LinearAlgebra.Matrix.Charpoly.Eigs
import Mathlib.Analysis.SpecialFunctions.Trigonometric.Basic
import Mathlib.Analysis.SpecialFunctions.Trigonometric.Deriv
import Mathlib.Data.Fin.Tuple.Sort

/-! # Helper lemmas: the spectrum of the tight-binding chain, and canonical forms of all coefficient arrays -/

namespace FF

open Matrix

variable {n : ℕ}

/-- The angle of mode `k`. -/
noncomputable def thetaTB (n : ℕ) (k : Fin n) : ℝ := Real.pi * (k + 1) / (n + 1)

/-- The standing waves of an open chain. -/
noncomputable def waves (n : ℕ) : Op n := Matrix.of fun j k => ((Real.sin (thetaTB n k * (j + 1)) : ℝ) : ℂ)

theorem thetaTB_mem (k : Fin n) : 0 < thetaTB n k ∧ thetaTB n k < Real.pi := by
  unfold thetaTB
  have h1 : (0 : ℝ) < n + 1 := by positivity
  refine ⟨by positivity, ?_⟩
  rw [div_lt_iff₀ h1]
  have : (k : ℝ) + 1 < n + 1 := by exact_mod_cast Nat.succ_lt_succ k.2
  exact mul_lt_mul_of_pos_left this Real.pi_pos

theorem sum_low (f : ℕ → ℂ) (h0 : f 0 = 0) (x : Fin n) :
    ∑ y : Fin n, low n x y * f (y + 1) = f x := by
  by_cases h : 0 < (x : ℕ)
  · rw [Finset.sum_eq_single (⟨x - 1, by omega⟩ : Fin n)]
    · rw [low_apply, if_pos (by simp; omega), one_mul]
      congr 1
      simp; omega
    · intro z _ hz
      rw [low_apply, if_neg, zero_mul]
      intro e
      exact hz (Fin.ext (by simp; omega))
    · simp
  · rw [Finset.sum_eq_zero]
    · rw [show (x : ℕ) = 0 by omega, h0]
    · intro y _
      rw [low_apply, if_neg (by omega), zero_mul]

theorem sum_lowT (f : ℕ → ℂ) (hn : f (n + 1) = 0) (x : Fin n) :
    ∑ y : Fin n, (low n)ᵀ x y * f (y + 1) = f (x + 2) := by
  by_cases h : (x : ℕ) + 1 < n
  · rw [Finset.sum_eq_single (⟨x + 1, h⟩ : Fin n)]
    · rw [transpose_apply, low_apply, if_pos rfl, one_mul]
    · intro z _ hz
      rw [transpose_apply, low_apply, if_neg, zero_mul]
      intro e
      exact hz (Fin.ext e.symm)
    · simp
  · rw [Finset.sum_eq_zero]
    · rw [show (x : ℕ) + 2 = n + 1 by omega, hn]
    · intro y _
      rw [transpose_apply, low_apply, if_neg (by omega), zero_mul]

/-- The standing waves are eigenvectors. -/
theorem hop_waves : ((low n)ᵀ + low n) * waves n =
    waves n * diagonal fun k => ((2 * Real.cos (thetaTB n k) : ℝ) : ℂ) := by
  ext x k
  rw [mul_diagonal, Matrix.add_mul, Matrix.add_apply, mul_apply, mul_apply]
  set f : ℕ → ℂ := fun j => ((Real.sin (thetaTB n k * j) : ℝ) : ℂ) with hf
  have hw : ∀ y : Fin n, waves n y k = f (y + 1) := fun y => by simp [waves, hf]
  have h0 : f 0 = 0 := by simp [hf]
  have hn : f (n + 1) = 0 := by
    have h1 : (n : ℝ) + 1 ≠ 0 := by positivity
    have : thetaTB n k * ((n + 1 : ℕ) : ℝ) = ((k : ℕ) + 1 : ℕ) * Real.pi := by
      rw [thetaTB]; push_cast; field_simp
    rw [hf]
    simp only [this, Real.sin_nat_mul_pi, Complex.ofReal_zero]
  simp only [hw]
  rw [sum_low f h0, sum_lowT f hn]
  rw [hf]
  simp only
  rw [← Complex.ofReal_add, ← Complex.ofReal_mul]
  congr 1
  have e1 : thetaTB n k * ((x : ℕ) + 2 : ℕ) = thetaTB n k * ((x + 1 : ℕ) : ℝ) + thetaTB n k := by push_cast; ring
  have e2 : thetaTB n k * (x : ℕ) = thetaTB n k * ((x + 1 : ℕ) : ℝ) - thetaTB n k := by push_cast; ring
  rw [e1, e2, Real.sin_add, Real.sin_sub]
  ring

theorem waves_col_ne (k : Fin n) : (waves n).col k ≠ 0 := by
  intro h
  have hn : 0 < n := by have := k.2; omega
  have h1 := congrFun h (⟨0, hn⟩ : Fin n)
  simp only [col_apply, waves, of_apply, Pi.zero_apply, Nat.cast_zero, zero_add, mul_one, Complex.ofReal_eq_zero] at h1
  obtain ⟨h2, h3⟩ := thetaTB_mem k
  exact (Real.sin_pos_of_pos_of_lt_pi h2 h3).ne' h1

theorem cos_inj : Function.Injective fun k : Fin n => ((2 * Real.cos (thetaTB n k) : ℝ) : ℂ) := by
  intro k l h
  have h1 : Real.cos (thetaTB n k) = Real.cos (thetaTB n l) := by
    have := Complex.ofReal_injective h
    linarith
  obtain ⟨a1, a2⟩ := thetaTB_mem k
  obtain ⟨b1, b2⟩ := thetaTB_mem l
  have h2 := Real.injOn_cos ⟨a1.le, a2.le⟩ ⟨b1.le, b2.le⟩ h1
  have h3 : (n : ℝ) + 1 ≠ 0 := by positivity
  unfold thetaTB at h2
  have hpi := Real.pi_ne_zero
  field_simp at h2
  have : ((k : ℕ) : ℝ) = (l : ℕ) := by linarith
  exact Fin.ext (by exact_mod_cast this)

theorem waves_unit : IsUnit (waves n) := by
  rw [← Matrix.linearIndependent_cols_iff_isUnit]
  refine Module.End.eigenvectors_linearIndependent' (Matrix.toLin' ((low n)ᵀ + low n)) _ cos_inj _ fun k => ⟨?_, waves_col_ne k⟩
  rw [Module.End.mem_eigenspace_iff, toLin'_apply]
  have h := congrArg (fun M : Op n => M.col k) (hop_waves (n := n))
  ext x
  have h1 := congrFun h x
  simp only [col_apply, mul_diagonal] at h1
  rw [Pi.smul_apply, smul_eq_mul, col_apply, mul_comm, ← h1]
  rfl

theorem charpoly_similar {m : ℕ} {A V D : Op m} (hV : IsUnit V) (h : A * V = V * D) : A.charpoly = D.charpoly := by
  have hd : IsUnit V.det := (isUnit_iff_isUnit_det V).1 hV
  have : A = V * (D * V⁻¹) := by
    rw [← Matrix.mul_assoc, ← h, Matrix.mul_assoc, mul_nonsing_inv _ hd, mul_one]
  rw [this, charpoly_mul_comm, Matrix.mul_assoc, nonsing_inv_mul _ hd, mul_one]

/-- The eigenvalues of the hopping array. -/
theorem tri_charpoly (mu t : ℝ) : (((-mu : ℂ) • 1 + (-t : ℂ) • (low n)ᵀ + (-t : ℂ) • low n : Op n)).charpoly =
    ∏ k : Fin n, (Polynomial.X - Polynomial.C ((-(mu + 2 * t * Real.cos (Real.pi * (k + 1) / (n + 1))) : ℝ) : ℂ)) := by
  rw [charpoly_similar (D := diagonal fun k => ((-(mu + 2 * t * Real.cos (thetaTB n k)) : ℝ) : ℂ)) (waves_unit (n := n)),
    charpoly_diagonal]
  · rfl
  · have h := hop_waves (n := n)
    rw [add_assoc, ← smul_add, Matrix.add_mul, Matrix.smul_mul, Matrix.smul_mul, one_mul, h]
    ext x k
    simp only [Matrix.add_apply, Matrix.smul_apply, mul_diagonal, smul_eq_mul]
    push_cast
    ring

theorem chain_charpoly (mu t : ℝ) : (kitaevChain n mu t 0).charpoly =
    Polynomial.expand ℂ 2 (∏ k : Fin n,
      (Polynomial.X - Polynomial.C (((mu + 2 * t * Real.cos (Real.pi * (k + 1) / (n + 1))) ^ 2 : ℝ) : ℂ))) := by
  rw [kitaev_blk]
  simp only [Complex.ofReal_zero, zero_smul, sub_self, neg_zero]
  rw [charpoly_blk_diag, tri_charpoly, ← prod_pm, mul_comm]
  congr 1
  rw [show -((-mu : ℂ) • 1 + (-t : ℂ) • (low n)ᵀ + (-t : ℂ) • low n : Op n) =
    (-((-mu : ℝ) : ℂ)) • 1 + (-((-t : ℝ) : ℂ)) • (low n)ᵀ + (-((-t : ℝ) : ℂ)) • low n by
      push_cast; simp only [neg_smul, neg_neg, neg_add]]
  rw [tri_charpoly]
  refine Finset.prod_congr rfl fun k _ => ?_
  congr 3
  ring

/-- Every Hermitian particle-hole symmetric array has an exact canonical form, whatever the size of its eigenvalues. -/
theorem exists_canonical {H : Op (n + n)} (hH : H.IsHermitian) (hP : swapS n * Hᵀ * swapS n = -H) :
    ∃ (U : Op (n + n)) (s : Fin n → ℝ), IsCanonicalU U ∧ U * Uᴴ = 1 ∧ Uᴴ * H * U = Spec.standardForm s := by
  classical
  set S := H.charpoly.roots.toFinset with hS
  set c : ℝ := ∑ μ ∈ S, 1 / ‖μ‖ + 1 with hc
  have hc0 : 0 < c := by
    have : 0 ≤ ∑ μ ∈ S, 1 / ‖μ‖ := Finset.sum_nonneg fun μ _ => by positivity
    linarith
  have hc1 : (c : ℂ) ≠ 0 := by exact_mod_cast hc0.ne'
  have hH' : ((c : ℂ) • H).IsHermitian := by
    rw [IsHermitian, conjTranspose_smul, hH.eq, RCLike.star_def, Complex.conj_ofReal]
  have hP' : swapS n * ((c : ℂ) • H)ᵀ * swapS n = -((c : ℂ) • H) := by
    rw [transpose_smul, Matrix.mul_smul, Matrix.smul_mul, hP, smul_neg]
  have hgap : Gap ((c : ℂ) • H) := by
    intro μ v hv h
    by_cases hμ : μ = 0
    · exact Or.inl hμ
    refine Or.inr ?_
    have h1 : H *ᵥ v = (μ / c) • v := by
      rw [smul_mulVec] at h
      have := congrArg (fun w => (c : ℂ)⁻¹ • w) h
      simp only [smul_smul, inv_mul_cancel₀ hc1, one_smul] at this
      rw [this, div_eq_inv_mul]
    have h2 : μ / c ∈ S := by
      rw [hS, Multiset.mem_toFinset, Polynomial.mem_roots (charpoly_monic H).ne_zero, Polynomial.IsRoot, eval_charpoly]
      rw [← exists_mulVec_eq_zero_iff]
      refine ⟨v, hv, ?_⟩
      rw [sub_mulVec, h1, sub_eq_zero]
      ext x
      simp [scalar_apply, mulVec_diagonal]
    have h3 : 1 / ‖μ / c‖ ≤ c := by
      have := Finset.single_le_sum (f := fun μ : ℂ => 1 / ‖μ‖) (fun μ _ => by positivity) h2
      linarith
    have h4 : 0 < ‖μ / c‖ := norm_pos_iff.2 (div_ne_zero hμ hc1)
    rw [div_le_iff₀ h4, norm_div, Complex.norm_real, Real.norm_eq_abs, abs_of_pos hc0, mul_div_cancel₀ _ hc0.ne'] at h3
    norm_num
    linarith
  obtain ⟨M', hs, hih⟩ := ih_facts hH' hP'
  obtain ⟨T, Z, h1, h2, -, h3, h4, h5⟩ := schur_exists _ M' hs
  obtain ⟨as, has⟩ := argsort_exists (n := n)
  obtain ⟨L, U, s, -, hU, hcan, hL, -, hex⟩ := eigh_main (fun _ => (T, Z)) as hH' hP' (fun M hM => by
    have hMM : M' = M := toC_injective (hih.symm.trans hM)
    subst hMM
    exact { orth := h1, decomp := h2, quasi := h3, blocks := h4, sorted := h5 _ }) has
  refine ⟨U, fun k => s k / c, hcan, hU, ?_⟩
  have h6 : (c : ℂ) • (Uᴴ * H * U) = Spec.standardForm s := by
    rw [← hex hgap, ← hL, Matrix.mul_smul, Matrix.smul_mul]
  have h7 : Uᴴ * H * U = (c : ℂ)⁻¹ • Spec.standardForm s := by
    rw [← h6, smul_smul, inv_mul_cancel₀ hc1, one_smul]
  rw [h7, Spec.standardForm, Spec.standardForm, ← diagonal_smul]
  congr 1
  funext x
  refine Fin.addCases (fun i => ?_) (fun i => ?_) x
  · simp only [Pi.smul_apply, Fin.append_left, smul_eq_mul]
    push_cast
    field_simp
  · simp only [Pi.smul_apply, Fin.append_right, smul_eq_mul]
    push_cast
    field_simp

/-- Two families with the same values agree up to a permutation. -/
theorem perm_of_map_eq {a b : Fin n → ℝ} (h : Finset.univ.val.map a = Finset.univ.val.map b) :
    ∃ π : Equiv.Perm (Fin n), ∀ k, a k = b (π k) := by
  have e : ∀ f : Fin n → ℝ, Finset.univ.val.map (f ∘ Tuple.sort f) = Finset.univ.val.map f := fun f => by
    rw [← Multiset.map_map, Multiset.map_univ_val_equiv]
  have h1 : a ∘ Tuple.sort a = b ∘ Tuple.sort b :=
    mono_unique (Tuple.monotone_sort a) (Tuple.monotone_sort b) (by rw [e, e, h])
  refine ⟨(Tuple.sort a).symm.trans (Tuple.sort b), fun k => ?_⟩
  have := congrFun h1 ((Tuple.sort a).symm k)
  simpa using this

/-- The energies of the modes are determined by the characteristic polynomial up to order and sign. -/
theorem modes_unique {H U : Op (n + n)} {s ε : Fin n → ℝ} (hU : U * Uᴴ = 1) (hL : Uᴴ * H * U = Spec.standardForm s)
    (hH : H.charpoly = Polynomial.expand ℂ 2 (∏ k, (Polynomial.X - Polynomial.C (((ε k) ^ 2 : ℝ) : ℂ)))) :
    ∃ π : Equiv.Perm (Fin n), ∀ k, |s k| = |ε (π k)| := by
  have h1 := congrArg charpoly hL
  rw [charpoly_conj hU, hH, standardForm_charpoly] at h1
  have h2 := prod_roots (Polynomial.expand_injective (by norm_num) h1)
  have h3 := congrArg (Multiset.map Real.sqrt) h2
  rw [Multiset.map_map, Multiset.map_map] at h3
  refine perm_of_map_eq (a := fun k => |s k|) (b := fun k => |ε k|) ?_
  simpa [Function.comp_def, Real.sqrt_sq_eq_abs] using h3.symm

theorem prod_pm' (a : Fin n → ℝ) :
    ∏ k, ((Polynomial.X - Polynomial.C ((a k : ℝ) : ℂ)) * (Polynomial.X + Polynomial.C ((a k : ℝ) : ℂ))) =
      Polynomial.expand ℂ 2 (∏ k, (Polynomial.X - Polynomial.C (((a k) ^ 2 : ℝ) : ℂ))) := by
  rw [← prod_pm, Finset.prod_mul_distrib, mul_comm]
  congr 1
  refine Finset.prod_congr rfl fun k _ => ?_
  push_cast
  rw [map_neg, sub_neg_eq_add]

/-- Sums of modes do not depend on the order and the signs of their energies. -/
theorem prod_modes {M : Type} [CommMonoid M] (F : ℝ → M) {s ε : Fin n → ℝ} (π : Equiv.Perm (Fin n))
    (h : ∀ k, |s k| = |ε (π k)|) :
    ∏ c : Fin n → Bool, F (∑ k, if c k then s k else -s k) = ∏ c : Fin n → Bool, F (∑ k, if c k then ε k else -ε k) := by
  classical
  set b : Fin n → Bool := fun k => !decide (s k = ε (π k)) with hb
  have hs : ∀ k, s k = if b k then -ε (π k) else ε (π k) := by
    intro k
    by_cases e : s k = ε (π k)
    · simp [hb, e]
    · have := (abs_eq_abs.1 (h k)).resolve_left e
      simp [hb, this]
  -- the pattern of `ε` that belongs to the pattern `c` of `s`
  set E : (Fin n → Bool) ≃ (Fin n → Bool) :=
    ⟨fun c j => if b (π.symm j) then !c (π.symm j) else c (π.symm j), fun d k => if b k then !d (π k) else d (π k),
      fun c => by funext k; simp only [Equiv.symm_apply_apply]; split_ifs <;> simp,
      fun d => by funext j; simp only [Equiv.apply_symm_apply]; split_ifs <;> simp⟩ with hE
  symm
  rw [← E.prod_comp]
  refine Finset.prod_congr rfl fun c _ => congrArg F ?_
  rw [← Equiv.sum_comp π]
  refine Finset.sum_congr rfl fun k _ => ?_
  have : E c (π k) = if b k then !c k else c k := by
    simp only [hE, Equiv.coe_fn_mk, Equiv.symm_apply_apply]
  rw [this, hs k]
  cases b k <;> cases c k <;> simp

end FF
