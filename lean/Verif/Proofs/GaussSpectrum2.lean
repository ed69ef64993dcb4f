import Verif.Proofs.GaussSpectrum
import Verif.Proofs.Distance2
import Verif.Proofs.Stabilizer

/-! # Proofs: the spectrum, the purity and the entropies of a Gaussian state -/

namespace FF

open Matrix
open scoped ComplexOrder

variable {n : ℕ}

/-! ## The pairing of the eigenvalues of the correlation matrix -/

theorem patP_relabel {p q : Fin n → ℝ} (π : Equiv.Perm (Fin n)) (h : ∀ k, |p k - 1 / 2| = |q (π k) - 1 / 2|) :
    ∃ E : (Fin n → Bool) ≃ (Fin n → Bool), ∀ c, patP p c = patP q (E c) := by
  classical
  set b : Fin n → Bool := fun k => !decide (p k = q (π k)) with hb
  have hs : ∀ k, p k = if b k then 1 - q (π k) else q (π k) := by
    intro k
    by_cases e : p k = q (π k)
    · simp [hb, e]
    · have := (abs_eq_abs.1 (h k)).resolve_left fun h' => e (by linarith)
      simp only [hb, e, decide_false, Bool.not_false, if_true]
      linarith
  let E : (Fin n → Bool) ≃ (Fin n → Bool) :=
    ⟨fun c j => if b (π.symm j) then !c (π.symm j) else c (π.symm j), fun d k => if b k then !d (π k) else d (π k),
      fun c => by funext k; simp only [Equiv.symm_apply_apply]; split_ifs <;> simp,
      fun d => by funext j; simp only [Equiv.apply_symm_apply]; split_ifs <;> simp⟩
  refine ⟨E, fun c => ?_⟩
  rw [patP, patP, ← Equiv.prod_comp π fun k => if E c k then q k else 1 - q k]
  refine Finset.prod_congr rfl fun k _ => ?_
  have : E c (π k) = if b k then !c k else c k := by
    simp only [E, Equiv.coe_fn_mk, Equiv.symm_apply_apply]
  rw [this, hs k]
  cases b k <;> cases c k <;> simp

theorem pairs_roots (p : Fin n → ℝ) :
    (∏ k, ((Polynomial.X - Polynomial.C ((p k : ℝ) : ℂ)) * (Polynomial.X - Polynomial.C ((1 - p k : ℝ) : ℂ)))).roots =
      (Finset.univ.val.map fun k => ((p k : ℝ) : ℂ)) + Finset.univ.val.map fun k => ((1 - p k : ℝ) : ℂ) := by
  rw [Finset.prod_mul_distrib, Polynomial.roots_mul, Polynomial.roots_prod, Polynomial.roots_prod]
  · simp only [Polynomial.roots_X_sub_C, Multiset.bind_singleton]
  · exact Finset.prod_ne_zero_iff.2 fun k _ => Polynomial.X_sub_C_ne_zero _
  · exact Finset.prod_ne_zero_iff.2 fun k _ => Polynomial.X_sub_C_ne_zero _
  · exact mul_ne_zero (Finset.prod_ne_zero_iff.2 fun k _ => Polynomial.X_sub_C_ne_zero _)
      (Finset.prod_ne_zero_iff.2 fun k _ => Polynomial.X_sub_C_ne_zero _)

theorem pairs_unique {p q : Fin n → ℝ}
    (h : ∏ k, ((Polynomial.X - Polynomial.C ((p k : ℝ) : ℂ)) * (Polynomial.X - Polynomial.C ((1 - p k : ℝ) : ℂ))) =
      ∏ k, ((Polynomial.X - Polynomial.C ((q k : ℝ) : ℂ)) * (Polynomial.X - Polynomial.C ((1 - q k : ℝ) : ℂ)))) :
    ∃ π : Equiv.Perm (Fin n), ∀ k, |p k - 1 / 2| = |q (π k) - 1 / 2| := by
  have h1 := congrArg (Multiset.map fun z : ℂ => |z.re - 1 / 2|) (congrArg Polynomial.roots h)
  rw [pairs_roots, pairs_roots, Multiset.map_add, Multiset.map_add] at h1
  simp only [Multiset.map_map, Function.comp_def, Complex.ofReal_re] at h1
  have e : ∀ r : Fin n → ℝ, (Finset.univ.val.map fun k => |1 - r k - 1 / 2|) = Finset.univ.val.map fun k => |r k - 1 / 2| := by
    intro r
    refine Multiset.map_congr rfl fun k _ => ?_
    rw [show 1 - r k - 1 / 2 = -(r k - 1 / 2) by ring, abs_neg]
  rw [e, e, ← two_nsmul, ← two_nsmul] at h1
  exact perm_of_map_eq (a := fun k => |p k - 1 / 2|) (b := fun k => |q k - 1 / 2|)
    (nsmul_right_injective two_ne_zero h1)

theorem append_charpoly {U P : Op (n + n)} {p : Fin n → ℝ} (hU : U * Uᴴ = 1)
    (hP : P = U * diagonal (Fin.append (fun k => ((p k : ℝ) : ℂ)) fun k => ((1 - p k : ℝ) : ℂ)) * Uᴴ) :
    P.charpoly = ∏ k, ((Polynomial.X - Polynomial.C ((p k : ℝ) : ℂ)) * (Polynomial.X - Polynomial.C ((1 - p k : ℝ) : ℂ))) := by
  rw [hP, charpoly_unitary hU, charpoly_diagonal, Fin.prod_univ_add, Finset.prod_mul_distrib]
  simp only [Fin.append_left, Fin.append_right]

theorem modeState_charpoly {V : Op (2 ^ n)} {e : (Fin n → Bool) ≃ Fin (2 ^ n)} (hV : V * Vᴴ = 1) (p : Fin n → ℝ) :
    (modeState V e p).charpoly = ∏ c : Fin n → Bool, (Polynomial.X - Polynomial.C ((patP p c : ℝ) : ℂ)) := by
  rw [modeState, charpoly_unitary hV, charpoly_diagonal,
    e.symm.prod_comp fun c => (Polynomial.X - Polynomial.C ((patP p c : ℝ) : ℂ))]

/-- A Hermitian matrix of trace one that obeys Wick's theorem is the product state of the modes of its correlations. -/
theorem wick_modeState {ρ : Op (2 ^ n)} (hH : ρᴴ = ρ) (ht : ρ.trace = 1) (hw : Spec.ObeysWick (al n) ρ) :
    ∃ (U : Op (n + n)) (p : Fin n → ℝ) (V : Op (2 ^ n)) (e : (Fin n → Bool) ≃ Fin (2 ^ n)), U * Uᴴ = 1 ∧ V * Vᴴ = 1 ∧
      corrP ρ = U * diagonal (Fin.append (fun k => ((p k : ℝ) : ℂ)) fun k => ((1 - p k : ℝ) : ℂ)) * Uᴴ ∧
      ρ = modeState V e p := by
  obtain ⟨U, p, V, e, hU, hV, hP, -, hw', hc⟩ := gauss_of_corr (corr_herm hH) (eq_sub_of_add_eq' (corr_ph ht))
  refine ⟨U, p, V, e, hU, hV, hP, wick_unique hw hw' ?_⟩
  have hG : ∀ σ : Op (2 ^ n), gam (al n) σ = corrP σ * swapS n := fun σ => by
    ext i j
    rw [mul_swapS, corrP, of_apply, al_conjTranspose, fl_fl]; rfl
  rw [hG, hG, hc]

theorem wick_charpoly {ρ : Op (2 ^ n)} (hH : ρᴴ = ρ) (ht : ρ.trace = 1) (hw : Spec.ObeysWick (al n) ρ) {q : Fin n → ℝ}
    (hq : (corrP ρ).charpoly =
      ∏ k, ((Polynomial.X - Polynomial.C ((q k : ℝ) : ℂ)) * (Polynomial.X - Polynomial.C ((1 - q k : ℝ) : ℂ)))) :
    ρ.charpoly = ∏ c : Fin n → Bool, (Polynomial.X - Polynomial.C ((patP q c : ℝ) : ℂ)) := by
  obtain ⟨U, p, V, e, hU, hV, hP, hρ⟩ := wick_modeState hH ht hw
  rw [append_charpoly hU hP] at hq
  obtain ⟨π, hπ⟩ := pairs_unique hq
  obtain ⟨E, hE⟩ := patP_relabel π hπ
  rw [hρ, modeState_charpoly hV, ← E.prod_comp fun c => (Polynomial.X - Polynomial.C ((patP q c : ℝ) : ℂ))]
  exact Finset.prod_congr rfl fun c _ => by rw [hE]

theorem pairs_exist {ρ : Op (2 ^ n)} (hH : ρᴴ = ρ) (ht : ρ.trace = 1) : ∃ p : Fin n → ℝ, (corrP ρ).charpoly =
      ∏ k, ((Polynomial.X - Polynomial.C ((p k : ℝ) : ℂ)) * (Polynomial.X - Polynomial.C ((1 - p k : ℝ) : ℂ))) := by
  obtain ⟨U, p, V, e, hU, hV, hP, -⟩ := gauss_of_corr (corr_herm hH) (eq_sub_of_add_eq' (corr_ph ht))
  exact ⟨p, append_charpoly hU hP⟩

/-! ## Positivity -/

theorem patP_nonneg {p : Fin n → ℝ} (h : ∀ k, 0 ≤ p k ∧ p k ≤ 1) (c : Fin n → Bool) : 0 ≤ patP p c :=
  Finset.prod_nonneg fun k _ => by
    have := h k
    split_ifs <;> linarith [this.1, this.2]

theorem modeState_density {V : Op (2 ^ n)} {e : (Fin n → Bool) ≃ Fin (2 ^ n)} (hV : V * Vᴴ = 1) {p : Fin n → ℝ}
    (h : ∀ k, 0 ≤ p k ∧ p k ≤ 1) : Spec.IsDensity (modeState V e p) := by
  refine ⟨?_, modeState_trace hV p⟩
  rw [modeState]
  refine PosSemidef.mul_mul_conjTranspose_same ?_ V
  refine PosSemidef.diagonal fun x => ?_
  have := patP_nonneg h (e.symm x)
  simp only [Pi.zero_apply]
  exact_mod_cast this

theorem append_range {U P : Op (n + n)} {p : Fin n → ℝ} (hU : U * Uᴴ = 1)
    (hP : P = U * diagonal (Fin.append (fun k => ((p k : ℝ) : ℂ)) fun k => ((1 - p k : ℝ) : ℂ)) * Uᴴ)
    (h0 : P.PosSemidef) (k : Fin n) : 0 ≤ p k ∧ p k ≤ 1 := by
  have hU' : Uᴴ * U = 1 := mul_eq_one_comm.1 hU
  have h1 := h0.conjTranspose_mul_mul_same U
  have h2 : Uᴴ * P * U = diagonal (Fin.append (fun k => ((p k : ℝ) : ℂ)) fun k => ((1 - p k : ℝ) : ℂ)) := by
    rw [hP, show ∀ D : Op (n + n), Uᴴ * (U * D * Uᴴ) * U = (Uᴴ * U) * D * (Uᴴ * U) from fun D => by simp only [Matrix.mul_assoc],
      hU', one_mul, mul_one]
  rw [h2] at h1
  have a := h1.diag_nonneg (i := Fin.castAdd n k)
  have b := h1.diag_nonneg (i := Fin.natAdd n k)
  rw [diagonal_apply_eq, Fin.append_left] at a
  rw [diagonal_apply_eq, Fin.append_right] at b
  have a' : 0 ≤ p k := by exact_mod_cast a
  have b' : 0 ≤ 1 - p k := by exact_mod_cast b
  exact ⟨a', by linarith⟩

theorem corr_psd {ρ : Op (2 ^ n)} (hρ : ρ.PosSemidef) : (corrP ρ).PosSemidef := by
  refine PosSemidef.of_dotProduct_mulVec_nonneg (corr_herm hρ.isHermitian.eq) fun v => ?_
  have h1 := corr_quad (Matrix.of fun (_ : Fin 1) l => star (v l)) ρ 0 0
  have h2 : ((Matrix.of fun (_ : Fin 1) l => star (v l)) * corrP ρ * (Matrix.of fun (_ : Fin 1) l => star (v l))ᴴ) 0 0 =
      star v ⬝ᵥ (corrP ρ *ᵥ v) := by
    rw [Matrix.mul_assoc, mul_apply, dotProduct]
    refine Finset.sum_congr rfl fun l _ => ?_
    rw [of_apply, mul_apply, mulVec, dotProduct]
    simp
  rw [← h2, h1]
  set c := comb ((Matrix.of fun (_ : Fin 1) l => star (v l)) 0)
  rw [trace_mul_comm, Matrix.mul_assoc, trace_mul_comm]
  exact (hρ.conjTranspose_mul_mul_same c).trace_nonneg

/-! ## Sums over patterns -/

theorem pat_prod (f : Fin n → Bool → ℝ) : ∑ c : Fin n → Bool, ∏ k, f k (c k) = ∏ k, (f k true + f k false) := by
  have h := Finset.prod_univ_sum (fun _ : Fin n => (Finset.univ : Finset Bool)) f
  rw [Fintype.piFinset_univ] at h
  rw [← h]
  exact Finset.prod_congr rfl fun k _ => by simp

theorem patP_sq (p : Fin n → ℝ) : ∑ c : Fin n → Bool, patP p c ^ 2 = ∏ k, (p k ^ 2 + (1 - p k) ^ 2) := by
  have h := pat_prod fun (k : Fin n) b => (if b then p k else 1 - p k) ^ 2
  simp only [if_true, Bool.false_eq_true, if_false, Finset.prod_pow] at h
  exact h

theorem patP_pow {p : Fin n → ℝ} (hp : ∀ k, 0 ≤ p k ∧ p k ≤ 1) (a : ℝ) :
    ∑ c : Fin n → Bool, (if patP p c = 0 then 0 else patP p c ^ a) =
      ∏ k, ((if p k = 0 then 0 else p k ^ a) + if 1 - p k = 0 then 0 else (1 - p k) ^ a) := by
  have h := pat_prod fun (k : Fin n) b => if (if b then p k else 1 - p k) = 0 then 0 else (if b then p k else 1 - p k) ^ a
  simp only [if_true, Bool.false_eq_true, if_false] at h
  rw [← h]
  refine Finset.sum_congr rfl fun c _ => ?_
  by_cases h0 : patP p c = 0
  · rw [if_pos h0]
    rw [patP] at h0
    obtain ⟨k, -, hk⟩ := Finset.prod_eq_zero_iff.1 h0
    symm
    apply Finset.prod_eq_zero (Finset.mem_univ k)
    rw [if_pos hk]
  · rw [if_neg h0, patP, ← Real.finset_prod_rpow _ _ fun k _ => by have := hp k; split_ifs <;> linarith [this.1, this.2]]
    refine Finset.prod_congr rfl fun k _ => ?_
    refine (if_neg ?_).symm
    exact fun hk => h0 (Finset.prod_eq_zero (Finset.mem_univ k) hk)

theorem patP_log (p : Fin n → ℝ) :
    ∑ c : Fin n → Bool, patP p c * Real.log (patP p c) = ∑ k, (p k * Real.log (p k) + (1 - p k) * Real.log (1 - p k)) := by
  classical
  have h1 : ∀ c : Fin n → Bool, patP p c * Real.log (patP p c) =
      ∑ k, patP p c * Real.log (if c k then p k else 1 - p k) := by
    intro c
    by_cases h0 : patP p c = 0
    · simp [h0]
    · rw [← Finset.mul_sum]
      congr 1
      rw [patP, Real.log_prod]
      intro k _ hk
      exact h0 (Finset.prod_eq_zero (Finset.mem_univ k) hk)
  simp only [h1]
  rw [Finset.sum_comm]
  refine Finset.sum_congr rfl fun k _ => ?_
  have h2 := pat_prod fun (j : Fin n) b => (if b then p j else 1 - p j) * if j = k then Real.log (if b then p j else 1 - p j) else 1
  have h3 : ∀ c : Fin n → Bool, patP p c * Real.log (if c k then p k else 1 - p k) =
      ∏ j, (if c j then p j else 1 - p j) * if j = k then Real.log (if c j then p j else 1 - p j) else 1 := by
    intro c
    rw [Finset.prod_mul_distrib, Finset.prod_ite_eq' Finset.univ k fun j => Real.log (if c j then p j else 1 - p j),
      if_pos (Finset.mem_univ k), patP]
  simp only [h3]
  rw [h2, ← Finset.mul_prod_erase _ _ (Finset.mem_univ k), Finset.prod_eq_one]
  · simp
  · intro j hj
    simp [Finset.ne_of_mem_erase hj]

theorem binary_prob {t : ℝ} (h : 0 ≤ t ∧ t ≤ 1) : Spec.IsProb ![t, 1 - t] := by
  refine ⟨fun i => ?_, by simp [Fin.sum_univ_two]⟩
  fin_cases i
  · exact h.1
  · simpa using h.2

/-- The entropy of independent modes is the sum of the entropies of the modes. -/
theorem renyi_modes {p : Fin n → ℝ} (hp : ∀ k, 0 ≤ p k ∧ p k ≤ 1) (e : (Fin n → Bool) ≃ Fin (2 ^ n)) (a : ℝ) :
    Spec.renyi (fun x => patP p (e.symm x)) a = ∑ k, Spec.renyi ![p k, 1 - p k] a := by
  classical
  by_cases ha : a = 1
  · subst ha
    rw [Spec.renyi, if_pos rfl, e.symm.sum_comp fun c => patP p c * Real.log (patP p c), patP_log, ← Finset.sum_neg_distrib]
    refine Finset.sum_congr rfl fun k _ => ?_
    rw [Spec.renyi, if_pos rfl, Fin.sum_univ_two]
    simp
  · rw [renyi_of_ne _ ha, powSum_univ,
      e.symm.sum_comp fun c => if patP p c = 0 then 0 else patP p c ^ a, patP_pow hp, Real.log_prod, Finset.mul_sum]
    · refine Finset.sum_congr rfl fun k _ => ?_
      rw [renyi_of_ne _ ha, powSum_univ, Fin.sum_univ_two]
      rfl
    · intro k _ hk
      have := powSum_pos (binary_prob (hp k)) a
      rw [powSum_univ, Fin.sum_univ_two] at this
      simp only [cons_val_zero, cons_val_one] at this
      exact this.ne' hk

theorem max_modes {p : Fin n → ℝ} (hp : ∀ k, 0 ≤ p k ∧ p k ≤ 1) (e : (Fin n → Bool) ≃ Fin (2 ^ n)) :
    Spec.IsMax (fun x => patP p (e.symm x)) (∏ k, max (p k) (1 - p k)) := by
  classical
  refine ⟨⟨e fun k => decide (1 - p k ≤ p k), ?_⟩, fun x => ?_⟩
  · simp only [Equiv.symm_apply_apply]
    rw [patP]
    refine Finset.prod_congr rfl fun k _ => ?_
    by_cases h : 1 - p k ≤ p k
    · simp [h]
    · simp only [h, decide_false, Bool.false_eq_true, if_false]
      exact (max_eq_right (not_le.1 h).le).symm
  · refine Finset.prod_le_prod (fun k _ => ?_) fun k _ => ?_
    · have := hp k
      split_ifs <;> linarith [this.1, this.2]
    · split_ifs
      · exact le_max_left _ _
      · exact le_max_right _ _

/-! ## Two lists of eigenvalues -/

theorem same_roots {D : ℕ} {l m : Fin D → ℝ}
    (h : ∏ i, (Polynomial.X - Polynomial.C ((l i : ℝ) : ℂ)) = ∏ i, (Polynomial.X - Polynomial.C ((m i : ℝ) : ℂ))) :
    ∃ π : Equiv.Perm (Fin D), ∀ k, l k = m (π k) := by
  refine perm_of_map_eq ?_
  have h1 := congrArg (Multiset.map Complex.re) (congrArg Polynomial.roots h)
  have e : ∀ r : Fin D → ℝ, (∏ i, (Polynomial.X - Polynomial.C ((r i : ℝ) : ℂ))).roots = Finset.univ.val.map fun i => ((r i : ℝ) : ℂ) := by
    intro r
    rw [Polynomial.roots_prod _ _ (Finset.prod_ne_zero_iff.2 fun k _ => Polynomial.X_sub_C_ne_zero _)]
    simp [Multiset.bind_singleton]
  rw [e, e, Multiset.map_map, Multiset.map_map] at h1
  simpa [Function.comp_def] using h1

theorem purity_det {U P : Op (n + n)} {p : Fin n → ℝ} (hU : U * Uᴴ = 1)
    (hP : P = U * diagonal (Fin.append (fun k => ((p k : ℝ) : ℂ)) fun k => ((1 - p k : ℝ) : ℂ)) * Uᴴ) :
    (P * P + (1 - P) * (1 - P)).det = (((∏ k, (p k ^ 2 + (1 - p k) ^ 2)) ^ 2 : ℝ) : ℂ) := by
  have hU' : Uᴴ * U = 1 := mul_eq_one_comm.1 hU
  set D : Fin (n + n) → ℂ := Fin.append (fun k => ((p k : ℝ) : ℂ)) fun k => ((1 - p k : ℝ) : ℂ) with hD
  have h1 : 1 - P = U * diagonal (fun k => 1 - D k) * Uᴴ := by
    have : diagonal (fun k => 1 - D k) = (1 : Op (n + n)) - diagonal D := by
      rw [← diagonal_one, diagonal_sub]
    rw [this, Matrix.mul_sub, Matrix.sub_mul, mul_one, hU, hP]
  have hm : ∀ X Y : Op (n + n), U * X * Uᴴ * (U * Y * Uᴴ) = U * (X * Y) * Uᴴ := fun X Y => by
    rw [show U * X * Uᴴ * (U * Y * Uᴴ) = U * (X * (Uᴴ * U) * Y) * Uᴴ by simp only [Matrix.mul_assoc], hU', mul_one]
  rw [h1, hP, hm, hm, ← Matrix.add_mul, ← Matrix.mul_add, diagonal_mul_diagonal, diagonal_mul_diagonal, diagonal_add,
    det_mul, det_mul, mul_right_comm, ← det_mul, hU, det_one, one_mul, det_diagonal, Fin.prod_univ_add, sq]
  push_cast
  congr 1 <;> refine Finset.prod_congr rfl fun k _ => ?_
  · rw [hD, Fin.append_left]; ring
  · rw [hD, Fin.append_right]; push_cast; ring

theorem modeState_sq_trace {V : Op (2 ^ n)} {e : (Fin n → Bool) ≃ Fin (2 ^ n)} (hV : V * Vᴴ = 1) (p : Fin n → ℝ) :
    (modeState V e p * modeState V e p).trace = ((∏ k, (p k ^ 2 + (1 - p k) ^ 2) : ℝ) : ℂ) := by
  have hV' : Vᴴ * V = 1 := mul_eq_one_comm.1 hV
  rw [modeState, show ∀ D : Op (2 ^ n), V * D * Vᴴ * (V * D * Vᴴ) = V * (D * (Vᴴ * V) * D) * Vᴴ from
    fun D => by simp only [Matrix.mul_assoc], hV', mul_one, diagonal_mul_diagonal, trace_mul_comm, ← Matrix.mul_assoc, hV', one_mul,
    trace_diagonal, e.symm.sum_comp fun c => ((patP p c : ℝ) : ℂ) * ((patP p c : ℝ) : ℂ), ← patP_sq]
  push_cast
  exact Finset.sum_congr rfl fun c _ => by ring

end FF
