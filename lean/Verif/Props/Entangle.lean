import Verif.Proofs.Schmidt
import Verif.Props.MaxEntropy

/-! # Property C151: the two parts of a pure state are equally mixed -/

namespace FF.Props

open Matrix
open scoped ComplexOrder

variable {a b : ℕ}

theorem proj_density {N : ℕ} {ψ : Fin N → ℂ} (hψ : Spec.IsUnitVec ψ) : Spec.IsDensity (Spec.proj ψ) := by
  constructor
  · have e : Spec.proj ψ = vecMulVec ψ (star ψ) := rfl
    rw [e]; exact posSemidef_vecMulVec_self_star ψ
  · have : (Spec.proj ψ).trace = ((∑ i, ‖ψ i‖ ^ 2 : ℝ) : ℂ) := by
      rw [Matrix.trace, Complex.ofReal_sum]
      refine Finset.sum_congr rfl fun i _ => ?_
      show ψ i * star (ψ i) = _
      rw [Complex.star_def, Complex.mul_conj, Complex.normSq_eq_norm_sq]
    rw [this, show (∑ i, ‖ψ i‖ ^ 2 : ℝ) = 1 from hψ, Complex.ofReal_one]

theorem proj_idem {N : ℕ} {ψ : Fin N → ℂ} (hψ : Spec.IsUnitVec ψ) : Spec.proj ψ * Spec.proj ψ = Spec.proj ψ := by
  have ht := (proj_density hψ).trace_one
  ext i j
  have e : (Spec.proj ψ * Spec.proj ψ) i j = (Spec.proj ψ).trace * Spec.proj ψ i j := by
    rw [mul_apply, Matrix.trace, Finset.sum_mul]
    refine Finset.sum_congr rfl fun k _ => ?_
    show ψ i * star (ψ k) * (ψ k * star (ψ j)) = ψ k * star (ψ k) * (ψ i * star (ψ j))
    ring
  rw [e, ht, one_mul]

/-- A pure state has entropy 0. -/
theorem pure_entropy {N : ℕ} {ψ : Fin N → ℂ} (hψ : Spec.IsUnitVec ψ) {l : Fin N → ℝ} (hl : Spec.IsSpectrum (Spec.proj ψ) l) :
    Spec.renyi l 1 = 0 := by
  obtain ⟨Y, hY, hYl⟩ := spectrum_basis (proj_density hψ).psd.isHermitian hl
  have hY' : Yᴴ * Y = 1 := mul_eq_one_comm.1 hY
  have hd : ∀ X : Op N, Yᴴ * (Y * X * Yᴴ) * Y = X := fun X => by
    rw [show Yᴴ * (Y * X * Yᴴ) * Y = (Yᴴ * Y) * X * (Yᴴ * Y) by simp only [Matrix.mul_assoc], hY', one_mul, mul_one]
  have hi := proj_idem hψ
  have h01 : ∀ i, l i * l i = l i := fun i => by
    have h3 : diagonal (fun i => ((l i : ℝ) : ℂ)) * diagonal (fun i => ((l i : ℝ) : ℂ)) = diagonal fun i => ((l i : ℝ) : ℂ) := by
      rw [← hd (diagonal (fun i => ((l i : ℝ) : ℂ)) * diagonal (fun i => ((l i : ℝ) : ℂ))),
        show Y * (diagonal (fun i => ((l i : ℝ) : ℂ)) * diagonal fun i => ((l i : ℝ) : ℂ)) * Yᴴ =
          (Y * diagonal (fun i => ((l i : ℝ) : ℂ)) * Yᴴ) * (Y * diagonal (fun i => ((l i : ℝ) : ℂ)) * Yᴴ) by
            rw [show ∀ D : Op N, (Y * D * Yᴴ) * (Y * D * Yᴴ) = Y * D * (Yᴴ * Y) * D * Yᴴ from fun D => by simp only [Matrix.mul_assoc],
              hY', mul_one]; simp only [Matrix.mul_assoc], ← hYl, hi, hYl, hd]
    have h4 := congrFun (congrFun h3 i) i
    rw [diagonal_mul_diagonal, diagonal_apply_eq, diagonal_apply_eq] at h4
    exact_mod_cast h4
  rw [Spec.renyi, if_pos rfl, neg_eq_zero]
  refine Finset.sum_eq_zero fun i _ => ?_
  rcases mul_eq_zero.1 (show l i * (l i - 1) = 0 by rw [mul_sub, h01, mul_one, sub_self]) with h | h
  · rw [h, zero_mul]
  · rw [sub_eq_zero.1 h, Real.log_one, mul_zero]

/-- The matrix returned by `partial_trace_over_2` is the exact partial trace, if this is real or has an imaginary part above 1e-8. -/
theorem over2_exact (ha : a ≠ 0) {ρ : Op (a * b)} {R : Op a} (hR : partialTraceOver2 ρ a = .ok R)
    (him : (∀ i j, (∑ k : Fin b, ρ (finProdFinEquiv (i, k)) (finProdFinEquiv (j, k))).im = 0) ∨
      ∃ i j, 1e-8 < |(∑ k : Fin b, ρ (finProdFinEquiv (i, k)) (finProdFinEquiv (j, k))).im|) : R = pt2 ρ := by
  classical
  have e : ∀ i j, pt2 ρ i j = ∑ k : Fin b, ρ (finProdFinEquiv (i, k)) (finProdFinEquiv (j, k)) := fun i j => by rw [pt2, sum_apply2]; rfl
  simp only [← e] at him
  rw [partialTraceOver2_ok ha] at hR
  rw [← Except.ok.inj hR]
  rcases him with h | ⟨i, j, h⟩
  · split_ifs
    · ext i j
      rw [reMat, of_apply]
      exact Complex.ext (by simp) (by simp [h])
    · rfl
  · rw [if_neg fun h' => (h' i j).not_gt h]

/-- C151. The two parts of a pure state, as the partial traces return them, have the same `renyi_entropy` of the eigenvalues at every order from
0 to infinity, although they may have different dimensions; it is at most the logarithm of the smaller dimension, and 0 exactly if the state is
the product of its parts. (The hypothesis `him` excludes that `partial_trace_over_2` drops small imaginary parts.) -/
theorem C151_parts (ha : a ≠ 0) (hb : b ≠ 0) {ψ : Fin (a * b) → ℂ} (hψ : Spec.IsUnitVec ψ) {R : Op a} {S : Op b}
    (hR : partialTraceOver2 (Spec.proj ψ) a = .ok R) (hS : partialTraceOver1 (Spec.proj ψ) b = .ok S)
    (him : (∀ i j, (∑ k : Fin b, Spec.proj ψ (finProdFinEquiv (i, k)) (finProdFinEquiv (j, k))).im = 0) ∨
      ∃ i j, 1e-8 < |(∑ k : Fin b, Spec.proj ψ (finProdFinEquiv (i, k)) (finProdFinEquiv (j, k))).im|)
    {k : Fin a → ℝ} {m : Fin b → ℝ} (hk : Spec.IsSpectrum R k) (hm : Spec.IsSpectrum S m) {y z : Arr} (hy : Spec.Represents y k)
    (hz : Spec.Represents z m) (o : Order) (ho : OrderOk o) :
    ∃ v : ℝ, renyiEntropy y o = .ok (v : EReal) ∧ renyiEntropy z o = .ok (v : EReal) ∧ 0 ≤ v ∧ v ≤ Real.log (min a b) ∧
      (v = 0 ↔ Spec.proj ψ = npKron R S) := by
  have hρ := proj_density hψ
  have hpad := parts_multiset (by rw [← over2_exact ha hR him]; exact hk)
    (by rw [← Except.ok.inj ((partialTraceOver1_ok hb _).symm.trans hS)] at hm; exact hm)
  have heq : ∀ o, OrderOk o → ∃ v : ℝ, renyiEntropy y o = .ok (v : EReal) ∧ renyiEntropy z o = .ok (v : EReal) := fun o ho => by
    cases o with
    | num t => exact ⟨_, C64_formula hy t ho, by rw [C64_formula hz t ho, padded_renyi hpad]⟩
    | inf =>
      obtain ⟨M, hM⟩ := exists_max (represents_cast hy).2
      exact ⟨_, C64_inf hy M hM, C64_inf hz M (padded_max hpad (max_pos (represents_cast hy).2 hM) hM)⟩
  obtain ⟨v, h1, h2⟩ := heq o ho
  obtain ⟨v1, e1, n1, l1, d1⟩ := C64_bounds hy o ho
  obtain ⟨v2, e2, -, l2, d2⟩ := C64_bounds hz o ho
  obtain rfl : v = v1 := by rw [h1] at e1; exact_mod_cast Except.ok.inj e1
  obtain rfl : v = v2 := by rw [h2] at e2; exact_mod_cast Except.ok.inj e2
  refine ⟨v, h1, h2, n1, ?_, ?_⟩
  · rcases min_choice (a : ℝ) b with h | h
    · rw [h]; exact l1
    · rw [h]; exact l2
  -- the statement about products at order 1
  obtain ⟨l, x, hl, hx⟩ := has_spectrum hρ
  obtain ⟨R', S', hR', hS', hsub⟩ := C150_parts ha hb hρ
  obtain rfl : R = R' := by rw [hR] at hR'; exact Except.ok.inj hR'
  obtain rfl : S = S' := by rw [hS] at hS'; exact Except.ok.inj hS'
  obtain ⟨s, u, w, f1, f2, f3, f4, f5⟩ := hsub hl hk hm hx hy hz
  obtain ⟨u', g2, nu, -, du⟩ := C64_bounds hy (.num 1) zero_le_one
  obtain ⟨w', g3, nw, -, dw⟩ := C64_bounds hz (.num 1) zero_le_one
  obtain rfl : u = u' := by rw [f2] at g2; exact_mod_cast Except.ok.inj g2
  obtain rfl : w = w' := by rw [f3] at g3; exact_mod_cast Except.ok.inj g3
  have hs0 : s = 0 := by
    have hs : s = Spec.renyi l 1 := by rw [C64_formula hx 1 zero_le_one] at f1; exact_mod_cast (Except.ok.inj f1).symm
    rw [hs, pure_entropy hψ hl]
  rw [d1, ← du, ← f5, hs0]
  have huw : u = 0 ↔ w = 0 := by rw [du, dw, ← d1, ← d2]
  constructor
  · intro h; rw [h, huw.1 h, add_zero]
  · intro h; linarith

/-- An entangled state of a two-level and a three-level system. -/
noncomputable def bellVec : Fin (2 * 3) → ℂ := fun x => if x = finProdFinEquiv (0, 0) ∨ x = finProdFinEquiv (1, 2) then ((√2 / 2 : ℝ) : ℂ) else 0

theorem bellVec_unit : Spec.IsUnitVec bellVec := by
  have h2 : ‖((√2 / 2 : ℝ) : ℂ)‖ ^ 2 = 1 / 2 := by
    rw [Complex.norm_real, Real.norm_eq_abs, sq_abs, div_pow, Real.sq_sqrt (by norm_num)]; norm_num
  rw [Spec.IsUnitVec, ← finProdFinEquiv.sum_comp, Fintype.sum_prod_type]
  obtain ⟨c, hc⟩ : ∃ c : ℂ, c = ((√2 / 2 : ℝ) : ℂ) := ⟨_, rfl⟩
  rw [← hc] at h2
  have e : ∀ (i : Fin 2) (j : Fin 3), ‖bellVec (finProdFinEquiv (i, j))‖ ^ 2 = if (i, j) = (0, 0) ∨ (i, j) = (1, 2) then 1 / 2 else 0 := by
    intro i j
    simp only [bellVec, EmbeddingLike.apply_eq_iff_eq, ← hc]
    split_ifs <;> simp [h2]
  simp only [e, Fin.sum_univ_two, Fin.sum_univ_three]
  simp [Prod.ext_iff]
  norm_num [Fin.ext_iff]

/-- The hypotheses of `C151_parts` can be met, here by an entangled state of parts of different dimensions. -/
example : ∃ (R : Op 2) (S : Op 3) (k : Fin 2 → ℝ) (m : Fin 3 → ℝ) (y z : Arr), Spec.IsUnitVec bellVec ∧
    partialTraceOver2 (Spec.proj bellVec) 2 = .ok R ∧ partialTraceOver1 (Spec.proj bellVec) 3 = .ok S ∧
    (∀ i j, (∑ k : Fin 3, Spec.proj bellVec (finProdFinEquiv (i, k)) (finProdFinEquiv (j, k))).im = 0) ∧
    Spec.IsSpectrum R k ∧ Spec.IsSpectrum S m ∧ Spec.Represents y k ∧ Spec.Represents z m := by
  have hu := bellVec_unit
  obtain ⟨⟨S, h1, h2⟩, R, h3, h4⟩ := C14_states_to_states (by norm_num) (by norm_num) _ (proj_density hu)
  obtain ⟨k, y, b1, b2⟩ := has_spectrum h4
  obtain ⟨m, z, c1, c2⟩ := has_spectrum h2
  refine ⟨R, S, k, m, y, z, hu, h3, h1, fun i j => ?_, b1, c1, b2, c2⟩
  rw [Complex.im_sum]
  refine Finset.sum_eq_zero fun k _ => ?_
  show (bellVec _ * star (bellVec _)).im = 0
  simp only [bellVec]
  split_ifs <;> simp

end FF.Props
