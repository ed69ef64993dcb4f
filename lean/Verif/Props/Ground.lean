import Verif.Proofs.Ground
import Verif.Props.Dynamics
import Verif.Props.Workflow

/-!
# Property C116: `generate_gaussian_state` and ground states

The documentation presents `rho = generate_gaussian_state(n, H, alphas)` as the ground state of `H`.
-/

namespace FF.Props

open Matrix Filter Topology
open scoped ComplexOrder

section
variable {n : ℕ}

/-- The result for coefficient matrices, for `n ≥ 3`. -/
theorem ggs_quad (hn : 3 ≤ n) (H : Op (n + n)) (f : Fin (n + n) → Op (2 ^ n)) :
    generateGaussianState n H (some (List.ofFn f)) = .ok (some ((expm (-Spec.quad (Spec.dropSmall 1e-10 H) f)).trace⁻¹ •
      expm (-Spec.quad (Spec.dropSmall 1e-10 H) f))) := by
  have hne : ¬ n + n = 2 ^ n := by
    have h : ∀ k, 3 ≤ k → k + k < 2 ^ k := by
      intro k hk
      induction k, hk using Nat.le_induction with
      | base => norm_num
      | succ k hk ih => rw [pow_succ]; omega
    exact (h n hn).ne
  exact ggs_coeff hne (buildOp_square H f (by omega))

/-- C116 is violated: for `n ≥ 3`, every Hermitian coefficient matrix and every list of operators, the returned state is
never pure, and it is the normalised projector `P / Tr P` onto the ground states of `Q = build_op(H)` only in the trivial
case that all energies are equal. -/
theorem C116_violation (hn : 3 ≤ n) (H : Op (n + n)) (hH : H.IsHermitian) (f : Fin (n + n) → Op (2 ^ n)) :
    ∃ Q P rho, buildOp n H (List.ofFn f) false = .ok Q ∧ Spec.IsGroundProjector Q P ∧
      generateGaussianState n H (some (List.ofFn f)) = .ok (some rho) ∧
      (∀ v : Fin (2 ^ n) → ℂ, rho ≠ vecMulVec v (star v)) ∧
      (rho = P.trace⁻¹ • P ↔ ∃ c : ℝ, Q = (c : ℂ) • 1) := by
  have hq := quad_herm (drop_herm hH 1e-10) f
  set Q := Spec.quad (Spec.dropSmall 1e-10 H) f with hQ
  have hd : 0 < 2 ^ n := by positivity
  obtain ⟨P, hP⟩ := ground_exists hd hq
  obtain ⟨hpd, htr⟩ := gibbs_ok hd hq
  refine ⟨Q, P, _, buildOp_square H f (by omega), hP, ggs_quad hn H f, fun v hv => ?_, ?_⟩
  · have hpd' : (vecMulVec v (star v)).PosDef := hv ▸ hpd
    have h0 : (vecMulVec v (star v)).det = 0 := by
      haveI : Nontrivial (Fin (2 ^ n)) :=
        Fin.nontrivial_iff_two_le.2 (by calc 2 = 2 ^ 1 := rfl
          _ ≤ 2 ^ n := Nat.pow_le_pow_right (by norm_num) (by omega))
      exact det_vecMulVec v (star v)
    exact absurd h0 hpd'.det_pos.ne'
  · constructor
    · intro h
      have hPd : (P.trace⁻¹ • P).PosDef := h ▸ hpd
      have hu : IsUnit (P.trace⁻¹ • P) := hPd.isUnit
      have hP1 : P = 1 := by
        have h1 : (P.trace⁻¹ • P) * P = P.trace⁻¹ • P := by rw [Matrix.smul_mul, hP.idem]
        exact hu.mul_left_cancel (by rw [h1, mul_one])
      obtain ⟨E, -, hE⟩ := hP.range
      refine ⟨E, mulVec_ext fun v => ?_⟩
      rw [smul_mulVec, one_mulVec]
      exact (hE v).1 (by rw [hP1, one_mulVec])
    · rintro ⟨c, hc⟩
      have hP1 : P = 1 := by
        obtain ⟨E, ⟨hE, -⟩, hv⟩ := hP.range
        obtain ⟨v, hv0, he⟩ := hE
        obtain ⟨x, hx⟩ := Function.ne_iff.1 hv0
        have hcE : (c : ℂ) = E := by
          rw [hc, smul_mulVec, one_mulVec] at he
          exact mul_right_cancel₀ hx (congrFun he x)
        refine mulVec_ext fun w => ?_
        rw [one_mulVec]
        exact (hv w).2 (by rw [hc, smul_mulVec, one_mulVec, hcE])
      have hex : expm (-Q) = Complex.exp (-c) • (1 : Op (2 ^ n)) := by
        have e : -Q = diagonal fun _ => (-c : ℂ) := by
          rw [hc]; ext i j; by_cases h : i = j
          · subst h; simp
          · simp [h]
        rw [e, expm_diagonal]
        ext i j; by_cases h : i = j
        · subst h; simp
        · simp [h]
      rw [hP1, hex, trace_smul, smul_smul, smul_eq_mul, mul_inv, mul_comm _ (Complex.exp (-c)), ← mul_assoc,
        mul_inv_cancel₀ (Complex.exp_ne_zero _), one_mul]

/-- C116, what holds. The ground states are the limit of low temperature: for `n ≥ 3` and a Hermitian coefficient matrix
whose entries are zero or at least `1e-10`, `generate_gaussian_state(n, β H)` converges for `β → ∞` to the normalised
projector onto the ground states of `Q = build_op(H)`. What is missing: `β = 1`, which the documentation uses. -/
theorem C116_limit_partial (hn : 3 ≤ n) (H : Op (n + n)) (hH : H.IsHermitian)
    (hsmall : ∀ x y, H x y = 0 ∨ 1e-10 ≤ ‖H x y‖) (f : Fin (n + n) → Op (2 ^ n)) :
    ∃ Q P, ∃ rho : ℝ → Op (2 ^ n), buildOp n H (List.ofFn f) false = .ok Q ∧ Spec.IsGroundProjector Q P ∧
      (∀ β : ℝ, 1 ≤ β → generateGaussianState n ((β : ℂ) • H) (some (List.ofFn f)) = .ok (some (rho β))) ∧
      Tendsto rho atTop (𝓝 (P.trace⁻¹ • P)) := by
  have hq := quad_herm hH f
  have hd : 0 < 2 ^ n := by positivity
  obtain ⟨P, hP⟩ := ground_exists hd hq
  refine ⟨Spec.quad H f, P, _, ?_, hP, fun β hβ => ?_, gibbs_limit hd hq hP⟩
  · rw [buildOp_square H f (by omega), dropSmall_id hsmall]
  · have hs : ∀ x y, ((β : ℂ) • H) x y = 0 ∨ 1e-10 ≤ ‖((β : ℂ) • H) x y‖ := by
      intro x y
      rw [Matrix.smul_apply, smul_eq_mul, norm_mul, Complex.norm_real, Real.norm_eq_abs, abs_of_nonneg (by linarith)]
      rcases hsmall x y with h | h
      · left; rw [h, mul_zero]
      · right
        have h0 := norm_nonneg (H x y)
        nlinarith
    have hqs : Spec.quad ((β : ℂ) • H) f = (β : ℂ) • Spec.quad H f := by
      simp only [Spec.quad, Matrix.smul_apply, smul_eq_mul, Finset.smul_sum, smul_smul]
    rw [ggs_quad hn, dropSmall_id hs, hqs]

/-- C116, how close the state is to the ground states: for `H = build_H(A, B)` with entries that are zero or at least
`1e-10` and without tiny eigenvalues, the probability of finding the state that `generate_gaussian_state(n, H)` returns in
a ground state of `build_op(H)` is the product of `1 / (1 + exp(-2|s_k|))` over the non-zero energies `s_k` that `eigh_sp`
returns. -/
theorem C116_overlap (hn : 3 ≤ n) (A B : Op n) (hA : A.IsHermitian) (hB : Bᵀ = -B)
    (hsmall : ∀ x y, buildH n A (some B) x y = 0 ∨ 1e-10 ≤ ‖buildH n A (some B) x y‖)
    (schur : RMat (n + n) → RMat (n + n) × RMat (n + n)) (argsort : (Fin n → ℝ) → Fin n → ℕ)
    (hschur : SchurOk (buildH n A (some B)) schur) (hsort : ArgsortOk argsort)
    (hgap : NoTinyEigenvalue (buildH n A (some B))) :
    ∃ (Q P rho : Op (2 ^ n)) (s : Fin n → ℝ) (U : Op (n + n)),
      buildOp n (buildH n A (some B)) (jordanWignerAlphas n) false = .ok Q ∧ Spec.IsGroundProjector Q P ∧
      generateGaussianState n (buildH n A (some B)) none = .ok (some rho) ∧
      eighSp schur argsort (buildH n A (some B)) = .ok (Spec.standardForm s, U) ∧
      (rho * P).trace = ((∏ k, if s k = 0 then 1 else 1 / (1 + Real.exp (-2 * |s k|)) : ℝ) : ℂ) := by
  classical
  obtain ⟨L, U, s, hrun, hU, hc, hL, -, hex⟩ := eigh_main schur argsort (buildH_herm A B hA hB)
    (buildH_ph A B hA hB) hschur hsort
  obtain rfl := hex hgap
  obtain ⟨V, e, hV, -, hQ⟩ := quad_spectrum hc hU hL
  have hV' : Vᴴ * V = 1 := mul_eq_one_comm.1 hV
  set l : Fin (2 ^ n) → ℝ := fun x => ∑ k, if e.symm x k then s k else -s k with hl
  have hle : ∀ x, -∑ k, |s k| ≤ l x := by
    intro x
    rw [hl, ← Finset.sum_neg_distrib]
    refine Finset.sum_le_sum fun k _ => ?_
    split_ifs
    · exact neg_abs_le _
    · exact neg_le_neg (le_abs_self _)
  have h0 : l (e fun k => decide (s k < 0)) = -∑ k, |s k| := by
    simp only [hl, Equiv.symm_apply_apply]
    rw [← Finset.sum_neg_distrib]
    refine Finset.sum_congr rfl fun k _ => ?_
    by_cases h : s k < 0
    · rw [if_pos (by simpa using h), abs_of_neg h, neg_neg]
    · rw [if_neg (by simpa using h), abs_of_nonneg (not_lt.1 h)]
  have hP := (groundP_spec hV h0 hle).2
  set E := -∑ k, |s k| with hE
  have hggs : generateGaussianState n (buildH n A (some B)) none =
      .ok (some ((expm (-(V * diagonal (fun i => (l i : ℂ)) * Vᴴ))).trace⁻¹ •
        expm (-(V * diagonal (fun i => (l i : ℂ)) * Vᴴ)))) := by
    rw [C41_default, jordanWignerAlphas_eq, ggs_quad hn, dropSmall_id hsmall, hQ]
  refine ⟨Spec.quad (buildH n A (some B)) (al n), groundP V l E, _, s, U, ?_, ?_, hggs, hrun, ?_⟩
  · rw [jordanWignerAlphas_eq, buildOp_square _ _ (by omega), dropSmall_id hsmall]
  · rw [hQ]; exact hP
  rw [expm_diag hV, trace_diag hV]
  have hprod : (V * diagonal (fun i => ((Real.exp (-l i) : ℝ) : ℂ)) * Vᴴ) * groundP V l E =
      V * diagonal (fun i => (((if l i = E then Real.exp (-E) else 0 : ℝ)) : ℂ)) * Vᴴ := by
    rw [groundP, Matrix.mul_assoc, Matrix.mul_assoc, Matrix.mul_assoc, ← Matrix.mul_assoc Vᴴ V, hV', one_mul,
      ← Matrix.mul_assoc (diagonal _) (diagonal _), diagonal_mul_diagonal, Matrix.mul_assoc]
    congr 3
    funext i
    split_ifs with h
    · rw [h, mul_one]
    · simp
  rw [Matrix.smul_mul, hprod, trace_smul, trace_diag hV, smul_eq_mul]
  rw [← Complex.ofReal_inv, ← Complex.ofReal_mul]
  congr 1
  -- both sums factorise over the modes
  have hZ : ∑ i, Real.exp (-l i) = ∏ k, 2 * Real.cosh (s k) := by
    rw [← sum_patterns, ← e.sum_comp]
    simp only [hl, Equiv.symm_apply_apply]
  have hN : ∑ i, (if l i = E then Real.exp (-E) else 0) = ∏ k, (if s k = 0 then 2 else Real.exp |s k|) := by
    rw [← e.sum_comp]
    have hterm : ∀ c : Fin n → Bool, (if l (e c) = E then Real.exp (-E) else 0) =
        ∏ k, if (if c k then s k else -s k) = -|s k| then Real.exp |s k| else 0 := by
      intro c
      have hlc : l (e c) = ∑ k, if c k then s k else -s k := by simp only [hl, Equiv.symm_apply_apply]
      have hge : ∀ k ∈ Finset.univ, -|s k| ≤ if c k then s k else -s k := fun k _ => by
        split_ifs
        · exact neg_abs_le _
        · exact neg_le_neg (le_abs_self _)
      by_cases h : ∀ k, (if c k then s k else -s k) = -|s k|
      · have : l (e c) = E := by
          rw [hlc, hE, ← Finset.sum_neg_distrib]
          exact Finset.sum_congr rfl fun k _ => h k
        rw [if_pos this, hE, neg_neg, Real.exp_sum]
        exact Finset.prod_congr rfl fun k _ => (if_pos (h k)).symm
      · push Not at h
        obtain ⟨k, hk⟩ := h
        have : l (e c) ≠ E := by
          rw [hlc, hE, ← Finset.sum_neg_distrib]
          exact ne_of_gt (Finset.sum_lt_sum hge ⟨k, Finset.mem_univ _, lt_of_le_of_ne (hge k (Finset.mem_univ _)) hk.symm⟩)
        rw [if_neg this]
        exact (Finset.prod_eq_zero (Finset.mem_univ k) (if_neg hk)).symm
    simp only [hterm]
    rw [← Fintype.prod_sum (f := fun k (b : Bool) => if (if b then s k else -s k) = -|s k| then Real.exp |s k| else 0)]
    refine Finset.prod_congr rfl fun k _ => ?_
    rw [Fintype.sum_bool]
    simp only [if_true, Bool.false_eq_true, if_false]
    rcases lt_trichotomy (s k) 0 with h | h | h
    · rw [abs_of_neg h, neg_neg, if_pos rfl, if_neg (by linarith), if_neg h.ne, add_zero]
    · simp [h]; norm_num
    · rw [abs_of_pos h, if_neg (by linarith), if_pos rfl, if_neg h.ne', zero_add]
  rw [hZ, hN, inv_mul_eq_div, ← Finset.prod_div_distrib]
  refine Finset.prod_congr rfl fun k _ => ?_
  split_ifs with h
  · rw [h, Real.cosh_zero]; norm_num
  · rw [← Real.cosh_abs, Real.cosh_eq]
    have h1 : Real.exp (-2 * |s k|) = Real.exp (-|s k|) / Real.exp |s k| := by
      rw [← Real.exp_sub]; congr 1; ring
    rw [h1]
    have h2 := Real.exp_pos |s k|
    have h3 := Real.exp_pos (-|s k|)
    field_simp

/-- The hypotheses are met by chains of every length. -/
example (hn : 3 ≤ n) : ∃ (schur : RMat (n + n) → RMat (n + n) × RMat (n + n)) (argsort : (Fin n → ℝ) → Fin n → ℕ),
    SchurOk (kitaevChain n 0 1 1) schur ∧ ArgsortOk argsort ∧ NoTinyEigenvalue (kitaevChain n 0 1 1) ∧
    (kitaevChain n 0 1 1).IsHermitian ∧ ∀ x y, kitaevChain n 0 1 1 x y = 0 ∨ 1e-10 ≤ ‖kitaevChain n 0 1 1 x y‖ := by
  obtain ⟨hA, hB⟩ := kitaev_parts n 0 1 1
  obtain ⟨schur, hs⟩ := schurOk_exists (buildH_herm _ _ hA hB) (buildH_ph _ _ hA hB)
  obtain ⟨as, has⟩ := argsort_exists (n := n)
  rw [← kitaev_eq] at hs
  exact ⟨schur, as, hs, has, kitaev_gap (by norm_num) (.inl rfl), by rw [kitaev_eq]; exact buildH_herm _ _ hA hB,
    kitaev_small n (.inl rfl) (.inr (by norm_num)) (.inr (by norm_num))⟩

end

end FF.Props
