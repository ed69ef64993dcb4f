import Verif.Proofs.Continuity
import Verif.Props.Metric
import Verif.Props.Coefficients

/-! # Property C144: small changes of the state change the results little -/

namespace FF.Props

open Finset Matrix
open scoped ComplexOrder

section

variable {d : ℕ} {p q : Fin d → ℝ} {x y : Arr}

/-- C144. The Shannon entropies of two distributions at total variation distance `t` differ by at most
`t log (d - 1) - t log t - (1 - t) log (1 - t)`. -/
theorem C144_shannon (hx : Spec.Represents x p) (hy : Spec.Represents y q) :
    ∃ t u v : ℝ, totalVariationDistance x y = .ok t ∧ renyiEntropy x (.num 1) = .ok (u : EReal) ∧ renyiEntropy y (.num 1) = .ok (v : EReal) ∧
      |u - v| ≤ t * Real.log (d - 1) - t * Real.log t - (1 - t) * Real.log (1 - t) := by
  have hp := (represents_cast hx).2
  have hq := (represents_cast hy).2
  refine ⟨_, _, _, tvd_val hx hy, C64_formula hx 1 zero_le_one, C64_formula hy 1 zero_le_one, ?_⟩
  have h1 := fannes hp hq
  have h2 := fannes hq hp
  rw [show tvd q p = tvd p q by rw [tvd, tvd]; simp only [abs_sub_comm]] at h2
  simp only [Real.negMulLog] at h1 h2
  rw [abs_le]
  constructor <;> linarith

/-- C144. `linear_entropy` changes by at most twice the total variation distance. -/
theorem C144_linear (hx : Spec.Represents x p) (hy : Spec.Represents y q) (hd : IsSquare d) :
    ∃ t u v : ℝ, totalVariationDistance x y = .ok t ∧ linearEntropy x = .ok u ∧ linearEntropy y = .ok v ∧ |u - v| ≤ 2 * t := by
  have hp := (represents_cast hx).2
  have hq := (represents_cast hy).2
  refine ⟨_, _, _, tvd_val hx hy, (C66_value hx hd).1, (C66_value hy hd).1, ?_⟩
  have h1 := sumsq_close hp hq
  have h2 := sumsq_close hq hp
  rw [show tvd q p = tvd p q by rw [tvd, tvd]; simp only [abs_sub_comm]] at h2
  rw [abs_le]
  constructor <;> linarith

end

/-- Two different distributions on four outcomes. -/
example : Spec.Represents (realVec halves) halves ∧ Spec.Represents (realVec quarter) quarter ∧ IsSquare 4 ∧ halves ≠ quarter := by
  refine ⟨halves_rep, quarter_rep.2, ⟨2, rfl⟩, fun h => ?_⟩
  have := congrFun h 0
  norm_num [halves, quarter] at this

theorem tilt_prob {n : ℕ} {t : ℝ} (h0 : 0 ≤ t) (h1 : t ≤ 1) : Spec.IsProb (Fin.cons (1 - t) fun _ => t / (n + 1) : Fin (n + 2) → ℝ) := by
  refine ⟨fun i => ?_, ?_⟩
  · refine Fin.cases ?_ (fun i => ?_) i
    · simpa using h1
    · simp only [Fin.cons_succ]; positivity
  · rw [Fin.sum_univ_succ]
    simp only [Fin.cons_zero, Fin.cons_succ, sum_const, card_univ, Fintype.card_fin, nsmul_eq_mul]
    push_cast
    field_simp
    ring

/-- C144. The bound on the Shannon entropy is attained, for every number of outcomes and every distance. -/
theorem C144_shannon_sharp (n : ℕ) {t : ℝ} (h0 : 0 ≤ t) (h1 : t ≤ 1) : ∃ (x y : Arr) (p q : Fin (n + 2) → ℝ) (u v : ℝ), Spec.Represents x p ∧
    Spec.Represents y q ∧ totalVariationDistance x y = .ok t ∧ renyiEntropy x (.num 1) = .ok (u : EReal) ∧
    renyiEntropy y (.num 1) = .ok (v : EReal) ∧
    |u - v| = t * Real.log (((n + 2 : ℕ) : ℝ) - 1) - t * Real.log t - (1 - t) * Real.log (1 - t) := by
  have hp := tilt_prob (n := n) h0 h1
  have hq := tilt_prob (n := n) le_rfl zero_le_one
  have hv : ∑ i, Real.negMulLog ((Fin.cons (1 - 0) fun _ => 0 / (n + 1) : Fin (n + 2) → ℝ) i) = 0 := by
    rw [Fin.sum_univ_succ]; simp
  have hu : ∑ i, Real.negMulLog ((Fin.cons (1 - t) fun _ => t / (n + 1) : Fin (n + 2) → ℝ) i) =
      t * Real.log (((n + 2 : ℕ) : ℝ) - 1) - t * Real.log t - (1 - t) * Real.log (1 - t) := by
    rw [Fin.sum_univ_succ]
    simp only [Fin.cons_zero, Fin.cons_succ, sum_const, card_univ, Fintype.card_fin, nsmul_eq_mul]
    rcases eq_or_lt_of_le h0 with rfl | ht
    · simp
    · have hn : (0 : ℝ) < n + 1 := by positivity
      rw [Real.negMulLog, Real.negMulLog, Real.log_div ht.ne' hn.ne']
      push_cast
      rw [show (n : ℝ) + 2 - 1 = n + 1 by ring]
      field_simp
      ring
  have hnn : 0 ≤ ∑ i, Real.negMulLog ((Fin.cons (1 - t) fun _ => t / (n + 1) : Fin (n + 2) → ℝ) i) :=
    sum_nonneg fun i _ => Real.negMulLog_nonneg (hp.nonneg i) (prob_le_one hp i)
  refine ⟨_, _, _, _, _, _, prob_rep hp, prob_rep hq, ?_, C64_formula (prob_rep hp) 1 zero_le_one, C64_formula (prob_rep hq) 1 zero_le_one, ?_⟩
  · rw [tvd_val (prob_rep hp) (prob_rep hq), tvd, Fin.sum_univ_succ]
    simp only [Fin.cons_zero, Fin.cons_succ, zero_div, sub_zero, sum_const, card_univ, Fintype.card_fin, nsmul_eq_mul]
    have hn : (0 : ℝ) < n + 1 := by positivity
    rw [show (1 : ℝ) - t - 1 = -t by ring, abs_neg, abs_of_nonneg h0, abs_of_nonneg (by positivity)]
    push_cast
    field_simp
    norm_num
    ring
  · rw [shannon_eta, shannon_eta, hv, sub_zero, abs_of_nonneg hnn, hu]

/-- C144. The entropy of order 0 is not continuous: however small the distance, it can change by `log 2`. -/
theorem C144_order_zero {t : ℝ} (h0 : 0 < t) (h1 : t < 1) : ∃ (x y : Arr) (p q : Fin 2 → ℝ) (u v : ℝ), Spec.Represents x p ∧ Spec.Represents y q ∧
    totalVariationDistance x y = .ok t ∧ renyiEntropy x (.num 0) = .ok (u : EReal) ∧ renyiEntropy y (.num 0) = .ok (v : EReal) ∧
    |u - v| = Real.log 2 := by
  have hp := tilt_prob (n := 0) h0.le h1.le
  have hq := tilt_prob (n := 0) le_rfl zero_le_one
  refine ⟨_, _, _, _, _, _, prob_rep hp, prob_rep hq, ?_, C64_formula (prob_rep hp) 0 le_rfl, C64_formula (prob_rep hq) 0 le_rfl, ?_⟩
  · rw [tvd_val (prob_rep hp) (prob_rep hq), tvd, Fin.sum_univ_succ]
    simp only [Fin.cons_zero, Fin.cons_succ]
    rw [show (1 : ℝ) - t - (1 - 0) = -t by ring, abs_neg, abs_of_pos h0]
    simp [abs_of_pos h0]
    norm_num
    ring
  · have e1 : Spec.renyi (Fin.cons (1 - t) fun _ => t / ((0 : ℕ) + 1) : Fin (0 + 2) → ℝ) 0 = Real.log 2 := by
      rw [Spec.renyi, if_neg (by norm_num), sum_filter, Fin.sum_univ_succ]
      simp [h0.ne', (sub_pos.2 h1).ne']
      norm_num
    have e2 : Spec.renyi (Fin.cons (1 - 0) fun _ => 0 / ((0 : ℕ) + 1) : Fin (0 + 2) → ℝ) 0 = 0 := by
      rw [Spec.renyi, if_neg (by norm_num), sum_filter, Fin.sum_univ_succ]
      simp
    rw [e1, e2, sub_zero, abs_of_nonneg (Real.log_nonneg (by norm_num))]

section

variable {n : ℕ} {ρ σ : Op (2 ^ n)} {x y : Arr} {eigvals : {n : ℕ} → Op n → List ℂ}

/-- C144. The entries of the correlation matrices change by at most twice the trace distance, whatever `conjugation` is. -/
theorem C144_correlations (hE : Spec.EigvalsOk eigvals) (hx : Spec.IsState x ρ) (hy : Spec.IsState y σ) (conj : Option ℤ) :
    ∃ (t : ℝ) (P Q : Op (n + n)), traceDistance eigvals x y = .ok t ∧ compute2Corr ρ n (jordanWignerAlphas n) conj = .ok P ∧
      compute2Corr σ n (jordanWignerAlphas n) conj = .ok Q ∧ ∀ i j, ‖P i j - Q i j‖ ≤ 2 * t := by
  have key : ∀ a b : Fin (n + n), ‖(ρ * al n a * al n b).trace - (σ * al n a * al n b).trace‖ ≤ tnorm (ρ - σ) := by
    intro a b
    have h := tnorm_contraction ((state_cast hx).2.psd.isHermitian.sub (state_cast hy).2.psd.isHermitian)
      (contraction_mul (al_contraction a) (al_contraction b))
    rw [trace_mul_comm, sub_mul, trace_sub, ← mul_assoc, ← mul_assoc] at h
    exact h
  have e : 2 * (1 / 2 * tnorm (ρ - σ)) = tnorm (ρ - σ) := by ring
  rw [jordanWignerAlphas_eq]
  cases conj with
  | none =>
    refine ⟨_, _, _, traceDistance_eq hE hx hy, (C43_entries ρ (al n) 0).1, (C43_entries σ (al n) 0).1, fun i j => ?_⟩
    rw [of_apply, of_apply, e]
    exact key i j
  | some c =>
    refine ⟨_, _, _, traceDistance_eq hE hx hy, (C43_entries ρ (al n) c).2, (C43_entries σ (al n) c).2, fun i j => ?_⟩
    rw [of_apply, of_apply, e, al_conjTranspose, al_conjTranspose]
    split_ifs
    exacts [key _ _, key _ _]

/-- C144. The occupations of the sites, the last entries of the diagonal for a negative `conjugation`, change by at most the trace distance. -/
theorem C144_occupations (hE : Spec.EigvalsOk eigvals) (hx : Spec.IsState x ρ) (hy : Spec.IsState y σ) :
    ∃ (t : ℝ) (P Q : Op (n + n)), traceDistance eigvals x y = .ok t ∧ compute2Corr ρ n (jordanWignerAlphas n) (some (-1)) = .ok P ∧
      compute2Corr σ n (jordanWignerAlphas n) (some (-1)) = .ok Q ∧ ∀ i, ‖P i i - Q i i‖ ≤ t := by
  obtain ⟨t, h1, h2, -⟩ := C69_helstrom hE hx hy
  obtain ⟨t', h1', h2', -⟩ := C69_helstrom hE hy hx
  obtain rfl : t' = t := by
    obtain ⟨a, b, c, k1, k2, -⟩ := C69_metric hE hx hy hx
    rw [k1] at h1; rw [k2] at h1'
    exact (Except.ok.inj h1').symm.trans (Except.ok.inj h1)
  rw [jordanWignerAlphas_eq]
  refine ⟨_, _, _, h1, (C43_entries ρ (al n) (-1)).2, (C43_entries σ (al n) (-1)).2, fun i => ?_⟩
  simp only [of_apply, show (-1 : ℤ) < 0 by norm_num, if_true]
  set E := (al n i)ᴴ * al n i with hEd
  have p1 : E.PosSemidef := posSemidef_conjTranspose_mul_self _
  have p2 : (1 - E).PosSemidef := by
    have := al_contraction (fl i)
    rwa [← al_conjTranspose, conjTranspose_conjTranspose] at this
  have hre : ∀ {τ : Op (2 ^ n)}, τ.IsHermitian → (τ * (al n i)ᴴ * al n i).trace = (((E * τ).trace.re : ℝ) : ℂ) := by
    intro τ hτ
    rw [mul_assoc, ← hEd, trace_mul_comm]
    refine (Complex.conj_eq_iff_re.1 ?_).symm
    rw [← Complex.star_def, ← trace_conjTranspose, conjTranspose_mul, hτ.eq, p1.isHermitian.eq, trace_mul_comm]
  rw [hre (state_cast hx).2.psd.isHermitian, hre (state_cast hy).2.psd.isHermitian, ← Complex.ofReal_sub, Complex.norm_real, Real.norm_eq_abs,
    abs_le]
  have := h2 E p1 p2
  have := h2' E p1 p2
  constructor <;> linarith

/-- C144. `FAF` of order `k` changes by at most `4 k n (2 n - 1)` times the trace distance, plus `n * 1e-20^k` from the entries that it drops. -/
theorem C144_faf {schurR : {m : ℕ} → RMat m → RMat m} {schurC : {m : ℕ} → Op m → Op m} {k : ℕ}
    (hS : ∀ {m : ℕ} (A : RMat m), Aᵀ = -A → ∃ Z, Spec.IsRealSchur A (schurR A) Z) (hk : 1 ≤ k) (hE : Spec.EigvalsOk eigvals)
    (hx : Spec.IsState x ρ) (hy : Spec.IsState y σ) :
    ∃ t u v : ℝ, traceDistance eigvals x y = .ok t ∧ faf schurR schurC x k = .ok u ∧ faf schurR schurC y k = .ok v ∧
      |u - v| ≤ 4 * k * n * (2 * n - 1) * t + n * 1e-20 ^ k := by
  obtain ⟨g, hg⟩ := maj_exists n
  obtain ⟨hH, hA⟩ := maj_facts hg
  have key : ∀ {z : Arr} {τ : Op (2 ^ n)}, Spec.IsState z τ → ∃ v, faf schurR schurC z k = .ok v ∧
      n - 1 / 2 * (((majCov g τ)ᵀ * majCov g τ) ^ k).trace ≤ v ∧
      v ≤ n - 1 / 2 * (((majCov g τ)ᵀ * majCov g τ) ^ k).trace + n * 1e-20 ^ k := by
    intro z τ hz
    obtain ⟨Z, hZ⟩ := hS (majCov g τ) majCov_skew
    exact C67_formula hg hz (fun i j => majCov_eq hH (state_cast hz).2.psd.isHermitian i j) hZ hk
  obtain ⟨u, u1, u2, u3⟩ := key hx
  obtain ⟨v, v1, v2, v3⟩ := key hy
  refine ⟨_, u, v, traceDistance_eq hE hx hy, u1, v1, ?_⟩
  have h1 := gram_close majCov_skew majCov_skew (majCov_shortens hH hA (state_cast hx).2) (majCov_shortens hH hA (state_cast hy).2) k
  have h2 := majCov_total hH hA (state_cast hx).2.psd.isHermitian (state_cast hy).2.psd.isHermitian
  have h3 := h1.trans (mul_le_mul_of_nonneg_left h2 (by positivity))
  rw [abs_le] at h3 ⊢
  have e : 4 * (k : ℝ) * n * (2 * n - 1) * (1 / 2 * tnorm (ρ - σ)) = 1 / 2 * (2 * k * (2 * n * (2 * n - 1) * tnorm (ρ - σ))) := by ring
  rw [e]
  constructor <;> linarith

/-- Two different states and routines that meet the contracts. -/
example : ∃ (eigvals : {n : ℕ} → Op n → List ℂ) (schurR : {m : ℕ} → RMat m → RMat m) (x y : Arr) (ρ σ : Op (2 ^ 1)), Spec.EigvalsOk eigvals ∧
    (∀ {m : ℕ} (A : RMat m), Aᵀ = -A → ∃ Z, Spec.IsRealSchur A (schurR A) Z) ∧ Spec.IsState x ρ ∧ Spec.IsState y σ ∧ ρ ≠ σ := by
  obtain ⟨eigvals, hE⟩ := eigvals_exist
  obtain ⟨schurR, hS⟩ := schur_routine
  refine ⟨eigvals, schurR, .vec 2 ![1, 0], .vec 2 ![0, Complex.I], Spec.proj ![1, 0], Spec.proj ![0, Complex.I], hE, hS, state_vec ?_, state_vec ?_,
    fun h => ?_⟩
  · simp [Spec.IsUnitVec, Fin.sum_univ_two]
  · simp [Spec.IsUnitVec, Fin.sum_univ_two]
  · have := congrFun (congrFun h 0) 0
    simp [Spec.proj] at this

end

end FF.Props
