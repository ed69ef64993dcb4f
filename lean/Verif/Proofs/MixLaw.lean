import Verif.Proofs.FFLaw
import Verif.Proofs.Law
import Verif.Proofs.Slater
import Mathlib.Probability.Distributions.Gaussian.Real
import Mathlib.MeasureTheory.Measure.Lebesgue.EqHaar

/-! # Mixtures, Gaussian vectors and occupation numbers -/

namespace FF

open Matrix MeasureTheory ProbabilityTheory Spec

/-! ## mixtures -/

/-- Sampling an index below `k` uniformly, and then with the law of that index. -/
theorem uniform_mixture {α β : Type} [MeasurableSpace α] [MeasurableSpace β] {k : ℕ} (hk : 0 < k) {l : Measure α} [IsProbabilityMeasure l]
    {g : ℕ → α → β} (hg : ∀ i, Measurable (g i)) :
    ((uniformOn {i | i < k}).prod l).map (fun q : ℕ × α => g q.1 q.2) = (k : ENNReal)⁻¹ • ∑ i ∈ Finset.range k, l.map (g i) := by
  classical
  have hm : Measurable fun q : ℕ × α => g q.1 q.2 := measurable_from_prod_countable_right hg
  ext E hE
  have hfin : ({i | i < k} : Set ℕ).Finite := Set.finite_lt_nat k
  have e : uniformOn ({i | i < k} : Set ℕ) = (k : ENNReal)⁻¹ • ∑ i ∈ Finset.range k, Measure.dirac i := by
    ext s _
    have h1 : (Measure.count ({i | i < k} : Set ℕ)) = k := by
      rw [show ({i | i < k} : Set ℕ) = ((Finset.range k : Finset ℕ) : Set ℕ) by ext i; simp, Measure.count_apply_finset, Finset.card_range]
    have h2 : ({i | i < k} : Set ℕ) ∩ s = (((Finset.range k).filter (· ∈ s) : Finset ℕ) : Set ℕ) := by ext i; simp
    rw [uniformOn, cond_apply MeasurableSet.of_discrete, h1, h2, Measure.count_apply_finset, Measure.smul_apply, Measure.finset_sum_apply,
      smul_eq_mul, Finset.card_filter]
    push_cast
    simp only [Measure.dirac_apply, Set.indicator_apply, Pi.one_apply]
  rw [Measure.map_apply hm hE, Measure.prod_apply (hm hE), e, lintegral_smul_measure, lintegral_finset_sum_measure]
  simp only [lintegral_dirac, Measure.smul_apply, Measure.finset_sum_apply, smul_eq_mul]
  congr 1
  refine Finset.sum_congr rfl fun i _ => ?_
  rw [Measure.map_apply (hg i) hE]
  rfl

theorem sum_parity {β : Type} [MeasurableSpace β] (νe νo : Measure β) (n : ℕ) :
    ∑ i ∈ Finset.range (n + 1), (if i % 2 = 0 then νe else νo) = ((n / 2 + 1 : ℕ) : ENNReal) • νe + (((n + 1) / 2 : ℕ) : ENNReal) • νo := by
  induction n with
  | zero => simp
  | succ n ih =>
    rw [Finset.sum_range_succ, ih]
    rcases Nat.even_or_odd' n with ⟨m, rfl | rfl⟩
    · have h1 : (2 * m + 1) % 2 = 1 := by omega
      have h2 : 2 * m / 2 = m := by omega
      have h3 : (2 * m + 1) / 2 = m := by omega
      have h4 : (2 * m + 1 + 1) / 2 = m + 1 := by omega
      rw [h1, if_neg one_ne_zero, h2, h3, h4]
      push_cast
      simp only [add_smul, one_smul, add_assoc]
    · have h1 : (2 * m + 1 + 1) % 2 = 0 := by omega
      have h3 : (2 * m + 1) / 2 = m := by omega
      have h4 : (2 * m + 1 + 1) / 2 = m + 1 := by omega
      have h5 : (2 * m + 1 + 1 + 1) / 2 = m + 1 := by omega
      rw [h1, if_pos rfl, h3, h4, h5]
      push_cast
      simp only [add_smul, one_smul, add_assoc]
      abel

/-! ## Gaussian vectors -/

theorem normal_hyperplane {d : ℕ} (j : Fin d) (a : Fin d → ℝ) (ha : a j ≠ 0) : ∀ᵐ Y ∂normalMatrix d 1, ∑ k, a k * Y k 0 ≠ 0 := by
  obtain ⟨d, rfl⟩ : ∃ e, d = e + 1 := ⟨d - 1, by have := j.2; omega⟩
  have hmp := measurePreserving_piFinSuccAbove (fun _ : Fin (d + 1) => Measure.pi fun _ : Fin 1 => gaussianReal 0 1) j
  have hS : MeasurableSet {q : (Fin 1 → ℝ) × (Fin d → Fin 1 → ℝ) | a j * q.1 0 + ∑ k, a (j.succAbove k) * q.2 k 0 = 0} :=
    (isClosed_eq (by fun_prop) continuous_const).measurableSet
  have h0 : ((Measure.pi fun _ : Fin 1 => gaussianReal 0 1).prod (Measure.pi fun _ : Fin d => Measure.pi fun _ : Fin 1 => gaussianReal 0 1))
      {q : (Fin 1 → ℝ) × (Fin d → Fin 1 → ℝ) | a j * q.1 0 + ∑ k, a (j.succAbove k) * q.2 k 0 = 0} = 0 := by
    rw [Measure.prod_apply_symm hS]
    refine (lintegral_congr fun y => ?_).trans lintegral_zero
    have hev := measurePreserving_eval (fun _ : Fin 1 => gaussianReal 0 1) 0
    have hsub : ((fun x => (x, y)) ⁻¹' {q : (Fin 1 → ℝ) × (Fin d → Fin 1 → ℝ) | a j * q.1 0 + ∑ k, a (j.succAbove k) * q.2 k 0 = 0}) =
        (Function.eval 0 : (Fin 1 → ℝ) → ℝ) ⁻¹' {-(∑ k, a (j.succAbove k) * y k 0) / a j} := by
      ext x
      simp only [Set.mem_preimage, Set.mem_setOf_eq, Function.eval, Set.mem_singleton_iff]
      rw [eq_div_iff ha]
      constructor <;> intro h <;> linarith
    rw [hsub, hev.measure_preimage (measurableSet_singleton _).nullMeasurableSet]
    exact (noAtoms_gaussianReal one_ne_zero).measure_singleton _
  have h1 := hmp.measure_preimage hS.nullMeasurableSet
  rw [h0] at h1
  rw [ae_iff]
  refine Eq.trans (congrArg _ ?_) h1
  ext Y
  simp only [not_not, Set.mem_setOf_eq, Set.mem_preimage]
  rw [Fin.sum_univ_succAbove _ j]
  rfl

/-- A Gaussian vector is almost surely not in the kernel of a nonzero matrix. -/
theorem normal_not_kernel {d : ℕ} {P : Op d} (hP : P ≠ 0) : ∀ᵐ Y ∂normalMatrix d 1, P *ᵥ (fun i => ((Y i 0 : ℝ) : ℂ)) ≠ 0 := by
  obtain ⟨i, j, hij⟩ : ∃ i j, P i j ≠ 0 := by
    by_contra h
    push Not at h
    exact hP (by ext i j; exact h i j)
  have key : ∀ a : Fin d → ℝ, a j ≠ 0 → ∀ᵐ Y ∂normalMatrix d 1, ∑ k, a k * Y k 0 ≠ 0 := normal_hyperplane j
  have hre : (fun k => (P i k).re) j ≠ 0 ∨ (fun k => (P i k).im) j ≠ 0 := by
    by_contra h
    push Not at h
    exact hij (Complex.ext h.1 h.2)
  rcases hre with h | h
  · filter_upwards [key (fun k => (P i k).re) h] with Y hY h0
    have := congrArg Complex.re (congrFun h0 i)
    simp [mulVec, dotProduct] at this
    exact hY this
  · filter_upwards [key (fun k => (P i k).im) h] with Y hY h0
    have := congrArg Complex.im (congrFun h0 i)
    simp [mulVec, dotProduct] at this
    exact hY this

/-! ## states with given occupations -/

theorem occ_unique {n : ℕ} (b : Fin n → Fin 2) {x : Fin (2 ^ n) → ℂ}
    (h : ∀ i : Fin n, ((jwLower n i)ᴴ * jwLower n i) *ᵥ x = ((b i : ℕ) : ℂ) • x) : x = Spec.inner (Spec.fock b) x • Spec.fock b := by
  have key : ∀ b' : Fin n → Fin 2, b' ≠ b → Spec.inner (Spec.fock b') x = 0 := by
    intro b' hb
    obtain ⟨i, hi⟩ := Function.ne_iff.1 hb
    have hN : ((jwLower n i)ᴴ * jwLower n i) *ᵥ Spec.fock b' = ((b' i : ℕ) : ℂ) • Spec.fock b' := by
      rw [← mulVec_mulVec, jwLower_fock]
      split_ifs with h1
      · rw [mulVec_smul, jwRaise_fock, if_pos (Function.update_self _ _ _), Function.update_idem, smul_smul, h1, ← pow_add]
        have e2 : Function.update b' i 1 = b' := by rw [← h1]; exact Function.update_eq_self _ _
        have e3 : (∑ k : Fin n, if k < i then (Function.update b' i 0 k : ℕ) else 0) = ∑ k : Fin n, if k < i then (b' k : ℕ) else 0 := by
          refine Finset.sum_congr rfl fun k _ => ?_
          split_ifs with hk
          · rw [Function.update_of_ne hk.ne]
          · rfl
        rw [e2, e3, Even.neg_one_pow ⟨_, rfl⟩]
        simp
      · have h2 : b' i = 0 := by
          have := (b' i).2
          apply Fin.ext
          have h3 : (b' i : ℕ) ≠ 1 := fun e => h1 (Fin.ext e)
          simp; omega
        rw [mulVec_zero, h2]; simp
    have h1 : Spec.inner (((jwLower n i)ᴴ * jwLower n i) *ᵥ Spec.fock b') x = Spec.inner (Spec.fock b') (((jwLower n i)ᴴ * jwLower n i) *ᵥ x) := by
      rw [inner_mul_left, conjTranspose_mul, conjTranspose_conjTranspose]
    rw [hN, h i, inner_smul_right, inner_smul_left, Complex.conj_natCast] at h1
    have h2 : (((b' i : ℕ) : ℂ) - ((b i : ℕ) : ℂ)) * Spec.inner (Spec.fock b') x = 0 := by rw [sub_mul, h1, sub_self]
    refine (mul_eq_zero.1 h2).resolve_left (sub_ne_zero.2 ?_)
    exact fun h => hi (Fin.ext (by exact_mod_cast h))
  funext y
  have hy : y = bIdx (Spec.digit 2 n y) := (eq_bIdx y _).2 rfl
  have h1 : x y = Spec.inner (Spec.fock (Spec.digit 2 n y)) x := by rw [inner_fock, ← hy]
  rw [Pi.smul_apply, fock_eq, Pi.single_apply, smul_eq_mul]
  by_cases hb : Spec.digit 2 n y = b
  · rw [if_pos ((eq_bIdx y b).2 hb), mul_one, h1, hb]
    rw [← fock_eq]
  · rw [if_neg (fun h => hb ((eq_bIdx y b).1 h)), mul_zero, h1, key _ hb]

end FF
