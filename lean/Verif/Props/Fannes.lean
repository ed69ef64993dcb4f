import Mathlib.Analysis.SpecialFunctions.BinaryEntropy
import Verif.Proofs.Weyl
import Verif.Proofs.Majorize
import Verif.Props.Continuity
import Verif.Props.MaxEntropy

/-! # Property C155: nearby states have nearby eigenvalues and entropies -/

namespace FF.Props

open Matrix
open scoped ComplexOrder

variable {d : ℕ} {ρ σ : Op d} {x y : Arr}

/-- The difference of two states is at most a positive operator whose trace is their distance. -/
theorem positive_part (hρ : Spec.IsDensity ρ) (hσ : Spec.IsDensity σ) :
    ∃ P : Op d, P.PosSemidef ∧ (σ + P - ρ).PosSemidef ∧ P.trace = ((1 / 2 * tnorm (ρ - σ) : ℝ) : ℂ) ∧
      ((((1 / 2 * tnorm (ρ - σ) : ℝ) : ℂ) • (1 : Op d)) - P).PosSemidef := by
  obtain ⟨U, l, h1, h2, h3, h4⟩ := herm_diag (hρ.psd.isHermitian.sub hσ.psd.isHermitian)
  have ht : ∑ i, l i = 0 := by
    have h : (ρ - σ).trace = ((∑ i, l i : ℝ) : ℂ) := by
      rw [h3, trace_mul_comm, ← Matrix.mul_assoc, h2, one_mul, trace_diagonal, Complex.ofReal_sum]
    rw [trace_sub, hρ.trace_one, hσ.trace_one, sub_self] at h
    exact_mod_cast h.symm
  have hn : ∑ i, max (l i) 0 = 1 / 2 * tnorm (ρ - σ) := by
    rw [tnorm_eq h4]
    have : ∀ i, max (l i) 0 = 1 / 2 * |l i| + 1 / 2 * l i := fun i => by
      rcases le_total 0 (l i) with h | h
      · rw [max_eq_left h, abs_of_nonneg h]; ring
      · rw [max_eq_right h, abs_of_nonpos h]; ring
    rw [Finset.sum_congr rfl fun i _ => this i, Finset.sum_add_distrib, ← Finset.mul_sum, ← Finset.mul_sum, ht, mul_zero, add_zero]
  have psd : ∀ {f : Fin d → ℝ}, (∀ i, 0 ≤ f i) → (U * diagonal (fun i => ((f i : ℝ) : ℂ)) * Uᴴ).PosSemidef := fun {f} hf =>
    (PosSemidef.diagonal fun i => Complex.zero_le_real.2 (hf i)).mul_mul_conjTranspose_same U
  refine ⟨U * diagonal (fun i => ((max (l i) 0 : ℝ) : ℂ)) * Uᴴ, psd fun i => le_max_right _ _, ?_, ?_, ?_⟩
  · have : σ + U * diagonal (fun i => ((max (l i) 0 : ℝ) : ℂ)) * Uᴴ - ρ = U * diagonal (fun i => ((max (l i) 0 - l i : ℝ) : ℂ)) * Uᴴ := by
      rw [show (diagonal fun i => ((max (l i) 0 - l i : ℝ) : ℂ)) = diagonal (fun i => ((max (l i) 0 : ℝ) : ℂ)) - diagonal fun i => ((l i : ℝ) : ℂ) by
        rw [diagonal_sub]; congr 1; funext i; push_cast; rfl, Matrix.mul_sub, Matrix.sub_mul, ← h3]
      abel
    rw [this]
    exact psd fun i => sub_nonneg.2 (le_max_left _ _)
  · rw [trace_mul_comm, ← Matrix.mul_assoc, h2, one_mul, trace_diagonal, ← hn, Complex.ofReal_sum]
  · obtain ⟨t, htd⟩ : ∃ t : ℝ, t = 1 / 2 * tnorm (ρ - σ) := ⟨_, rfl⟩
    rw [← htd] at hn ⊢
    have : ((t : ℝ) : ℂ) • (1 : Op d) - U * diagonal (fun i => ((max (l i) 0 : ℝ) : ℂ)) * Uᴴ =
        U * diagonal (fun i => ((t - max (l i) 0 : ℝ) : ℂ)) * Uᴴ := by
      rw [show (diagonal fun i => ((t - max (l i) 0 : ℝ) : ℂ)) = ((t : ℝ) : ℂ) • (1 : Op d) - diagonal fun i => ((max (l i) 0 : ℝ) : ℂ) by
        rw [smul_one_eq_diagonal, diagonal_sub]; congr 1; funext i; push_cast; rfl, Matrix.mul_sub, Matrix.sub_mul, mul_smul_comm, mul_one,
        smul_mul_assoc, h1]
    rw [this]
    refine psd fun i => sub_nonneg.2 ?_
    rw [← hn]
    exact Finset.single_le_sum (f := fun i => max (l i) 0) (fun i _ => le_max_right _ _) (Finset.mem_univ i)

/-- A larger operator has larger eigenvalues. -/
theorem spectrum_mono {A B : Op d} (hA : A.IsHermitian) (hB : B.IsHermitian) (h : (B - A).PosSemidef) (i : Fin d) : specDesc A i ≤ specDesc B i := by
  have := eigvalsh_le hA hB (ε := 0) (fun x => by
    have h1 := h.dotProduct_mulVec_nonneg x
    rw [sub_mulVec, dotProduct_sub] at h1
    have h2 := (Complex.le_def.1 h1).1
    rw [Complex.zero_re, Complex.sub_re] at h2
    linarith) i.rev
  rw [add_zero] at this
  exact this

/-- C155. The eigenvalues of two states, in descending order, are at a total variation distance of at most the trace distance of the states, and
the i-th eigenvalues differ by at most the trace distance. -/
theorem C155_eigenvalues (hE : Spec.EigvalsOk eigvals) (hx : Spec.IsState x ρ) (hy : Spec.IsState y σ) {l m : Fin d → ℝ}
    (hl : Spec.IsSpectrum ρ l) (hm : Spec.IsSpectrum σ m) {v w : Arr} (hv : Spec.Represents v l) (hw : Spec.Represents w m) :
    ∃ t s : ℝ, traceDistance eigvals x y = .ok t ∧ totalVariationDistance v w = .ok s ∧ s ≤ t ∧ ∀ i, |l i - m i| ≤ t := by
  have hρ := (state_cast hx).2
  have hσ := (state_cast hy).2
  refine ⟨_, _, traceDistance_eq hE hx hy, C68_value hv hw, ?_⟩
  obtain ⟨P, p1, p2, p3, p4⟩ := positive_part hρ hσ
  have hPσ : (σ + P).IsHermitian := hσ.psd.isHermitian.add p1.isHermitian
  rw [← isSpectrum_unique hρ.psd.isHermitian hl, ← isSpectrum_unique hσ.psd.isHermitian hm]
  have a1 : ∀ i, specDesc ρ i ≤ specDesc (σ + P) i := spectrum_mono hρ.psd.isHermitian hPσ p2
  have a2 : ∀ i, specDesc σ i ≤ specDesc (σ + P) i := spectrum_mono hσ.psd.isHermitian hPσ (by rw [add_sub_cancel_left]; exact p1)
  have tr : ∀ {A : Op d} (hA : A.IsHermitian), ∑ i, specDesc A i = A.trace.re := fun {A} hA => by
    rw [sum_specDesc hA, Matrix.trace, Complex.re_sum]; rfl
  constructor
  · have h1 : ∑ i, |specDesc ρ i - specDesc σ i| ≤ ∑ i, (2 * specDesc (σ + P) i - specDesc ρ i - specDesc σ i) :=
      Finset.sum_le_sum fun i _ => abs_le.2 ⟨by linarith [a1 i, a2 i], by linarith [a1 i, a2 i]⟩
    rw [Finset.sum_sub_distrib, Finset.sum_sub_distrib, ← Finset.mul_sum, tr hPσ, tr hρ.psd.isHermitian, tr hσ.psd.isHermitian, trace_add, p3,
      hρ.trace_one, hσ.trace_one, Complex.add_re, Complex.one_re, Complex.ofReal_re] at h1
    linarith
  · have up : ∀ {ρ σ : Op d}, Spec.IsDensity ρ → Spec.IsDensity σ → ∀ i, specDesc ρ i ≤ specDesc σ i + 1 / 2 * tnorm (ρ - σ) := fun {ρ σ} hρ hσ i => by
      obtain ⟨P, p1, p2, p3, p4⟩ := positive_part hρ hσ
      refine eigvalsh_le hρ.psd.isHermitian hσ.psd.isHermitian (fun x => ?_) i.rev
      have h1 := (Complex.le_def.1 (p2.dotProduct_mulVec_nonneg x)).1
      have h2 := (Complex.le_def.1 (p4.dotProduct_mulVec_nonneg x)).1
      have h3 : (star x ⬝ᵥ x).re = ∑ i, ‖x i‖ ^ 2 := by
        rw [dotProduct, Complex.re_sum]
        refine Finset.sum_congr rfl fun i _ => ?_
        rw [Pi.star_apply, Complex.star_def, ← Complex.normSq_eq_conj_mul_self, Complex.ofReal_re, Complex.normSq_eq_norm_sq]
      rw [sub_mulVec, dotProduct_sub, smul_mulVec, one_mulVec, dotProduct_smul, smul_eq_mul, Complex.zero_re, Complex.sub_re, Complex.re_ofReal_mul, h3] at h2
      rw [sub_mulVec, dotProduct_sub, add_mulVec, dotProduct_add, Complex.zero_re, Complex.sub_re, Complex.add_re] at h1
      linarith
    intro i
    have b1 := up hρ hσ i
    have b2 := up hσ hρ i
    rw [← neg_sub ρ σ, tnorm_neg (hρ.psd.isHermitian.sub hσ.psd.isHermitian)] at b2
    exact abs_le.2 ⟨by linarith, by linarith⟩

/-- C155. The entropies of two states at a trace distance `t` of at most `1 - 1/d` differ by at most `t log (d - 1) - t log t - (1 - t) log (1 - t)`. -/
theorem C155_entropy (hE : Spec.EigvalsOk eigvals) (hx : Spec.IsState x ρ) (hy : Spec.IsState y σ) {l m : Fin d → ℝ}
    (hl : Spec.IsSpectrum ρ l) (hm : Spec.IsSpectrum σ m) {v w : Arr} (hv : Spec.Represents v l) (hw : Spec.Represents w m) :
    ∃ t s r : ℝ, traceDistance eigvals x y = .ok t ∧ renyiEntropy v (.num 1) = .ok (s : EReal) ∧ renyiEntropy w (.num 1) = .ok (r : EReal) ∧
      (t ≤ 1 - 1 / d → |s - r| ≤ t * Real.log (d - 1) - t * Real.log t - (1 - t) * Real.log (1 - t)) := by
  obtain ⟨t, u, h1, h2, h3, -⟩ := C155_eigenvalues hE hx hy hl hm hv hw
  obtain ⟨u', s, r, g1, g2, g3, g4⟩ := C144_shannon hv hw
  obtain rfl : u = u' := Except.ok.inj (h2.symm.trans g1)
  refine ⟨t, s, r, h1, g2, g3, fun ht => g4.trans ?_⟩
  have hu0 : 0 ≤ u := by
    rw [C68_value hv hw] at h2
    rw [← Except.ok.inj h2]
    exact mul_nonneg (by norm_num) (Finset.sum_nonneg fun i _ => abs_nonneg _)
  have q : ∀ z : ℝ, z * Real.log (d - 1) - z * Real.log z - (1 - z) * Real.log (1 - z) = Real.qaryEntropy d z := fun z => by
    rw [Real.qaryEntropy, Real.binEntropy, Real.log_inv, Real.log_inv]
    push_cast
    ring
  rw [q, q]
  rcases Nat.lt_or_ge d 2 with hd | hd
  · have : t ≤ 0 := by
      interval_cases d
      · have := (state_cast hx).2.trace_one
        simp [Matrix.trace] at this
      · simpa using ht
    rw [show u = t by linarith]
  · exact (Real.qaryEntropy_strictMonoOn hd).monotoneOn ⟨hu0, h3.trans ht⟩ ⟨hu0.trans h3, ht⟩ h3

/-- The hypotheses of `C155_eigenvalues` and `C155_entropy` can be met, here by a pure and the completely mixed state. -/
example : ∃ (eigvals : {n : ℕ} → Op n → List ℂ) (ρ σ : Op 2) (x y v w : Arr) (l m : Fin 2 → ℝ), Spec.EigvalsOk eigvals ∧ Spec.IsState x ρ ∧
    Spec.IsState y σ ∧ Spec.IsSpectrum ρ l ∧ Spec.IsSpectrum σ m ∧ Spec.Represents v l ∧ Spec.Represents w m ∧ ρ ≠ σ ∧
    ∃ t : ℝ, traceDistance eigvals x y = .ok t ∧ t ≤ 1 - 1 / (2 : ℕ) := by
  obtain ⟨eigvals, hE⟩ := eigvals_exist
  have key : ∀ {a b : ℝ}, 0 ≤ a → 0 ≤ b → a + b = 1 → Spec.IsDensity (diagonal ![(a : ℂ), b] : Op 2) := fun {a b} ha hb h =>
    ⟨PosSemidef.diagonal fun i => by fin_cases i <;> simpa, by
      rw [trace_diagonal, Fin.sum_univ_two]; show (a : ℂ) + b = 1; exact_mod_cast h⟩
  have h1 := key (a := 1) (b := 0) (by norm_num) le_rfl (by norm_num)
  have h2 := key (a := 1 / 2) (b := 1 / 2) (by norm_num) (by norm_num) (by norm_num)
  obtain ⟨l, v, l1, l2⟩ := has_spectrum h1
  obtain ⟨m, w, m1, m2⟩ := has_spectrum h2
  have e : ∀ a b : ℝ, (diagonal ![(a : ℂ), b] : Op 2) = diagonal fun i => ((![a, b] i : ℝ) : ℂ) := fun a b => by
    congr 1; funext i; fin_cases i <;> rfl
  refine ⟨eigvals, _, _, _, _, v, w, l, m, hE, .inr (.inl ⟨h1, rfl⟩), .inr (.inl ⟨h2, rfl⟩), l1, m1, l2, m2, fun h => ?_, _,
    C69_classical hE ![1, 0] ![1 / 2, 1 / 2] (by rw [← e]; exact .inr (.inl ⟨h1, rfl⟩)) (by rw [← e]; exact .inr (.inl ⟨h2, rfl⟩)), ?_⟩
  · have := congrFun (congrFun h 1) 1
    norm_num at this
  · rw [Fin.sum_univ_two]
    norm_num [abs_of_pos, abs_of_neg]

end FF.Props
