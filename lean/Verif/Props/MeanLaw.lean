import Verif.Proofs.MeanLaw
import Verif.Props.MixLaw

/-! # C139: averages over the random states -/

namespace FF.Props

open Matrix MeasureTheory ProbabilityTheory Spec

/-! ## the average of a law that no free-fermion rotation changes -/

theorem ff_site {n : ℕ} (j : Fin n) : site j ∈ FFRotations (al n) :=
  have h := site_performs j
  ⟨mem_unitaryGroup_iff.2 h.unitary, _, mem_unitaryGroup_iff.2 h.orbital, site_symp j, site_det j, h.heis⟩

theorem ff_maj {n : ℕ} (i j : Fin n) : maj i * maj j ∈ FFRotations (al n) :=
  have h := (maj_performs i).mul (maj_performs j)
  ⟨mem_unitaryGroup_iff.2 h.unitary, _, mem_unitaryGroup_iff.2 h.orbital, symp_mul (maj_symp i) (maj_symp j),
    by rw [det_mul, maj_det, maj_det]; norm_num, h.heis⟩

theorem ff_parity {n : ℕ} {V : Op (2 ^ n)} (hV : V ∈ FFRotations (al n)) : V * parity n * Vᴴ = parity n := by
  obtain ⟨O, hO, hp⟩ := (ffrot_iff V).1 hV
  obtain ⟨W, hW, hc⟩ := performs_even hO
  rw [← rotAct_eq hp, rotAct_eq hW, hc, mul_assoc, hW.unitary, mul_one]

theorem mean_form {n : ℕ} (z : Fin n) {ν : Measure (Op (2 ^ n))} (hint : ∀ i j, Integrable (fun ρ : Op (2 ^ n) => ρ i j) ν)
    (hinv : ∀ V ∈ FFRotations (al n), ν.map (fun ρ => V * ρ * Vᴴ) = ν) (htr : ∫ ρ, (ρ * 1).trace ∂ν = 1) {t : ℂ}
    (ht : ∫ ρ, (ρ * parity n).trace ∂ν = t) : HasMean ν ((2 ^ n : ℂ)⁻¹ • (1 + t • parity n)) := by
  have hcom : ∀ V ∈ FFRotations (al n), V * meanOf ν = meanOf ν * V := fun V hV =>
    mean_commutes hint (mem_unitaryGroup_iff'.1 hV.1) (hinv V hV)
  obtain ⟨a, b, hM⟩ := commutant z (fun j => hcom _ (ff_site j)) (fun i j _ => hcom _ (ff_maj i j))
  have hd : ((2 : ℂ) ^ n) ≠ 0 := pow_ne_zero _ two_ne_zero
  have h1 : a * 2 ^ n = 1 := by
    rw [mean_trace hint, hM, mul_one, trace_add, trace_smul, trace_smul, parity_trace z, trace_one] at htr
    simpa using htr
  have h2 : b * 2 ^ n = t := by
    rw [mean_trace hint, hM, add_mul, Matrix.smul_mul, Matrix.smul_mul, one_mul, parity_sq, trace_add, trace_smul, trace_smul, parity_trace z, trace_one] at ht
    simpa using ht
  rw [hasMean_iff hint, hM, smul_add, smul_smul]
  congr 2
  · exact eq_inv_of_mul_eq_one_left h1
  · rw [← h2]; field_simp

theorem proj_bound {d : ℕ} {ψ : Fin d → ℂ} (h : IsUnitVec ψ) (i j : Fin d) : ‖proj ψ i j‖ ≤ 1 := by
  have h1 : ∀ i, ‖ψ i‖ ≤ 1 := fun i => by
    have : ‖ψ i‖ ^ 2 ≤ 1 := by
      rw [← show ∑ i, ‖ψ i‖ ^ 2 = 1 from h]
      exact Finset.single_le_sum (f := fun i => ‖ψ i‖ ^ 2) (fun j _ => by positivity) (Finset.mem_univ i)
    nlinarith [norm_nonneg (ψ i)]
  rw [proj, of_apply, norm_mul, norm_star]
  exact mul_le_one₀ (h1 i) (norm_nonneg _) (h1 j)

theorem proj_mul_trace {d : ℕ} (ψ : Fin d → ℂ) (A : Op d) : (proj ψ * A).trace = Spec.inner ψ (A *ᵥ ψ) := by
  rw [trace_mul_comm, show proj ψ = vecMulVec ψ (star ψ) from rfl, mul_vecMulVec, trace_vecMulVec, dotProduct_comm]
  rfl

theorem inner_unit {d : ℕ} {ψ : Fin d → ℂ} (h : IsUnitVec ψ) : Spec.inner ψ ψ = 1 := unit_iff_inner.1 h

/-- C139. The average of the uniform distribution of the free-fermion states that rotations make from the basis state with occupations `b` is the maximally mixed state of the
parity of `b`. -/
theorem C139_uniform {n : ℕ} (hn : 1 ≤ n) {f : Fin (n + n) → Op (2 ^ n)} (hf : jordanWignerAlphas n = List.ofFn f) (b : Fin n → Fin 2)
    (ν : Measure (Op (2 ^ n))) (h : IsUniformFF f (fock b) ν) : HasMean ν ((2 ^ n : ℂ)⁻¹ • (1 + (-1 : ℂ) ^ (∑ i, (b i : ℕ)) • parity n)) := by
  rw [jordanWignerAlphas_eq] at hf
  obtain rfl := List.ofFn_injective hf
  have := h.prob
  have hunit : ∀ V ∈ FFRotations (al n), IsUnitVec (V *ᵥ fock b) := fun V hV => unit_mulVec (mem_unitaryGroup_iff.1 hV.1) (unit_fock _)
  have hint : ∀ i j, Integrable (fun ρ : Op (2 ^ n) => ρ i j) ν := by
    refine integrable_entry ?_
    filter_upwards [h.support] with ρ hρ i j
    obtain ⟨V, hV, rfl⟩ := hρ
    exact proj_bound (hunit V hV) i j
  refine mean_form ⟨0, hn⟩ hint h.invariant ?_ ?_
  · have : ∀ᵐ ρ ∂ν, (ρ * 1).trace = (1 : ℂ) := by
      filter_upwards [h.support] with ρ hρ
      obtain ⟨V, hV, rfl⟩ := hρ
      rw [proj_mul_trace, one_mulVec, inner_unit (hunit V hV)]
    rw [integral_congr_ae this]
    simp
  · have : ∀ᵐ ρ ∂ν, (ρ * parity n).trace = (-1 : ℂ) ^ (∑ i, (b i : ℕ)) := by
      filter_upwards [h.support] with ρ hρ
      obtain ⟨V, hV, rfl⟩ := hρ
      have hc : parity n * V = V * parity n := by
        conv_lhs => rw [← ff_parity hV, mul_assoc, show Vᴴ * V = 1 from mem_unitaryGroup_iff'.1 hV.1, mul_one]
      rw [proj_mul_trace, mulVec_mulVec, hc, ← mulVec_mulVec, parity_fock, mulVec_smul]
      have hs : ∀ (c : ℂ) (v : Fin (2 ^ n) → ℂ), Spec.inner v (c • v) = c * Spec.inner v v := fun c v => by
        simp only [Spec.inner, Pi.smul_apply, smul_eq_mul, Finset.mul_sum]
        exact Finset.sum_congr rfl fun i _ => by ring
      rw [hs, inner_unit (hunit V hV), mul_one]
    rw [integral_congr_ae this]
    simp

/-- C139. So the average of an expectation value is the expectation value in the average state. -/
theorem C139_expectation {d : ℕ} {ν : Measure (Op d)} {M : Op d} (h : HasMean ν M) (A : Op d) :
    Integrable (fun ρ : Op d => (ρ * A).trace) ν ∧ ∫ ρ, (ρ * A).trace ∂ν = (M * A).trace :=
  ⟨integrable_trace h.integrable A, by rw [mean_trace h.integrable, (hasMean_iff h.integrable).1 h]⟩

theorem site_anti {n : ℕ} (i : Fin n) : maj i * site i * maj i = -site i := by
  have h : ∀ k, siteSign i k = -1 → site i * al n k = -(al n k * site i) := fun k hk => by
    have := congrArg (· * site i) (site_al i k)
    simp only [mul_assoc, site_sq, mul_one, hk] at this
    rw [this, Matrix.smul_mul, neg_smul, one_smul]
  have hs : site i * maj i = -(maj i * site i) := by
    rw [maj, mul_add, add_mul, h _ (by simp [siteSign]), h _ (by simp [siteSign]), neg_add]
  rw [mul_assoc, hs, mul_neg, ← mul_assoc, maj_sq, one_mul]

theorem site_trace {n : ℕ} (i : Fin n) : (site i).trace = 0 := by
  have h2 := congrArg trace (site_anti i)
  rw [trace_mul_comm, ← mul_assoc, maj_sq, one_mul, trace_neg] at h2
  exact CharZero.eq_neg_self_iff.1 h2

theorem site_parity_trace {n : ℕ} {i z : Fin n} (hz : z ≠ i) : (parity n * site i).trace = 0 := by
  have h : ∀ k, siteSign i k = 1 → site i * al n k = al n k * site i := fun k hk => by
    have := congrArg (· * site i) (site_al i k)
    simp only [mul_assoc, site_sq, mul_one, hk] at this
    rw [this, Matrix.smul_mul, one_smul]
  have hs : site i * maj z = maj z * site i := by
    have h1 : ∀ k, k = Fin.castAdd n z ∨ k = Fin.natAdd n z → siteSign i k = 1 := by
      intro k hk
      rw [siteSign, if_neg]
      rintro (h | h) <;> rcases hk with rfl | rfl
      · exact hz (Fin.castAdd_injective _ _ h)
      · exact castAdd_ne_natAdd _ _ h.symm
      · exact castAdd_ne_natAdd _ _ h
      · exact hz (Fin.natAdd_injective _ _ h)
    rw [maj, mul_add, add_mul, h _ (h1 _ (Or.inl rfl)), h _ (h1 _ (Or.inr rfl))]
  have hp : parity n * maj z = -(maj z * parity n) := by
    rw [maj, mul_add, add_mul, parity_al, parity_al]; abel
  have h1 : maj z * (parity n * site i) * maj z = -(parity n * site i) := by
    rw [mul_assoc, mul_assoc, hs, ← mul_assoc (parity n), hp, neg_mul, mul_neg, mul_assoc, ← mul_assoc (maj z), maj_sq, one_mul]
  have h2 := congrArg trace h1
  rw [trace_mul_comm, ← mul_assoc, maj_sq, one_mul, trace_neg] at h2
  exact CharZero.eq_neg_self_iff.1 h2

/-- C139. On two or more sites every site is, on average, half filled, whatever the number `N` of particles at the start. -/
theorem C139_occupation {n : ℕ} (hn : 2 ≤ n) {f : Fin (n + n) → Op (2 ^ n)} (hf : jordanWignerAlphas n = List.ofFn f) (b : Fin n → Fin 2)
    (ν : Measure (Op (2 ^ n))) (h : IsUniformFF f (fock b) ν) (i : Fin n) :
    ∫ ρ, (ρ * (f (Fin.castAdd n i) * f (Fin.natAdd n i))).trace ∂ν = 1 / 2 := by
  have hm := C139_uniform (by omega) hf b ν h
  rw [jordanWignerAlphas_eq] at hf
  obtain rfl := List.ofFn_injective hf
  rw [(C139_expectation hm _).2]
  obtain ⟨z, hz⟩ : ∃ z : Fin n, z ≠ i := by
    have : Nontrivial (Fin n) := Fin.nontrivial_iff_two_le.2 hn
    exact exists_ne i
  have e : al n (Fin.castAdd n i) * al n (Fin.natAdd n i) = (2⁻¹ : ℂ) • (1 - site i) := by
    rw [site, sub_sub_cancel, smul_smul]; simp
  have hd : ((2 : ℂ) ^ n) ≠ 0 := pow_ne_zero _ two_ne_zero
  rw [e, Matrix.mul_smul, Matrix.smul_mul, trace_smul, trace_smul, add_mul, one_mul, Matrix.smul_mul, mul_sub, mul_one, trace_add, trace_sub, trace_smul, trace_sub,
    site_trace, site_parity_trace hz, parity_trace i, trace_one]
  simp

/-- C139. On two or more sites the average number of particles is `n / 2`, whatever the number of particles at the start. -/
theorem C139_number {n : ℕ} (hn : 2 ≤ n) {f : Fin (n + n) → Op (2 ^ n)} (hf : jordanWignerAlphas n = List.ofFn f) (b : Fin n → Fin 2)
    (ν : Measure (Op (2 ^ n))) (h : IsUniformFF f (fock b) ν) :
    ∫ ρ, (ρ * ∑ i : Fin n, f (Fin.castAdd n i) * f (Fin.natAdd n i)).trace ∂ν = (n : ℂ) / 2 := by
  have hm := C139_uniform (by omega) hf b ν h
  simp only [Finset.mul_sum, trace_sum]
  rw [integral_finset_sum _ fun i _ => (C139_expectation hm _).1, Finset.sum_congr rfl fun i _ => C139_occupation hn hf b ν h i]
  simp
  ring

theorem hasMean_mix {d : ℕ} {ν ν' : Measure (Op d)} {M M' : Op d} (h : HasMean ν M) (h' : HasMean ν' M') {c c' : ENNReal} (hc : c ≠ ⊤) (hc' : c' ≠ ⊤) :
    HasMean (c • ν + c' • ν') ((c.toReal : ℂ) • M + (c'.toReal : ℂ) • M') := by
  refine ⟨fun i j => ((h.integrable i j).smul_measure hc).add_measure ((h'.integrable i j).smul_measure hc'), fun i j => ?_⟩
  rw [integral_add_measure ((h.integrable i j).smul_measure hc) ((h'.integrable i j).smul_measure hc'), integral_smul_measure, integral_smul_measure, h.mean, h'.mean]
  simp

/-- C139. The average of the mixture that `random_FF_pure_state_WN(n)` and `random_FF_pure_state_CN(n)` sample: for odd `n` it is the maximally mixed state, for even `n` the even
states have the excess weight `1 / (n + 1)`. -/
theorem C139_mixture {n : ℕ} (hn : 1 ≤ n) {f : Fin (n + n) → Op (2 ^ n)} (hf : jordanWignerAlphas n = List.ofFn f) {νe νo : Measure (Op (2 ^ n))}
    (he : IsUniformFF f (fock fun i : Fin n => if (i : ℕ) < 0 then 1 else 0) νe) (ho : IsUniformFF f (fock fun i : Fin n => if (i : ℕ) < 1 then 1 else 0) νo) :
    HasMean ((((n / 2 + 1 : ℕ) : ENNReal) / ((n + 1 : ℕ) : ENNReal)) • νe + ((((n + 1) / 2 : ℕ) : ENNReal) / ((n + 1 : ℕ) : ENNReal)) • νo)
      ((2 ^ n : ℂ)⁻¹ • (1 + (if Even n then 1 / (n + 1 : ℂ) else 0) • parity n)) := by
  have h1 := C139_uniform hn hf _ νe he
  have h2 := C139_uniform hn hf _ νo ho
  have s1 : ∑ i : Fin n, (((if (i : ℕ) < 0 then 1 else 0 : Fin 2) : Fin 2) : ℕ) = 0 := by simp
  have s2 : ∑ i : Fin n, (((if (i : ℕ) < 1 then 1 else 0 : Fin 2) : Fin 2) : ℕ) = 1 := by
    rw [Finset.sum_eq_single ⟨0, hn⟩]
    · simp
    · intro j _ hj
      have : ¬ (j : ℕ) < 1 := fun h => hj (Fin.ext (by simpa using h))
      simp [this]
    · simp
  rw [s1, pow_zero] at h1
  rw [s2, pow_one] at h2
  have ht : ∀ a : ℕ, ((a : ENNReal) / ((n + 1 : ℕ) : ENNReal)) ≠ ⊤ := fun a => ENNReal.div_ne_top (ENNReal.natCast_ne_top _) (by simp)
  have h := hasMean_mix h1 h2 (ht (n / 2 + 1)) (ht ((n + 1) / 2))
  convert h using 1
  rw [smul_comm _ ((2 ^ n : ℂ)⁻¹), smul_comm _ ((2 ^ n : ℂ)⁻¹), ← smul_add]
  congr 1
  have hn1 : (n + 1 : ℂ) ≠ 0 := by exact_mod_cast Nat.succ_ne_zero n
  simp only [ENNReal.toReal_div, ENNReal.toReal_natCast]
  have hw : ((((n / 2 + 1 : ℕ) : ℝ) / ((n + 1 : ℕ) : ℝ) : ℝ) : ℂ) + ((((((n + 1) / 2 : ℕ)) : ℝ) / ((n + 1 : ℕ) : ℝ) : ℝ) : ℂ) = 1 := by
    push_cast
    rw [← add_div, div_eq_one_iff_eq hn1]
    exact_mod_cast (by omega : n / 2 + 1 + (n + 1) / 2 = n + 1)
  have hδ : ((((n / 2 + 1 : ℕ) : ℝ) / ((n + 1 : ℕ) : ℝ) : ℝ) : ℂ) - ((((((n + 1) / 2 : ℕ)) : ℝ) / ((n + 1 : ℕ) : ℝ) : ℝ) : ℂ) = if Even n then 1 / (n + 1 : ℂ) else 0 := by
    push_cast
    rw [← sub_div]
    split_ifs with hev
    · congr 1
      have : n / 2 + 1 = (n + 1) / 2 + 1 := by have := Nat.even_iff.1 hev; omega
      rw [sub_eq_iff_eq_add']
      exact_mod_cast this
    · have : n / 2 + 1 = (n + 1) / 2 := by have := Nat.not_even_iff.1 hev; omega
      rw [← this]
      push_cast
      simp
  rw [← hδ]
  conv_lhs => rw [← one_smul ℂ (1 : Op (2 ^ n)), ← hw]
  module

section
variable {σ : Type} [MeasurableSpace σ] (rng : Rng σ) (logm : (d : ℕ) → Op d → Op d) (μ : Measure σ) {n : ℕ} {f : Fin (n + n) → Op (2 ^ n)}

/-- C139. `random_FF_pure_state_W0(n)`: up to `4e-10 n²` a sample of a law with the average `(1 + P) / 2^n`, with `P` the parity. -/
theorem C139_W0 (hd : DrawsOk rng) (hi : IdealSource rng μ) (hl : LogmOk logm) (hn : 1 ≤ n) :
    ∃ ν : Measure (Op (2 ^ n)), HasMean ν ((2 ^ n : ℂ)⁻¹ • (1 + parity n)) ∧
      SamplesNear μ (randomFFPureStateW0 rng logm (.int n) none) ν (4e-10 * n ^ 2) := by
  have hf := jordanWignerAlphas_eq n
  obtain ⟨ν, h, h'⟩ := C137_W0 rng logm μ hd hi hl hn hf
  have hm := C139_uniform hn hf _ ν h
  refine ⟨ν, ?_, h'⟩
  simpa using hm

/-- C139. `random_FF_pure_state_WN(n, N)`: up to `4e-10 n²` a sample of a law with the average `(1 + (-1)^N P) / 2^n`; on two or more sites the average number of particles
of this law is `n / 2`, whatever `N`. -/
theorem C139_WN (hd : DrawsOk rng) (hi : IdealSource rng μ) (hl : LogmOk logm) (hn : 1 ≤ n) (hf : jordanWignerAlphas n = List.ofFn f) (N : ℕ) (hN : N ≤ n) :
    ∃ ν : Measure (Op (2 ^ n)), HasMean ν ((2 ^ n : ℂ)⁻¹ • (1 + (-1 : ℂ) ^ N • parity n)) ∧
      (2 ≤ n → ∫ ρ, (ρ * ∑ i : Fin n, f (Fin.castAdd n i) * f (Fin.natAdd n i)).trace ∂ν = (n : ℂ) / 2) ∧
      SamplesNear μ (randomFFPureStateWN rng logm (.int n) (some (.int N)) none) ν (4e-10 * n ^ 2) := by
  obtain ⟨ν, h, h'⟩ := C137_WN_partial rng logm μ hd hi hl hn hf N hN
  have hm := C139_uniform hn hf _ ν h
  refine ⟨ν, ?_, fun h2 => C139_number h2 hf _ ν h, h'⟩
  have e : ∑ i : Fin n, (((if (i : ℕ) < N then 1 else 0 : Fin 2) : Fin 2) : ℕ) = N := by
    have := filled_sum hN
    simpa [filled] using this
  rwa [e] at hm

/-- C139. `random_FF_pure_state_WN(n)`. -/
theorem C139_WN_random (hd : DrawsOk rng) (hi : IdealSource rng μ) (hl : LogmOk logm) (hn : 1 ≤ n) :
    ∃ ν : Measure (Op (2 ^ n)), HasMean ν ((2 ^ n : ℂ)⁻¹ • (1 + (if Even n then 1 / (n + 1 : ℂ) else 0) • parity n)) ∧
      SamplesNear μ (randomFFPureStateWN rng logm (.int n) none none) ν (4e-10 * n ^ 2) := by
  have hf := jordanWignerAlphas_eq n
  obtain ⟨νe, νo, he, ho, h⟩ := C138_WN_random rng logm μ hd hi hl hn hf
  exact ⟨_, C139_mixture hn hf he ho, h⟩

end

/-! ## qubit states -/

theorem unitary_mean {n : ℕ} (z : Fin n) {ν : Measure (Op (2 ^ n))} (hint : ∀ i j, Integrable (fun ρ : Op (2 ^ n) => ρ i j) ν)
    (hinv : ∀ V ∈ unitaryGroup (Fin (2 ^ n)) ℂ, ν.map (fun ρ => V * ρ * Vᴴ) = ν) (htr : ∫ ρ, (ρ * 1).trace ∂ν = 1) :
    HasMean ν ((2 ^ n : ℂ)⁻¹ • 1) := by
  have hmu : maj z ∈ unitaryGroup (Fin (2 ^ n)) ℂ := mem_unitaryGroup_iff.2 (maj_performs z).unitary
  have hc := mean_commutes hint (mem_unitaryGroup_iff'.1 hmu) (hinv _ hmu)
  have h0 : ∫ ρ, (ρ * parity n).trace ∂ν = 0 := by
    rw [mean_trace hint]
    have hp : parity n * maj z = -(maj z * parity n) := by
      rw [maj, mul_add, add_mul, parity_al, parity_al]; abel
    have h1 : maj z * (meanOf ν * parity n) * maj z = -(meanOf ν * parity n) := by
      rw [← mul_assoc, hc, mul_assoc, mul_assoc, hp, mul_neg, ← mul_assoc (maj z), maj_sq, one_mul, mul_neg]
    have h2 := congrArg trace h1
    rw [trace_mul_comm, ← mul_assoc, maj_sq, one_mul, trace_neg] at h2
    exact CharZero.eq_neg_self_iff.1 h2
  have h := mean_form z hint (fun V hV => hinv V hV.1) htr h0
  simpa using h

theorem density_bound {d : ℕ} {U : Op d} (hU : U * Uᴴ = 1) {p : Fin d → ℝ} (hp : IsProb p) (i j : Fin d) :
    ‖(U * diagonal (fun i => ((p i : ℝ) : ℂ)) * Uᴴ) i j‖ ≤ 1 := by
  have hu : ∀ i k, ‖U i k‖ ≤ 1 := fun i k => by
    have h := congrFun (congrFun hU i) i
    rw [mul_apply, one_apply_eq] at h
    have h2 : ∑ k, ‖U i k‖ ^ 2 = 1 := by
      have : ((∑ k, ‖U i k‖ ^ 2 : ℝ) : ℂ) = 1 := by
        rw [← h]
        push_cast
        refine Finset.sum_congr rfl fun k _ => ?_
        rw [conjTranspose_apply, Complex.star_def, Complex.mul_conj, Complex.normSq_eq_norm_sq]
        push_cast
        rfl
      exact_mod_cast this
    have : ‖U i k‖ ^ 2 ≤ 1 := by
      rw [← h2]
      exact Finset.single_le_sum (f := fun k => ‖U i k‖ ^ 2) (fun j _ => by positivity) (Finset.mem_univ k)
    nlinarith [norm_nonneg (U i k)]
  rw [mul_apply]
  refine (norm_sum_le _ _).trans ?_
  rw [← hp.2]
  refine Finset.sum_le_sum fun k _ => ?_
  rw [mul_diagonal, norm_mul, norm_mul, conjTranspose_apply, norm_star, Complex.norm_real, Real.norm_eq_abs, abs_of_nonneg (hp.1 k)]
  have := hu i k
  have := hu j k
  have := hp.1 k
  have := norm_nonneg (U i k)
  have := norm_nonneg (U j k)
  calc ‖U i k‖ * p k * ‖U j k‖ ≤ 1 * p k * 1 := by gcongr
    _ = p k := by ring

theorem density_trace {d : ℕ} {U : Op d} (hU : U * Uᴴ = 1) {p : Fin d → ℝ} (hp : IsProb p) :
    (U * diagonal (fun i => ((p i : ℝ) : ℂ)) * Uᴴ * 1).trace = 1 := by
  rw [mul_one, trace_mul_comm, ← mul_assoc, mul_eq_one_comm.1 hU, one_mul, trace_diagonal, ← Complex.ofReal_sum, hp.2, Complex.ofReal_one]

/-- The law of a function of a sample. -/
theorem integrable_of_map {α : Type} [MeasurableSpace α] {d : ℕ} {ν : Measure α} [IsProbabilityMeasure ν] {g : α → Op d} (hg : Measurable g)
    (h : ∀ᵐ x ∂ν, ∀ i j, ‖g x i j‖ ≤ 1) (i j : Fin d) : Integrable (fun ρ : Op d => ρ i j) (ν.map g) := by
  rw [integrable_map_measure (entry_measurable i j).aestronglyMeasurable hg.aemeasurable]
  exact Integrable.of_bound ((entry_measurable i j).comp hg).aestronglyMeasurable 1 (h.mono fun _ h => h i j)

theorem trace_measurable {d : ℕ} (A : Op d) : Measurable fun ρ : Op d => (ρ * A).trace := by
  have : Continuous fun ρ : Op d => (ρ * A).trace := (continuous_id.matrix_mul continuous_const).matrix_trace
  exact this.measurable

theorem trace_of_map {α : Type} [MeasurableSpace α] {d : ℕ} {ν : Measure α} [IsProbabilityMeasure ν] {g : α → Op d} (hg : Measurable g) (A : Op d) {t : ℂ}
    (h : ∀ᵐ x ∂ν, (g x * A).trace = t) : ∫ ρ, (ρ * A).trace ∂(ν.map g) = t := by
  rw [integral_map hg.aemeasurable (trace_measurable A).aestronglyMeasurable, integral_congr_ae h]
  simp

theorem proj_measurable (d : ℕ) : Measurable (proj : (Fin d → ℂ) → Op d) := by
  have : Continuous (proj : (Fin d → ℂ) → Op d) :=
    continuous_pi fun i => continuous_pi fun j => (continuous_apply i).mul (continuous_apply j).star
  exact this.measurable

theorem proj_invariant {d : ℕ} {ν : Measure (Fin d → ℂ)} (hν : IsUniformVec ν) {V : Op d} (hV : V ∈ unitaryGroup (Fin d) ℂ) :
    (ν.map proj).map (fun ρ => V * ρ * Vᴴ) = ν.map proj := by
  have hm : Measurable fun v : Fin d → ℂ => V *ᵥ v := (continuous_const.matrix_mulVec continuous_id).measurable
  rw [Measure.map_map (conj_const_measurable V) (proj_measurable d)]
  conv_rhs => rw [← hν.invariant V hV, Measure.map_map (proj_measurable d) hm]
  congr 1
  funext v
  exact proj_conj V v

theorem map_first {σ α β : Type} [MeasurableSpace σ] [MeasurableSpace α] [MeasurableSpace β] {μ : Measure σ} [IsProbabilityMeasure μ] {ν : Measure α} [SFinite ν] {F : σ → α × σ}
    (hF : Fresh F ν μ) {g : α → β} (hg : Measurable g) : (μ.map fun s => g (F s).1) = ν.map g := by
  have hm : Measurable fun s => (F s).1 := measurable_fst.comp hF.measurable
  rw [← fresh_fst hF, Measure.map_map hg hm]
  rfl

theorem conj_trace {d : ℕ} {V : Op d} {A D : Op d} (hu : Vᴴ * V = 1) (h : V * A * Vᴴ = A) : (V * D * Vᴴ * A).trace = (D * A).trace := by
  conv_lhs => rw [← h]
  rw [show V * D * Vᴴ * (V * A * Vᴴ) = V * (D * (Vᴴ * V) * A) * Vᴴ by simp only [mul_assoc], hu, mul_one, trace_mul_comm, ← mul_assoc, hu, one_mul]

/-! ## spectra -/

theorem dirichlet_swap {d : ℕ} (e : Fin d ≃ Fin d) : (flatDirichlet d).map (fun p i => p (e i)) = flatDirichlet d := by
  have hd : Measurable fun (x : Fin d → ℝ) i => x i / ∑ j, x j := by fun_prop
  have hp : Measurable fun (p : Fin d → ℝ) i => p (e i) := by fun_prop
  have hpi : (Measure.pi fun _ : Fin d => expMeasure 1).map (fun (p : Fin d → ℝ) i => p (e i)) = Measure.pi fun _ : Fin d => expMeasure 1 := by
    have := (measurePreserving_piCongrLeft (fun _ : Fin d => expMeasure 1) e.symm).map_eq
    convert this using 2
    funext p i
    rw [MeasurableEquiv.coe_piCongrLeft, Equiv.piCongrLeft_apply]
    simp
  rw [flatDirichlet, Measure.map_map hp hd]
  conv_rhs => rw [← hpi, Measure.map_map hd hp]
  congr 1
  funext x i
  simp only [Function.comp]
  rw [e.sum_comp]

theorem dirichlet_integrable {d : ℕ} (hd : 0 < d) (i : Fin d) : Integrable (fun p : Fin d → ℝ => p i) (flatDirichlet d) := by
  refine Integrable.of_bound (measurable_pi_apply i).aestronglyMeasurable 1 ?_
  filter_upwards [dirichlet_support hd] with p hp
  rw [Real.norm_eq_abs, abs_of_nonneg (hp.1 i), ← hp.2]
  exact Finset.single_le_sum (f := p) (fun j _ => hp.1 j) (Finset.mem_univ i)

/-- C139. Every entry of a flat Dirichlet spectrum has the average `1 / d`. -/
theorem C139_dirichlet {d : ℕ} (hd : 0 < d) (i : Fin d) : ∫ p, p i ∂(flatDirichlet d) = 1 / d := by
  have hsame : ∀ j, ∫ p, p j ∂(flatDirichlet d) = ∫ p, p i ∂(flatDirichlet d) := by
    intro j
    have hp : Measurable fun (p : Fin d → ℝ) k => p (Equiv.swap i j k) := by fun_prop
    have := integral_map (μ := flatDirichlet d) hp.aemeasurable (f := fun p : Fin d → ℝ => p i) (measurable_pi_apply i).aestronglyMeasurable
    rw [dirichlet_swap] at this
    simpa using this.symm
  have hsum : ∑ j, ∫ p, p j ∂(flatDirichlet d) = 1 := by
    rw [← integral_finset_sum _ fun j _ => dirichlet_integrable hd j]
    have : ∀ᵐ p ∂(flatDirichlet d), ∑ j, p j = (1 : ℝ) := (dirichlet_support hd).mono fun p hp => hp.2
    rw [integral_congr_ae this]
    simp
  rw [Finset.sum_congr rfl fun j _ => hsame j] at hsum
  simp at hsum
  have : (d : ℝ) ≠ 0 := by exact_mod_cast hd.ne'
  field_simp
  linarith

section
variable {σ : Type} [MeasurableSpace σ] (rng : Rng σ) (logm : (d : ℕ) → Op d → Op d) (μ : Measure σ) {n : ℕ}

/-- C139. The projector of `random_qubit_pure_state(n)` has the average `1 / 2^n`. -/
theorem C139_pure (hd : DrawsOk rng) (hi : IdealSource rng μ) (hn : 1 ≤ n) :
    ∃ F : σ → (Fin (2 ^ n) → ℂ) × σ, (∀ s, (randomQubitPureState rng (.int n) none).exec s = (.ok ⟨n, (F s).1⟩, (F s).2)) ∧
      HasMean (μ.map fun s => proj (F s).1) ((2 ^ n : ℂ)⁻¹ • 1) := by
  have := hi.prob
  obtain ⟨ν, hν, F, hF, hex⟩ := C136_pure rng μ hd hi n hn
  have := hν.prob
  refine ⟨F, hex, ?_⟩
  rw [map_first hF (proj_measurable _)]
  refine unitary_mean ⟨0, hn⟩ (integrable_of_map (proj_measurable _) (hν.support.mono fun v hv => proj_bound hv)) (fun V hV => proj_invariant hν hV)
    (trace_of_map (proj_measurable _) 1 (hν.support.mono fun v hv => ?_))
  rw [proj_mul_trace, one_mulVec, inner_unit hv]

/-- C139. `random_qubit_state(n)` has the average `1 / 2^n`. -/
theorem C139_mixed (hd : DrawsOk rng) (hi : IdealSource rng μ) (hn : 1 ≤ n) :
    ∃ F : σ → Op (2 ^ n) × σ, (∀ s, (randomQubitState rng (.int n) none).exec s = (.ok ⟨2 ^ n, (F s).1⟩, (F s).2)) ∧
      HasMean (μ.map fun s => (F s).1) ((2 ^ n : ℂ)⁻¹ • 1) := by
  have := hi.prob
  obtain ⟨ν, l, hp, hl, rfl, hinv, F, hF, hex⟩ := C136_mixed rng μ hd hi n hn
  have := hl.prob
  refine ⟨F, hex, ?_⟩
  rw [fresh_fst hF]
  have h1 : ∀ᵐ x ∂((flatDirichlet (2 ^ n)).prod l), IsProb x.1 :=
    Measure.quasiMeasurePreserving_fst.ae (dirichlet_support (d := 2 ^ n) (by positivity))
  have h2 : ∀ᵐ x ∂((flatDirichlet (2 ^ n)).prod l), x.2 * x.2ᴴ = 1 :=
    Measure.quasiMeasurePreserving_snd.ae (hl.support.mono fun U hU => mem_unitaryGroup_iff.1 hU)
  refine unitary_mean ⟨0, hn⟩ (integrable_of_map (spectral_measurable _) ?_) hinv (trace_of_map (spectral_measurable _) 1 ?_)
  · filter_upwards [h1, h2] with x a1 a2 using density_bound a2 a1
  · filter_upwards [h1, h2] with x a1 a2 using density_trace a2 a1

end

theorem spectrum_signs {α : Type} [MeasurableSpace α] {d : ℕ} (hd : 0 < d) {ν : Measure (α × (Fin d → ℝ))} (h : ν.map Prod.snd = flatDirichlet d) (c : Fin d → ℂ) :
    ∫ x, ∑ i, ((x.2 i : ℝ) : ℂ) * c i ∂ν = (1 / d : ℂ) * ∑ i, c i := by
  have hi : ∀ i, Integrable (fun p : Fin d → ℝ => ((p i : ℝ) : ℂ) * c i) (flatDirichlet d) := fun i => (dirichlet_integrable hd i).ofReal.mul_const _
  have hm : Measurable fun p : Fin d → ℝ => ∑ i, ((p i : ℝ) : ℂ) * c i := by fun_prop
  have e := integral_map (μ := ν) measurable_snd.aemeasurable hm.aestronglyMeasurable
  rw [h] at e
  rw [← e, integral_finset_sum _ fun i _ => hi i, Finset.mul_sum]
  refine Finset.sum_congr rfl fun i _ => ?_
  have e1 : ∫ p : Fin d → ℝ, ((p i : ℝ) : ℂ) ∂(flatDirichlet d) = ((∫ p : Fin d → ℝ, p i ∂(flatDirichlet d) : ℝ) : ℂ) := integral_ofReal
  rw [integral_mul_const, e1, C139_dirichlet hd i]
  push_cast
  rfl

theorem rotated_invariant {d : ℕ} {α : Type} [MeasurableSpace α] {ν : Measure (Op d × α)} {V : Op d} (h : ν.map (fun x => (V * x.1 * Vᴴ, x.2)) = ν) :
    (ν.map Prod.fst).map (fun ρ => V * ρ * Vᴴ) = ν.map Prod.fst := by
  have hm : Measurable fun x : Op d × α => (V * x.1 * Vᴴ, x.2) := ((conj_const_measurable V).comp measurable_fst).prodMk measurable_snd
  rw [Measure.map_map (conj_const_measurable V) measurable_fst]
  conv_rhs => rw [← h, Measure.map_map measurable_fst hm]
  rfl

/-- C139. A state with a flat Dirichlet spectrum in a uniformly distributed free-fermion frame has the average `1 / 2^n`. -/
theorem C139_rotated {n : ℕ} (hn : 1 ≤ n) {f : Fin (n + n) → Op (2 ^ n)} (hf : jordanWignerAlphas n = List.ofFn f)
    (ν : Measure (Op (2 ^ n) × (Fin (2 ^ n) → ℝ))) (h : IsRotatedSpectrum f (flatDirichlet (2 ^ n)) ν) :
    HasMean (ν.map Prod.fst) ((2 ^ n : ℂ)⁻¹ • 1) := by
  rw [jordanWignerAlphas_eq] at hf
  obtain rfl := List.ofFn_injective hf
  have hd : 0 < 2 ^ n := by positivity
  have hprob : IsProbabilityMeasure ν := by
    have : IsProbabilityMeasure (ν.map Prod.snd) := by rw [h.spectrum]; infer_instance
    refine ⟨?_⟩
    have h1 := this.measure_univ
    rwa [Measure.map_apply measurable_snd MeasurableSet.univ, Set.preimage_univ] at h1
  have hp : ∀ᵐ x ∂ν, IsProb x.2 := by
    have := dirichlet_support hd
    rw [← h.spectrum] at this
    exact ae_of_ae_map measurable_snd.aemeasurable this
  have h0 : ∫ ρ, (ρ * parity n).trace ∂(ν.map Prod.fst) = 0 := by
    have hm : Measurable fun ρ : Op (2 ^ n) => (ρ * parity n).trace := trace_measurable _
    rw [integral_map measurable_fst.aemeasurable hm.aestronglyMeasurable]
    have e : ∀ᵐ x ∂ν, (x.1 * parity n).trace = ∑ i, ((x.2 i : ℝ) : ℂ) * parity n i i := by
      filter_upwards [h.form] with x hx
      obtain ⟨V, hV, hx⟩ := hx
      rw [hx, conj_trace (mem_unitaryGroup_iff'.1 hV.1) (ff_parity hV), trace]
      simp [diagonal_mul]
    rw [integral_congr_ae e, spectrum_signs hd h.spectrum, show ∑ i, parity n i i = (parity n).trace from rfl, parity_trace ⟨0, hn⟩, mul_zero]
  have hb : ∀ᵐ x ∂ν, ∀ i j, ‖x.1 i j‖ ≤ 1 := by
    filter_upwards [h.form, hp] with x hx a1
    obtain ⟨V, hV, hx⟩ := hx
    rw [hx]
    exact density_bound (mem_unitaryGroup_iff.1 hV.1) a1
  have ht : ∀ᵐ x ∂ν, (x.1 * 1).trace = 1 := by
    filter_upwards [h.form, hp] with x hx a1
    obtain ⟨V, hV, hx⟩ := hx
    rw [hx]
    exact density_trace (mem_unitaryGroup_iff.1 hV.1) a1
  have := mean_form ⟨0, hn⟩ (integrable_of_map measurable_fst hb) (fun V hV => rotated_invariant (h.invariant V hV)) (trace_of_map measurable_fst 1 ht) h0
  simpa using this

section
variable {σ : Type} [MeasurableSpace σ] (rng : Rng σ) (logm : (d : ℕ) → Op d → Op d) (μ : Measure σ) {n : ℕ} {f : Fin (n + n) → Op (2 ^ n)}

/-- C139. `random_FF_state_rotPDF(n)`: up to `8e-10 n²` a sample of a law with the average `1 / 2^n`. -/
theorem C139_rotPDF (hd : DrawsOk rng) (hi : IdealSource rng μ) (hl : LogmOk logm) (hn : 1 ≤ n) :
    ∃ ν : Measure (Op (2 ^ n) × (Fin (2 ^ n) → ℝ)), HasMean (ν.map Prod.fst) ((2 ^ n : ℂ)⁻¹ • 1) ∧
      SamplesNearPair μ (randomFFStateRotPDF rng logm (.int n) none) ν (8e-10 * n ^ 2) := by
  have hf := jordanWignerAlphas_eq n
  obtain ⟨ν, h, h'⟩ := C137_rotPDF rng logm μ hd hi hl hn hf
  exact ⟨ν, C139_rotated hn hf ν h, h'⟩

end

/-- Beside the theorems: an ideal source, on which `random_FF_pure_state_WN(4, 1)` and `random_FF_pure_state_WN(4, 3)` have the same average, with two particles. -/
example : ∃ logm : (d : ℕ) → Op d → Op d, LogmOk logm ∧ ∃ ν ν' : Measure (Op (2 ^ 4)),
    SamplesNear idealLaw (randomFFPureStateWN idealRng logm (.int 4) (some (.int (1 : ℕ))) none) ν (4e-10 * (4 : ℕ) ^ 2) ∧
    SamplesNear idealLaw (randomFFPureStateWN idealRng logm (.int 4) (some (.int (3 : ℕ))) none) ν' (4e-10 * (4 : ℕ) ^ 2) ∧
    HasMean ν ((2 ^ 4 : ℂ)⁻¹ • (1 - parity 4)) ∧ HasMean ν' ((2 ^ 4 : ℂ)⁻¹ • (1 - parity 4)) ∧
    ∫ ρ, (ρ * ∑ i : Fin 4, al 4 (Fin.castAdd 4 i) * al 4 (Fin.natAdd 4 i)).trace ∂ν = 2 := by
  classical
  have hex : ∀ (d : ℕ) (C : Op d), ∃ L, C * Cᴴ = 1 → IsPrincipalLog C L := fun d C =>
    if h : C * Cᴴ = 1 then (log_exists h).imp fun L hL _ => hL else ⟨0, fun h' => absurd h' h⟩
  choose logm hl using hex
  obtain ⟨ν, h1, h2, h3⟩ := C139_WN (n := 4) idealRng logm idealLaw idealRng_draws idealRng_ideal hl (by norm_num) (jordanWignerAlphas_eq 4) 1 (by norm_num)
  obtain ⟨ν', k1, -, k3⟩ := C139_WN (n := 4) idealRng logm idealLaw idealRng_draws idealRng_ideal hl (by norm_num) (jordanWignerAlphas_eq 4) 3 (by norm_num)
  refine ⟨logm, hl, ν, ν', h3, k3, ?_, ?_, ?_⟩
  · rw [pow_one, neg_one_smul, ← sub_eq_add_neg] at h1
    exact h1
  · rw [show (-1 : ℂ) ^ 3 = -1 by norm_num, neg_one_smul, ← sub_eq_add_neg] at k1
    exact k1
  · rw [h2 (by norm_num)]
    norm_num

end FF.Props
