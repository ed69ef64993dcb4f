import Verif.Proofs.MixLaw
import Verif.Props.FFLaw

/-! # C138: the distributions of the free-fermion states with a random number of particles, and of the random generators -/

namespace FF.Props

open Matrix MeasureTheory ProbabilityTheory Spec

/-! ## mixtures -/

/-- The basis state with the first `N` sites filled. -/
noncomputable def firstFilled (n N : ℕ) : Fin (2 ^ n) → ℂ := fock fun i : Fin n => if (i : ℕ) < N then 1 else 0

theorem parity_mixture {n : ℕ} (hn : 1 ≤ n) {l : Measure (RMat (n + n))} [IsProbabilityMeasure l] {νe νo : Measure (Op (2 ^ n))}
    (he : IsUniformFF (al n) (firstFilled n 0) νe) (ho : IsUniformFF (al n) (firstFilled n 1) νo) {g : ℕ → RMat (n + n) → Op (2 ^ n)}
    (hg : ∀ i, Measurable (g i)) (hu : ∀ i ≤ n, IsUniformFF (al n) (firstFilled n i) (l.map (g i))) :
    ((uniformOn {i | i < n + 1}).prod l).map (fun q : ℕ × RMat (n + n) => g q.1 q.2) =
      (((n / 2 + 1 : ℕ) : ENNReal) / ((n + 1 : ℕ) : ENNReal)) • νe + ((((n + 1) / 2 : ℕ) : ENNReal) / ((n + 1 : ℕ) : ENNReal)) • νo := by
  have hf := jordanWignerAlphas_eq n
  rw [uniform_mixture (Nat.succ_pos n) hg]
  have e : ∀ i ∈ Finset.range (n + 1), l.map (g i) = if i % 2 = 0 then νe else νo := by
    intro i hi
    have hi' : i ≤ n := Nat.lt_succ_iff.1 (Finset.mem_range.1 hi)
    split_ifs with h
    · exact (C137_unique hf _).unique ((C137_WN_parity hf hi' (Nat.zero_le n) (by simpa using h) _).1 (hu i hi')) he
    · exact (C137_unique hf _).unique ((C137_WN_parity hf hi' hn (by omega) _).1 (hu i hi')) ho
  rw [Finset.sum_congr rfl e, sum_parity, smul_add, smul_smul, smul_smul, ENNReal.div_eq_inv_mul, ENNReal.div_eq_inv_mul]

section
variable {σ : Type} [MeasurableSpace σ] (rng : Rng σ) (logm : (d : ℕ) → Op d → Op d) (μ : Measure σ) {n : ℕ} {f : Fin (n + n) → Op (2 ^ n)}

theorem exec_WN_none (hd : DrawsOk rng) (hl : LogmOk logm) (hn : 1 ≤ n) (s : σ)
    (hs : (1 + (rng.orthogonal (n + n) (rng.randint (n + 1) s).2).1).det ≠ 0) :
    ∃ ψ φ : Fin (2 ^ n) → ℂ,
      (randomFFPureStateWN rng logm (.int n) none none).exec s = (.ok ⟨n, ψ⟩, (rng.orthogonal (n + n) (rng.randint (n + 1) s).2).2) ∧
      rotAct (orb (rng.orthogonal (n + n) (rng.randint (n + 1) s).2).1) (proj (firstFilled n (rng.randint (n + 1) s).1)) = proj φ ∧
      vnorm (ψ - φ) ≤ 4e-10 * n ^ 2 := by
  generalize hN : (rng.randint (n + 1) s).1 = N
  generalize hs1 : (rng.randint (n + 1) s).2 = s1 at hs ⊢
  have hW := exec_rot rng hd logm hn (Or.inl ⟨rfl, rfl⟩ : StartState rng none s1 _)
  have hC := orb_unitary (hd.orthogonal (n + n) s1)
  have hL := hl _ _ hC
  have hp := performs_log hC (orb_canonical _) (orb_noMinus hs) hL
  refine ⟨expm (-Complex.I • quad (dropSmall 1e-10 (genMat (logm (n + n) (orb (rng.orthogonal (n + n) s1).1)))) (al n)) *ᵥ firstFilled n N, _, ?_,
    (rotAct_eq hp _).trans (proj_conj _ _), ?_⟩
  rotate_left
  · have h := rot_near (log_skew hC hL) (-Complex.I) (Or.inr rfl) (firstFilled n N)
    have h1 : vnorm (firstFilled n N) = 1 := by
      rw [vnorm, show ∑ i, ‖firstFilled n N i‖ ^ 2 = 1 from unit_fock _, Real.sqrt_one]
    rw [h1, mul_one] at h
    exact h
  · rw [randomFFPureStateWN, exec_bind_ok (exec_check hn s), exec_bind_ok (exec_noDraw_ok (show checkN n none = .ok none from rfl) _),
      exec_bind_ok (exec_seed rng (Or.inl ⟨rfl, rfl⟩))]
    simp only
    rw [exec_bind_ok (exec_draw _ _), hs1, hN, exec_bind_ok (exec_noDraw_ok (C57_initial n N) _), show nextSeed none = none from rfl, exec_bind_ok hW,
      exec_pure]
    rfl

theorem fresh_mix [IsProbabilityMeasure μ] {α : Type} [MeasurableSpace α] {r : σ → ℕ × σ} {m : ℕ} {o : σ → RMat m × σ} {u : Measure ℕ} [SFinite u] {l : Measure (RMat m)} [SFinite l]
    (hr : Fresh r u μ) (ho : Fresh o l μ) {g : ℕ → RMat m → α} (hg : ∀ i, Measurable (g i)) {ν : Measure α}
    (hν : (u.prod l).map (fun q : ℕ × RMat m => g q.1 q.2) = ν) :
    Fresh (fun s => (g (r s).1 (o (r s).2).1, (o (r s).2).2)) ν μ := by
  subst hν
  exact fresh_map (fresh_pair hr ho) (F := fun q => g q.1 q.2) (measurable_from_prod_countable_right hg)

/-- C138. `random_FF_pure_state_WN(n)`, with the number of particles drawn: up to `4e-10 n²`, the even free-fermion states have together the weight
`(⌊n/2⌋ + 1) / (n + 1)` and the odd ones the rest, and both are uniformly distributed. -/
theorem C138_WN_random (hd : DrawsOk rng) (hi : IdealSource rng μ) (hl : LogmOk logm) (hn : 1 ≤ n) (hf : jordanWignerAlphas n = List.ofFn f) :
    ∃ νe νo : Measure (Op (2 ^ n)), IsUniformFF f (fock fun i : Fin n => if (i : ℕ) < 0 then 1 else 0) νe ∧
      IsUniformFF f (fock fun i : Fin n => if (i : ℕ) < 1 then 1 else 0) νo ∧
      SamplesNear μ (randomFFPureStateWN rng logm (.int n) none none)
        ((((n / 2 + 1 : ℕ) : ENNReal) / ((n + 1 : ℕ) : ENNReal)) • νe + ((((n + 1) / 2 : ℕ) : ENNReal) / ((n + 1 : ℕ) : ENNReal)) • νo)
        (4e-10 * n ^ 2) := by
  rw [jordanWignerAlphas_eq] at hf
  obtain rfl := List.ofFn_injective hf
  have := hi.prob
  obtain ⟨l, hl', hO⟩ := hi.orthogonal (n + n)
  have := hl'.prob
  have hN := hi.randint (n + 1) (Nat.succ_pos n)
  have hNp : IsProbabilityMeasure (uniformOn {i : ℕ | i < n + 1}) :=
    isProbabilityMeasure_uniformOn (Set.finite_lt_nat _) ⟨0, Nat.succ_pos n⟩
  have hlaw := parity_mixture hn (haar_ff hl' (firstFilled n 0)) (haar_ff hl' (firstFilled n 1))
    (g := fun i O => rotAct (orb O) (proj (firstFilled n i))) (fun i => rotAct_measurable _) fun i _ => haar_ff hl' _
  have hne : ∀ᵐ s ∂μ, (1 + (rng.orthogonal (n + n) (rng.randint (n + 1) s).2).1).det ≠ 0 := by
    have h := no_minus_drawn rng μ hi n
    rw [← fresh_snd hN] at h
    exact ae_of_ae_map (measurable_snd.comp hN.measurable).aemeasurable h
  have hfresh := fresh_mix μ hN hO (g := fun i O => rotAct (orb O) (proj (firstFilled n i))) (fun i => rotAct_measurable _) hlaw
  have hnear : ∀ᵐ s ∂μ, ∃ ψ φ : Fin (2 ^ n) → ℂ,
      (randomFFPureStateWN rng logm (.int n) none none).exec s = (.ok ⟨n, ψ⟩, (rng.orthogonal (n + n) (rng.randint (n + 1) s).2).2) ∧
      rotAct (orb (rng.orthogonal (n + n) (rng.randint (n + 1) s).2).1) (proj (firstFilled n (rng.randint (n + 1) s).1)) = proj φ ∧
      vnorm (ψ - φ) ≤ 4e-10 * n ^ 2 := by
    filter_upwards [hne] with s hs
    exact exec_WN_none rng logm hd hl hn s hs
  refine ⟨_, _, haar_ff hl' (firstFilled n 0), haar_ff hl' (firstFilled n 1), ?_⟩
  exact ⟨_, hfresh, hnear⟩

end

theorem haar_transpose {m : ℕ} {l : Measure (RMat m)} (hl : IsHaar (rotations m) l) : IsHaar (rotations m) (l.map transpose) := by
  have := hl.prob
  have hT : Measurable (transpose : RMat m → RMat m) := (continuous_id.matrix_transpose).measurable
  have hrot : ∀ {O : RMat m}, O ∈ rotations m → Oᵀ ∈ rotations m := fun h =>
    ⟨by rw [transpose_transpose]; exact mul_eq_one_comm.1 h.1, by rw [det_transpose]; exact h.2⟩
  refine ⟨Measure.isProbabilityMeasure_map hT.aemeasurable, ?_, fun V hV => ?_, fun V hV => ?_⟩
  · refine (ae_map_iff hT.aemeasurable (rotations_isCompact m).isClosed.measurableSet).2 ?_
    filter_upwards [hl.support] with O hO
    exact hrot hO
  · rw [Measure.map_map (lmul_measurable V) hT]
    have e : (fun U : RMat m => V * U) ∘ transpose = transpose ∘ fun U => U * Vᵀ := by
      funext U; simp [transpose_mul]
    rw [e, ← Measure.map_map hT (rmul_measurable _), hl.right _ (hrot hV)]
  · rw [Measure.map_map (rmul_measurable V) hT]
    have e : (fun U : RMat m => U * V) ∘ transpose = transpose ∘ fun U => Vᵀ * U := by
      funext U; simp [transpose_mul]
    rw [e, ← Measure.map_map hT (lmul_measurable _), hl.left _ (hrot hV)]

theorem orb_transpose {n : ℕ} (O : RMat (n + n)) : orb Oᵀ = (orb O)ᴴ := by
  rw [orb, orb, conjTranspose_mul, conjTranspose_mul, conjTranspose_conjTranspose, toC_conjTranspose, mul_assoc]

theorem performs_inv {n : ℕ} {W : Op (2 ^ n)} {C : Op (n + n)} (h : Performs W C) : Performs Wᴴ Cᴴ :=
  ⟨by rw [conjTranspose_conjTranspose]; exact mul_eq_one_comm.1 h.unitary, by rw [conjTranspose_conjTranspose]; exact mul_eq_one_comm.1 h.orbital,
    fun k => by rw [conjTranspose_conjTranspose]; exact h.back k⟩

instance normalMatrix_prob (r c : ℕ) : IsProbabilityMeasure (normalMatrix r c) :=
  inferInstanceAs (IsProbabilityMeasure (Measure.pi fun _ : Fin r => Measure.pi fun _ : Fin c => gaussianReal 0 1))

theorem ae_gaussian_prod {α : Type} [MeasurableSpace α] {d : ℕ} {ρ : Measure α} [SFinite ρ] {A : α → Op d} (hA : Measurable A)
    (h : ∀ᵐ x ∂ρ, A x ≠ 0) : ∀ᵐ q ∂(ρ.prod (normalMatrix d 1)), A q.1 *ᵥ (fun i => ((q.2 i 0 : ℝ) : ℂ)) ≠ 0 := by
  have hc : Continuous fun q : Op d × Matrix (Fin d) (Fin 1) ℝ => q.1 *ᵥ (fun i => ((q.2 i 0 : ℝ) : ℂ)) := by
    refine Continuous.matrix_mulVec continuous_fst ?_
    exact continuous_pi fun i => Complex.continuous_ofReal.comp ((continuous_apply_apply i 0).comp continuous_snd)
  have hm : MeasurableSet {q : α × Matrix (Fin d) (Fin 1) ℝ | A q.1 *ᵥ (fun i => ((q.2 i 0 : ℝ) : ℂ)) ≠ 0} := by
    have h1 : MeasurableSet {q : Op d × Matrix (Fin d) (Fin 1) ℝ | q.1 *ᵥ (fun i => ((q.2 i 0 : ℝ) : ℂ)) ≠ 0} :=
      (isOpen_ne_fun hc continuous_const).measurableSet
    exact (hA.prodMap measurable_id) h1
  refine (Measure.ae_prod_iff_ae_ae hm).2 ?_
  filter_upwards [h] with x hx
  exact normal_not_kernel hx

section
variable {σ : Type} [MeasurableSpace σ] (rng : Rng σ) (μ : Measure σ) {n : ℕ} {f : Fin (n + n) → Op (2 ^ n)}

theorem exec_CN_none (hd : DrawsOk rng) (hn : 1 ≤ n) (s s1 s2 : σ) (N : ℕ) (O : RMat (n + n)) (hN : (rng.randint (n + 1) s).1 = N)
    (h1 : (rng.randint (n + 1) s).2 = s1) (hO : rng.orthogonal (n + n) s1 = (O, s2)) (hrot : O ∈ rotations (n + n))
    (hsmall : ∀ i j, orb O i j = 0 ∨ 1e-9 ≤ ‖orb O i j‖)
    (hY : rotAct (orb Oᵀ) (proj (firstFilled n 0)) *ᵥ (fun i => (((rng.randn (2 ^ n) 1 s2).1 i 0 : ℝ) : ℂ)) ≠ 0) :
    ∃ ψ : Fin (2 ^ n) → ℂ, (randomFFPureStateCN rng (.int n) none).exec s = (.ok ⟨n, ψ⟩, (rng.randn (2 ^ n) 1 s2).2) ∧
      rotAct (orb Oᵀ) (proj (firstFilled n N)) = proj ψ := by
  obtain ⟨V, hV⟩ := performs_exists hrot
  have hp : Performs Vᴴ (orb Oᵀ) := by rw [orb_transpose]; exact performs_inv hV
  have hVu : Vᴴ * V = 1 := mul_eq_one_comm.1 hV.unitary
  have hc : ∀ i : Fin n, Vᴴ * (jwLower n i)ᴴ * V = ∑ l, orb O (Fin.castAdd n i) l • al n l := by
    intro i
    rw [← hV.heis, al_left]
  have hcc : ∀ i : Fin n, (Vᴴ * (jwLower n i)ᴴ * V)ᴴ = Vᴴ * jwLower n i * V := by
    intro i
    rw [conjTranspose_mul, conjTranspose_mul, conjTranspose_conjTranspose, conjTranspose_conjTranspose, mul_assoc]
  rw [rotAct_eq hp, proj_conj] at hY
  have hin : Spec.inner (Vᴴ *ᵥ firstFilled n 0) (fun i => (((rng.randn (2 ^ n) 1 s2).1 i 0 : ℝ) : ℂ)) ≠ 0 := by
    intro h0
    refine hY ?_
    rw [show proj (Vᴴ *ᵥ firstFilled n 0) = vecMulVec (Vᴴ *ᵥ firstFilled n 0) (star (Vᴴ *ᵥ firstFilled n 0)) from rfl, vecMulVec_mulVec,
      show star (Vᴴ *ᵥ firstFilled n 0) ⬝ᵥ _ = 0 from h0]
    simp
  obtain ⟨vac, ψ, hex, -, -, -, -, hu, hocc⟩ := C58_state rng hd n hn none s s s1 s2 (Or.inl ⟨rfl, rfl⟩) (Or.inl ⟨rfl, h1.symm⟩) (orb O)
    (by rw [h1, show nextSeed none = none from rfl, exec_orb rng hd n (Or.inl ⟨rfl, rfl⟩), hO]) hsmall (al n) (jordanWignerAlphas_eq n) (fun i => Vᴴ * (jwLower n i)ᴴ * V) hc
    ⟨Vᴴ *ᵥ firstFilled n 0, fun i => by
        rw [hcc, mulVec_mulVec, mul_assoc, hV.unitary, mul_one, ← mulVec_mulVec, firstFilled, jwLower_fock, if_neg (by simp), mulVec_zero], hin⟩
  · refine ⟨ψ, hex, ?_⟩
    have hx : V *ᵥ ψ = Spec.inner (firstFilled n N) (V *ᵥ ψ) • firstFilled n N := by
      refine occ_unique _ fun i => ?_
      have h := congrArg (fun x => V *ᵥ x) (hocc i)
      simp only [hcc, mulVec_smul, mulVec_mulVec] at h
      rw [mulVec_mulVec, show (jwLower n i)ᴴ * jwLower n i * V = V * (Vᴴ * (jwLower n i)ᴴ * V * (Vᴴ * jwLower n i * V)) from ?_, h, hN]
      · split_ifs <;> simp
      · simp only [mul_assoc]
        rw [← mul_assoc V Vᴴ, hV.unitary, one_mul, ← mul_assoc V Vᴴ, hV.unitary, one_mul]
    generalize Spec.inner (firstFilled n N) (V *ᵥ ψ) = c at hx
    have hψ : ψ = c • (Vᴴ *ᵥ firstFilled n N) := by
      rw [← mulVec_smul, ← hx, mulVec_mulVec, hVu, one_mulVec]
    have hc1 : c * star c = 1 := by
      have h0 : vnorm ψ = 1 := by rw [vnorm, show ∑ i, ‖ψ i‖ ^ 2 = 1 from hu, Real.sqrt_one]
      have h2 : vnorm (firstFilled n N) = 1 := by rw [vnorm, show ∑ i, ‖firstFilled n N i‖ ^ 2 = 1 from unit_fock _, Real.sqrt_one]
      rw [hψ, vnorm_smul, vnorm_unitary (mul_eq_one_comm.1 hp.unitary), h2, mul_one] at h0
      rw [show star c = (starRingEnd ℂ) c from rfl, Complex.mul_conj, Complex.normSq_eq_norm_sq, h0]
      simp
    rw [rotAct_eq hp, proj_conj, hψ, proj_phase hc1]

theorem rot_ne_zero {O : RMat (n + n)} (hO : O ∈ rotations (n + n)) : rotAct (orb Oᵀ) (proj (firstFilled n 0)) ≠ 0 := by
  obtain ⟨V, hV⟩ := performs_exists hO
  have hp : Performs Vᴴ (orb Oᵀ) := by rw [orb_transpose]; exact performs_inv hV
  rw [rotAct_eq hp]
  intro h0
  have h1 : (Vᴴ * proj (firstFilled n 0) * Vᴴᴴ).trace = 1 := by
    rw [trace_mul_comm, ← mul_assoc, mul_eq_one_comm.1 hp.unitary, one_mul,
      show proj (firstFilled n 0) = vecMulVec (firstFilled n 0) (star (firstFilled n 0)) from rfl, trace_vecMulVec, dotProduct_comm]
    exact unit_iff_inner.1 (unit_fock _)
  rw [h0, trace_zero] at h1
  exact zero_ne_one h1

theorem fresh_mix3 [IsProbabilityMeasure μ] {α : Type} [MeasurableSpace α] {r : σ → ℕ × σ} {m d : ℕ} {o : σ → RMat m × σ} {y : σ → Matrix (Fin d) (Fin 1) ℝ × σ}
    {u : Measure ℕ} [IsProbabilityMeasure u] {l : Measure (RMat m)} [IsProbabilityMeasure l]
    (hr : Fresh r u μ) (ho : Fresh o l μ) (hy : Fresh y (normalMatrix d 1) μ) {g : ℕ → RMat m → α} (hg : ∀ i, Measurable (g i)) {ν : Measure α}
    (hν : (u.prod l).map (fun q : ℕ × RMat m => g q.1 q.2) = ν) :
    Fresh (fun s => (g (r s).1 (o (r s).2).1, (y (o (r s).2).2).2)) ν μ := by
  subst hν
  have hm : Measurable (fun q : ℕ × RMat m => g q.1 q.2) := measurable_from_prod_countable_right hg
  have h := fresh_map (fresh_pair (fresh_pair hr ho) hy) (F := fun q => g q.1.1 q.1.2) (hm.comp measurable_fst)
  have e : ((u.prod l).prod (normalMatrix d 1)).map (fun q => g q.1.1 q.1.2) = (u.prod l).map (fun q : ℕ × RMat m => g q.1 q.2) := by
    rw [show (fun q : (ℕ × RMat m) × Matrix (Fin d) (Fin 1) ℝ => g q.1.1 q.1.2) = (fun q : ℕ × RMat m => g q.1 q.2) ∘ Prod.fst from rfl,
      ← Measure.map_map hm measurable_fst, Measure.map_fst_prod, measure_univ, one_smul]
  rw [e] at h
  exact h

/-- A property that almost every pair (rotation, Gaussian vector) has, holds for almost every start of the source. -/
theorem ae_drawn [IsProbabilityMeasure μ] {r : σ → ℕ × σ} {m d : ℕ} {o : σ → RMat m × σ} {y : σ → Matrix (Fin d) (Fin 1) ℝ × σ}
    {u : Measure ℕ} [IsProbabilityMeasure u] {l : Measure (RMat m)} [IsProbabilityMeasure l]
    (hr : Fresh r u μ) (ho : Fresh o l μ) (hy : Fresh y (normalMatrix d 1) μ) {p : RMat m → Matrix (Fin d) (Fin 1) ℝ → Prop}
    (h : ∀ᵐ q ∂(l.prod (normalMatrix d 1)), p q.1 q.2) : ∀ᵐ s ∂μ, p (o (r s).2).1 (y (o (r s).2).2).1 := by
  have h1 : ∀ᵐ q ∂((l.prod (normalMatrix d 1)).prod μ), p q.1.1 q.1.2 := Measure.quasiMeasurePreserving_fst.ae h
  have hpair := fresh_pair ho hy
  rw [← hpair.law] at h1
  have h2 := ae_of_ae_map hpair.measurable.aemeasurable h1
  rw [← fresh_snd hr] at h2
  exact ae_of_ae_map (measurable_snd.comp hr.measurable).aemeasurable h2

/-- C138. `random_FF_pure_state_CN(n)`: with probability one, if the drawn orbital rotation has no entry that is small but non-zero, the state returned is
exactly a sample of the mixture that `random_FF_pure_state_WN(n)` approximates. -/
theorem C138_CN (hd : DrawsOk rng) (hi : IdealSource rng μ) (hn : 1 ≤ n) (hf : jordanWignerAlphas n = List.ofFn f) :
    ∃ νe νo : Measure (Op (2 ^ n)), IsUniformFF f (fock fun i : Fin n => if (i : ℕ) < 0 then 1 else 0) νe ∧
      IsUniformFF f (fock fun i : Fin n => if (i : ℕ) < 1 then 1 else 0) νo ∧
      ∃ F : σ → Op (2 ^ n) × σ,
        Fresh F ((((n / 2 + 1 : ℕ) : ENNReal) / ((n + 1 : ℕ) : ENNReal)) • νe + ((((n + 1) / 2 : ℕ) : ENNReal) / ((n + 1 : ℕ) : ENNReal)) • νo) μ ∧
        ∀ᵐ s ∂μ, ∀ (C : Op (n + n)) (s2 : σ), (randomFFRotationOrb rng n none).exec (rng.randint (n + 1) s).2 = (.ok C, s2) →
          (∀ i j, C i j = 0 ∨ 1e-9 ≤ ‖C i j‖) →
          ∃ ψ : Fin (2 ^ n) → ℂ, (randomFFPureStateCN rng (.int n) none).exec s = (.ok ⟨n, ψ⟩, (F s).2) ∧ (F s).1 = proj ψ := by
  rw [jordanWignerAlphas_eq] at hf
  obtain rfl := List.ofFn_injective hf
  have := hi.prob
  obtain ⟨l, hl', hO⟩ := hi.orthogonal (n + n)
  have := hl'.prob
  have hlT := haar_transpose hl'
  have := hlT.prob
  have hN := hi.randint (n + 1) (Nat.succ_pos n)
  have hNp : IsProbabilityMeasure (uniformOn {i : ℕ | i < n + 1}) :=
    isProbabilityMeasure_uniformOn (Set.finite_lt_nat _) ⟨0, Nat.succ_pos n⟩
  have hT : Measurable (transpose : RMat (n + n) → RMat (n + n)) := (continuous_id.matrix_transpose).measurable
  have hg : ∀ i, Measurable fun O : RMat (n + n) => rotAct (orb Oᵀ) (proj (firstFilled n i)) := fun i => (rotAct_measurable _).comp hT
  have hlaw := parity_mixture hn (haar_ff hlT (firstFilled n 0)) (haar_ff hlT (firstFilled n 1))
    (g := fun i O => rotAct (orb Oᵀ) (proj (firstFilled n i))) hg fun i _ => by
      have h := haar_ff hlT (firstFilled n i)
      rw [Measure.map_map (rotAct_measurable _) hT] at h
      exact h
  have hfresh := fresh_mix3 μ hN hO (hi.randn (2 ^ n) 1) (g := fun i O => rotAct (orb Oᵀ) (proj (firstFilled n i))) hg hlaw
  have hker := ae_gaussian_prod (A := fun O : RMat (n + n) => rotAct (orb Oᵀ) (proj (firstFilled n 0))) (hg 0)
    (hl'.support.mono fun O hO => rot_ne_zero hO)
  have hdraw := ae_drawn μ hN hO (hi.randn (2 ^ n) 1)
    (p := fun O Y => rotAct (orb Oᵀ) (proj (firstFilled n 0)) *ᵥ (fun i => ((Y i 0 : ℝ) : ℂ)) ≠ 0) hker
  have hsup : ∀ᵐ s ∂μ, (rng.orthogonal (n + n) (rng.randint (n + 1) s).2).1 ∈ rotations (n + n) := by
    have h1 : ∀ᵐ q ∂(l.prod μ), q.1 ∈ rotations (n + n) := Measure.quasiMeasurePreserving_fst.ae hl'.support
    rw [← hO.law] at h1
    have h2 := ae_of_ae_map hO.measurable.aemeasurable h1
    rw [← fresh_snd hN] at h2
    exact ae_of_ae_map (measurable_snd.comp hN.measurable).aemeasurable h2
  have hnear : ∀ᵐ s ∂μ, ∀ (C : Op (n + n)) (s2 : σ), (randomFFRotationOrb rng n none).exec (rng.randint (n + 1) s).2 = (.ok C, s2) →
      (∀ i j, C i j = 0 ∨ 1e-9 ≤ ‖C i j‖) → ∃ ψ : Fin (2 ^ n) → ℂ,
        (randomFFPureStateCN rng (.int n) none).exec s =
          (.ok ⟨n, ψ⟩, (rng.randn (2 ^ n) 1 (rng.orthogonal (n + n) (rng.randint (n + 1) s).2).2).2) ∧
        rotAct (orb (rng.orthogonal (n + n) (rng.randint (n + 1) s).2).1ᵀ) (proj (firstFilled n (rng.randint (n + 1) s).1)) = proj ψ := by
    filter_upwards [hdraw, hsup] with s h1 h2 C s2 hC hsmall
    rw [exec_orb rng hd n (Or.inl ⟨rfl, rfl⟩)] at hC
    have hC1 := Except.ok.inj (Prod.mk.inj hC).1
    subst hC1
    exact exec_CN_none rng hd hn s _ _ _ _ rfl rfl rfl h2 hsmall h1
  refine ⟨_, _, haar_ff hlT (firstFilled n 0), haar_ff hlT (firstFilled n 1), ?_⟩
  exact ⟨_, hfresh, hnear⟩

end

/-! ## the random generators -/

section
variable {n : ℕ}

theorem measurable_entry (i j : Fin n) : Measurable fun X : RMat n => X i j := (continuous_apply_apply i j).measurable

theorem normal_entry (i j : Fin n) : (normalMatrix n n).map (fun X => X i j) = gaussianReal 0 1 := by
  have h1 := (measurePreserving_eval (fun _ : Fin n => Measure.pi fun _ : Fin n => gaussianReal 0 1) i).map_eq
  have h2 := (measurePreserving_eval (fun _ : Fin n => gaussianReal 0 1) j).map_eq
  rw [← h1, Measure.map_map (measurable_pi_apply j) (measurable_pi_apply i)] at h2
  exact h2

theorem normal_indep {i j : Fin n} (h : i ≠ j) : IndepFun (fun X : RMat n => X i j) (fun X => X j i) (normalMatrix n n) := by
  have h1 := iIndepFun_pi (μ := fun _ : Fin n => Measure.pi fun _ : Fin n => gaussianReal 0 1) (X := fun _ x => x) fun _ => aemeasurable_id
  exact (h1.indepFun h).comp (measurable_pi_apply j) (measurable_pi_apply i)

theorem normal_sum (i j : Fin n) : (normalMatrix n n).map (fun X => X i j + X j i) = gaussianReal 0 (if i = j then 4 else 2) := by
  split_ifs with h
  · subst h
    have e : (fun X : RMat n => X i i + X i i) = (fun x : ℝ => 2 * x) ∘ fun X : RMat n => X i i := by
      funext X; simp [two_mul]
    rw [e, ← Measure.map_map (by fun_prop) (measurable_entry i i), normal_entry, gaussianReal_map_const_mul, mul_zero, mul_one]
    congr 1
    ext; norm_num
  · have := gaussianReal_add_gaussianReal_of_indepFun (normal_indep h) (normal_entry i j) (normal_entry j i)
    rw [add_zero, one_add_one_eq_two] at this
    exact this

theorem normal_diff (i j : Fin n) : (normalMatrix n n).map (fun X => X i j - X j i) = gaussianReal 0 (if i = j then 0 else 2) := by
  split_ifs with h
  · subst h
    simp [gaussianReal_zero_var]
  · have hneg : (normalMatrix n n).map ((fun x : ℝ => -x) ∘ fun X : RMat n => X j i) = gaussianReal 0 1 := by
      rw [← Measure.map_map measurable_neg (measurable_entry j i), normal_entry, gaussianReal_map_neg, neg_zero]
    have := gaussianReal_add_gaussianReal_of_indepFun ((normal_indep h).comp measurable_id measurable_neg) (normal_entry i j) hneg
    rw [add_zero, one_add_one_eq_two] at this
    simp only [sub_eq_add_neg]
    exact this

/-- The generator made of four real matrices. -/
noncomputable def genOf (fixedN : Bool) (X Y U V : RMat n) : Op (n + n) :=
  buildH n ((toC X + Complex.I • toC Y) + (toC X + Complex.I • toC Y)ᴴ)
    (some (if fixedN then (0 : ℂ) • ((toC U + Complex.I • toC V) - (toC U + Complex.I • toC V)ᵀ)
      else (toC U + Complex.I • toC V) - (toC U + Complex.I • toC V)ᵀ))

theorem genOf_22 (fixedN : Bool) (X Y U V : RMat n) (i j : Fin n) :
    genOf fixedN X Y U V (Fin.natAdd n i) (Fin.natAdd n j) = ((X i j + X j i : ℝ) : ℂ) + ((Y i j - Y j i : ℝ) : ℂ) * Complex.I := by
  simp only [genOf, buildH, Option.getD_some, blk_22]
  simp [toC_apply]
  ring

theorem genOf_12 (fixedN : Bool) (X Y U V : RMat n) (i j : Fin n) :
    genOf fixedN X Y U V (Fin.castAdd n i) (Fin.natAdd n j) =
      if fixedN then 0 else ((U i j - U j i : ℝ) : ℂ) + ((V i j - V j i : ℝ) : ℂ) * Complex.I := by
  simp only [genOf, buildH, Option.getD_some, blk_12]
  cases fixedN
  · simp [toC_apply]
    ring
  · simp

theorem genOf_11 (fixedN : Bool) (X Y U V : RMat n) (i j : Fin n) :
    genOf fixedN X Y U V (Fin.castAdd n i) (Fin.castAdd n j) = -star (genOf fixedN X Y U V (Fin.natAdd n i) (Fin.natAdd n j)) := by
  rw [genOf, buildH]
  simp only [blk_11, blk_22]
  rfl

theorem genOf_21 (fixedN : Bool) (X Y U V : RMat n) (i j : Fin n) :
    genOf fixedN X Y U V (Fin.natAdd n i) (Fin.castAdd n j) = -star (genOf fixedN X Y U V (Fin.castAdd n i) (Fin.natAdd n j)) := by
  rw [genOf, buildH]
  simp only [blk_21, blk_12]
  rfl

theorem genOf_measurable (fixedN : Bool) : Measurable fun q : ((RMat n × RMat n) × RMat n) × RMat n => genOf fixedN q.1.1.1 q.1.1.2 q.1.2 q.2 := by
  refine Continuous.measurable (continuous_matrix fun p q => ?_)
  have h22 : ∀ i j : Fin n, Continuous fun q : ((RMat n × RMat n) × RMat n) × RMat n =>
      genOf fixedN q.1.1.1 q.1.1.2 q.1.2 q.2 (Fin.natAdd n i) (Fin.natAdd n j) := by
    intro i j
    simp only [genOf_22]
    fun_prop
  have h12 : ∀ i j : Fin n, Continuous fun q : ((RMat n × RMat n) × RMat n) × RMat n =>
      genOf fixedN q.1.1.1 q.1.1.2 q.1.2 q.2 (Fin.castAdd n i) (Fin.natAdd n j) := by
    intro i j
    simp only [genOf_12]
    cases fixedN
    · simp only [Bool.false_eq_true, if_false]
      fun_prop
    · simp only [if_true]
      fun_prop
  induction p using Fin.addCases <;> induction q using Fin.addCases
  · simp only [genOf_11]; exact (continuous_star.comp (h22 _ _)).neg
  · exact h12 _ _
  · simp only [genOf_21]; exact (continuous_star.comp (h12 _ _)).neg
  · exact h22 _ _

end

section
variable {σ : Type} [MeasurableSpace σ] (rng : Rng σ) (μ : Measure σ) {n : ℕ}

theorem exec_gen (fixedN : Bool) (s : σ) :
    (randomHGenerator rng n fixedN none).exec s =
      (.ok (genOf fixedN (rng.randn n n s).1 (rng.randn n n (rng.randn n n s).2).1 (rng.randn n n (rng.randn n n (rng.randn n n s).2).2).1
        (rng.randn n n (rng.randn n n (rng.randn n n (rng.randn n n s).2).2).2).1), (rng.randn n n (rng.randn n n (rng.randn n n (rng.randn n n s).2).2).2).2) := by
  rw [randomHGenerator, exec_bind_ok (exec_seed rng (Or.inl ⟨rfl, rfl⟩)), exec_bind_ok (exec_draw _ _), exec_bind_ok (exec_draw _ _),
    exec_bind_ok (exec_draw _ _), exec_bind_ok (exec_draw _ _), exec_pure]
  rfl

/-- C138. The entries of `random_H_generator(n, fixedN)`: the blocks are `-A*`, `Z`, `-Z*`, `A`, where the real and imaginary parts of `A` and `Z` are centred Gaussian variables
with these variances; `Z` vanishes if `fixedN` is set. -/
theorem C138_generator (hi : IdealSource rng μ) (fixedN : Bool) :
    ∃ ν : Measure (Op (n + n)), Samples μ (randomHGenerator rng n fixedN none) id ν ∧
      (∀ i j : Fin n, ν.map (fun H => (H (Fin.natAdd n i) (Fin.natAdd n j)).re) = gaussianReal 0 (if i = j then 4 else 2) ∧
        ν.map (fun H => (H (Fin.natAdd n i) (Fin.natAdd n j)).im) = gaussianReal 0 (if i = j then 0 else 2) ∧
        ν.map (fun H => (H (Fin.castAdd n i) (Fin.natAdd n j)).re) = gaussianReal 0 (if fixedN ∨ i = j then 0 else 2) ∧
        ν.map (fun H => (H (Fin.castAdd n i) (Fin.natAdd n j)).im) = gaussianReal 0 (if fixedN ∨ i = j then 0 else 2)) ∧
      ∀ᵐ H ∂ν, ∀ i j : Fin n, H (Fin.castAdd n i) (Fin.castAdd n j) = -star (H (Fin.natAdd n i) (Fin.natAdd n j)) ∧
        H (Fin.natAdd n i) (Fin.castAdd n j) = -star (H (Fin.castAdd n i) (Fin.natAdd n j)) := by
  have := hi.prob
  have hR := hi.randn n n
  have hF := fresh_map (fresh_pair (fresh_pair (fresh_pair hR hR) hR) hR) (genOf_measurable (n := n) fixedN)
  refine ⟨_, ⟨_, hF, fun s => exec_gen rng fixedN s⟩, fun i j => ?_, ?_⟩
  · have e : ∀ {g : Op (n + n) → ℝ}, Measurable g →
      Measure.map g (Measure.map (fun q : ((RMat n × RMat n) × RMat n) × RMat n => genOf fixedN q.1.1.1 q.1.1.2 q.1.2 q.2)
        ((((normalMatrix n n).prod (normalMatrix n n)).prod (normalMatrix n n)).prod (normalMatrix n n))) =
      Measure.map (fun q : ((RMat n × RMat n) × RMat n) × RMat n => g (genOf fixedN q.1.1.1 q.1.1.2 q.1.2 q.2))
        ((((normalMatrix n n).prod (normalMatrix n n)).prod (normalMatrix n n)).prod (normalMatrix n n)) :=
        fun hg => Measure.map_map hg (genOf_measurable fixedN)
    have hre : ∀ p q, Measurable fun H : Op (n + n) => (H p q).re := fun p q => (Complex.continuous_re.comp (continuous_apply_apply p q)).measurable
    have him : ∀ p q, Measurable fun H : Op (n + n) => (H p q).im := fun p q => (Complex.continuous_im.comp (continuous_apply_apply p q)).measurable
    have h1 : ∀ {g : RMat n → ℝ}, Measurable g →
        Measure.map (fun q : ((RMat n × RMat n) × RMat n) × RMat n => g q.1.1.1)
          ((((normalMatrix n n).prod (normalMatrix n n)).prod (normalMatrix n n)).prod (normalMatrix n n)) = (normalMatrix n n).map g := by
      intro g hg
      rw [show (fun q : ((RMat n × RMat n) × RMat n) × RMat n => g q.1.1.1) = ((g ∘ Prod.fst) ∘ Prod.fst) ∘ Prod.fst from rfl,
        ← Measure.map_map ((hg.comp measurable_fst).comp measurable_fst) measurable_fst, Measure.map_fst_prod, measure_univ, one_smul,
        ← Measure.map_map (hg.comp measurable_fst) measurable_fst, Measure.map_fst_prod, measure_univ, one_smul,
        ← Measure.map_map hg measurable_fst, Measure.map_fst_prod, measure_univ, one_smul]
    have h2 : ∀ {g : RMat n → ℝ}, Measurable g →
        Measure.map (fun q : ((RMat n × RMat n) × RMat n) × RMat n => g q.1.1.2)
          ((((normalMatrix n n).prod (normalMatrix n n)).prod (normalMatrix n n)).prod (normalMatrix n n)) = (normalMatrix n n).map g := by
      intro g hg
      rw [show (fun q : ((RMat n × RMat n) × RMat n) × RMat n => g q.1.1.2) = ((g ∘ Prod.snd) ∘ Prod.fst) ∘ Prod.fst from rfl,
        ← Measure.map_map ((hg.comp measurable_snd).comp measurable_fst) measurable_fst, Measure.map_fst_prod, measure_univ, one_smul,
        ← Measure.map_map (hg.comp measurable_snd) measurable_fst, Measure.map_fst_prod, measure_univ, one_smul,
        ← Measure.map_map hg measurable_snd, Measure.map_snd_prod, measure_univ, one_smul]
    have h3 : ∀ {g : RMat n → ℝ}, Measurable g →
        Measure.map (fun q : ((RMat n × RMat n) × RMat n) × RMat n => g q.1.2)
          ((((normalMatrix n n).prod (normalMatrix n n)).prod (normalMatrix n n)).prod (normalMatrix n n)) = (normalMatrix n n).map g := by
      intro g hg
      rw [show (fun q : ((RMat n × RMat n) × RMat n) × RMat n => g q.1.2) = (g ∘ Prod.snd) ∘ Prod.fst from rfl,
        ← Measure.map_map (hg.comp measurable_snd) measurable_fst, Measure.map_fst_prod, measure_univ, one_smul,
        ← Measure.map_map hg measurable_snd, Measure.map_snd_prod, measure_univ, one_smul]
    have h4 : ∀ {g : RMat n → ℝ}, Measurable g →
        Measure.map (fun q : ((RMat n × RMat n) × RMat n) × RMat n => g q.2)
          ((((normalMatrix n n).prod (normalMatrix n n)).prod (normalMatrix n n)).prod (normalMatrix n n)) = (normalMatrix n n).map g := by
      intro g hg
      rw [show (fun q : ((RMat n × RMat n) × RMat n) × RMat n => g q.2) = g ∘ Prod.snd from rfl,
        ← Measure.map_map hg measurable_snd, Measure.map_snd_prod, measure_univ, one_smul]
    have hs : Measurable fun X : RMat n => X i j + X j i := (measurable_entry i j).add (measurable_entry j i)
    have hdm : Measurable fun X : RMat n => X i j - X j i := (measurable_entry i j).sub (measurable_entry j i)
    rw [e (hre _ _), e (him _ _), e (hre _ _), e (him _ _)]
    simp only [genOf_22, genOf_12]
    refine ⟨?_, ?_, ?_, ?_⟩
    · simp only [Complex.add_re, Complex.ofReal_re, Complex.re_ofReal_mul, Complex.I_re, mul_zero, add_zero]
      rw [h1 hs, normal_sum]
    · simp only [Complex.add_im, Complex.ofReal_im, Complex.im_ofReal_mul, Complex.I_im, mul_one, zero_add]
      rw [h2 hdm, normal_diff]
    · cases fixedN
      · simp only [Bool.false_eq_true, if_false, false_or, Complex.add_re, Complex.ofReal_re, Complex.re_ofReal_mul, Complex.I_re, mul_zero, add_zero]
        rw [h3 hdm, normal_diff]
      · simp [gaussianReal_zero_var]
    · cases fixedN
      · simp only [Bool.false_eq_true, if_false, false_or, Complex.add_im, Complex.ofReal_im, Complex.im_ofReal_mul, Complex.I_im, mul_one, zero_add]
        rw [h4 hdm, normal_diff]
      · simp [gaussianReal_zero_var]
  · have hm : MeasurableSet {H : Op (n + n) | ∀ i j : Fin n, H (Fin.castAdd n i) (Fin.castAdd n j) = -star (H (Fin.natAdd n i) (Fin.natAdd n j)) ∧
        H (Fin.natAdd n i) (Fin.castAdd n j) = -star (H (Fin.castAdd n i) (Fin.natAdd n j))} := by
      refine IsClosed.measurableSet ?_
      have he : ∀ p q, Continuous fun H : Op (n + n) => H p q := fun p q => continuous_apply_apply p q
      simp only [Set.setOf_forall, Set.setOf_and]
      refine isClosed_iInter fun i => isClosed_iInter fun j => IsClosed.inter ?_ ?_
      · exact isClosed_eq (he _ _) (continuous_star.comp (he _ _)).neg
      · exact isClosed_eq (he _ _) (continuous_star.comp (he _ _)).neg
    refine (ae_map_iff (genOf_measurable fixedN).aemeasurable hm).2 (Filter.Eventually.of_forall fun q i j => ⟨genOf_11 _ _ _ _ _ _ _, genOf_21 _ _ _ _ _ _ _⟩)

/-- C138. So, contrary to the documentation, no entry of the generator has a standard normal real part or a standard normal imaginary part. -/
theorem C138_generator_not_standard (hi : IdealSource rng μ) (fixedN : Bool) (ν : Measure (Op (n + n)))
    (h : Samples μ (randomHGenerator rng n fixedN none) id ν) (p q : Fin (n + n)) :
    ν.map (fun H => (H p q).re) ≠ gaussianReal 0 1 ∧ ν.map (fun H => (H p q).im) ≠ gaussianReal 0 1 := by
  have := hi.prob
  obtain ⟨ν', ⟨F', hF', hex'⟩, hent, hblk⟩ := C138_generator rng μ (n := n) hi fixedN
  obtain ⟨F, hF, hex⟩ := h
  have : ν = ν' := by
    have e : ∀ {F : σ → Op (n + n) × σ} {ν : Measure (Op (n + n))}, Fresh F ν μ → μ.map (fun s => (F s).1) = ν := by
      intro F ν hF
      rw [show (fun s => (F s).1) = Prod.fst ∘ F from rfl, ← Measure.map_map measurable_fst hF.measurable, hF.law, Measure.map_fst_prod, measure_univ,
        one_smul]
    rw [← e hF, ← e hF']
    congr 1
    funext s
    exact Except.ok.inj (Prod.mk.inj ((hex s).symm.trans (hex' s))).1
  subst this
  have hre : ∀ p q, Measurable fun H : Op (n + n) => (H p q).re := fun p q => (Complex.continuous_re.comp (continuous_apply_apply p q)).measurable
  have hne : ∀ {v : NNReal}, v ≠ 1 → gaussianReal 0 v ≠ gaussianReal 0 1 := fun hv h => hv (gaussianReal_ext_iff.1 h).2
  have v1 : ∀ i j : Fin n, (if i = j then 4 else 2 : NNReal) ≠ 1 := fun i j => by split_ifs <;> norm_num
  have v2 : ∀ i j : Fin n, (if i = j then 0 else 2 : NNReal) ≠ 1 := fun i j => by split_ifs <;> norm_num
  have v3 : ∀ i j : Fin n, (if fixedN ∨ i = j then 0 else 2 : NNReal) ≠ 1 := fun i j => by split_ifs <;> norm_num
  have flip : ∀ {p q p' q' : Fin (n + n)} {v w : NNReal}, (∀ᵐ H ∂ν, H p q = -star (H p' q')) → ν.map (fun H => (H p' q').re) = gaussianReal 0 v →
      ν.map (fun H => (H p' q').im) = gaussianReal 0 w →
      ν.map (fun H => (H p q).re) = gaussianReal 0 v ∧ ν.map (fun H => (H p q).im) = gaussianReal 0 w := by
    intro p q p' q' v w h h1 h2
    constructor
    · have e : (fun H : Op (n + n) => (H p q).re) =ᵐ[ν] (fun x : ℝ => -x) ∘ fun H : Op (n + n) => (H p' q').re := by
        filter_upwards [h] with H hH
        simp [hH]
      rw [Measure.map_congr e, ← Measure.map_map measurable_neg (hre _ _), h1, gaussianReal_map_neg, neg_zero]
    · rw [← h2]
      refine Measure.map_congr ?_
      filter_upwards [h] with H hH
      simp [hH]
  induction p using Fin.addCases with
  | left i =>
    induction q using Fin.addCases with
    | left j =>
      obtain ⟨h1, h2⟩ := flip (hblk.mono fun H hH => (hH i j).1) (hent i j).1 (hent i j).2.1
      rw [h1, h2]
      exact ⟨hne (v1 i j), hne (v2 i j)⟩
    | right j =>
      rw [(hent i j).2.2.1, (hent i j).2.2.2]
      exact ⟨hne (v3 i j), hne (v3 i j)⟩
  | right i =>
    induction q using Fin.addCases with
    | left j =>
      obtain ⟨h1, h2⟩ := flip (hblk.mono fun H hH => (hH i j).2) (hent i j).2.2.1 (hent i j).2.2.2
      rw [h1, h2]
      exact ⟨hne (v3 i j), hne (v3 i j)⟩
    | right j =>
      rw [(hent i j).1, (hent i j).2.1]
      exact ⟨hne (v1 i j), hne (v2 i j)⟩

end

/-- Beside the theorems: calls with an ideal source. For two sites the even states are drawn twice as often as the odd ones. -/
example : ∃ (logm : (d : ℕ) → Op d → Op d) (νe νo : Measure (Op (2 ^ 2))), LogmOk logm ∧
    SamplesNear idealLaw (randomFFPureStateWN idealRng logm (.int 2) none none) ((2 / 3 : ENNReal) • νe + (1 / 3 : ENNReal) • νo)
      1.6e-9 := by
  classical
  have hex : ∀ (d : ℕ) (C : Op d), ∃ L, C * Cᴴ = 1 → IsPrincipalLog C L := fun d C =>
    if h : C * Cᴴ = 1 then (log_exists h).imp fun L hL _ => hL else ⟨0, fun h' => absurd h' h⟩
  choose logm hl using hex
  obtain ⟨νe, νo, -, -, h⟩ := C138_WN_random idealRng logm idealLaw (n := 2) idealRng_draws idealRng_ideal hl (by norm_num) (jordanWignerAlphas_eq 2)
  refine ⟨logm, νe, νo, hl, ?_⟩
  norm_num at h ⊢
  exact h

example : ∃ ν : Measure (Op (2 + 2)), Samples idealLaw (randomHGenerator idealRng 2 false none) id ν :=
  (C138_generator idealRng idealLaw idealRng_ideal false).imp fun _ h => h.1

/-- With one site the hypothesis of `C138_CN` on the entries of the rotation always holds. -/
theorem orb_one_site {O : RMat (1 + 1)} (hO : O * Oᵀ = 1) (i j : Fin (1 + 1)) : orb O i j = 0 ∨ 1e-9 ≤ ‖orb O i j‖ := by
  have hS : swapS 1 = !![0, 1; 1, 0] := by
    ext i j
    rw [swapS_apply]
    fin_cases i <;> fin_cases j <;> rfl
  have hs : orb O i 0 * orb O i 1 = 0 := by
    have h := congrFun (congrFun ((symp_iff _).1 (orb_symp hO)) i) i
    rw [hS] at h
    have h0 : (!![0, 1; 1, 0] : Op (1 + 1)) i i = 0 := by fin_cases i <;> rfl
    rw [h0] at h
    simp [mul_apply, Fin.sum_univ_two] at h
    linear_combination h / 2
  have hu : orb O i 0 * star (orb O i 0) + orb O i 1 * star (orb O i 1) = 1 := by
    have h := congrFun (congrFun (orb_unitary hO) i) i
    simpa [mul_apply, Fin.sum_univ_two] using h
  have key : ∀ z : ℂ, z * star z = 1 → (1e-9 : ℝ) ≤ ‖z‖ := by
    intro z hz
    rw [show star z = (starRingEnd ℂ) z from rfl, Complex.mul_conj, Complex.normSq_eq_norm_sq] at hz
    have : ‖z‖ ^ 2 = 1 := by exact_mod_cast hz
    have : ‖z‖ = 1 := by nlinarith [norm_nonneg z]
    rw [this]; norm_num
  rcases mul_eq_zero.1 hs with h | h
  · rw [h, zero_mul, zero_add] at hu
    fin_cases j
    · exact Or.inl h
    · exact Or.inr (key _ hu)
  · rw [h, zero_mul, add_zero] at hu
    fin_cases j
    · exact Or.inr (key _ hu)
    · exact Or.inl h

example : ∃ F : IdealState → Op (2 ^ 1) × IdealState, ∀ᵐ s ∂idealLaw,
    ∃ ψ : Fin (2 ^ 1) → ℂ, (randomFFPureStateCN idealRng (.int 1) none).exec s = (.ok ⟨1, ψ⟩, (F s).2) ∧ (F s).1 = proj ψ := by
  obtain ⟨-, -, -, -, F, -, h⟩ := C138_CN idealRng idealLaw (n := 1) idealRng_draws idealRng_ideal le_rfl (jordanWignerAlphas_eq 1)
  refine ⟨F, ?_⟩
  filter_upwards [h] with s hs
  exact hs _ _ (exec_orb idealRng idealRng_draws 1 (Or.inl ⟨rfl, rfl⟩)) fun i j => orb_one_site (idealRng_draws.orthogonal _ _) i j

end FF.Props
