import Verif.Spec.FFLaw
import Verif.Proofs.FFLaw
import Verif.Props.Law
import Verif.Props.RandomStates

/-! # C137: the distributions of the random free-fermion states -/

namespace FF.Props

open Matrix MeasureTheory ProbabilityTheory Spec

theorem ffrot_iff {n : ℕ} (V : Op (2 ^ n)) : V ∈ FFRotations (al n) ↔ ∃ O ∈ rotations (n + n), Performs V (orb O) := by
  constructor
  · rintro ⟨hV, C, hC, hs, hdet, h⟩
    have hmem : C ∈ {C : Op (n + n) | C ∈ unitaryGroup (Fin (n + n)) ℂ ∧ IsSymplectic C ∧ C.det = 1} := ⟨hC, hs, hdet⟩
    rw [orb_range] at hmem
    obtain ⟨O, hO, rfl⟩ := hmem
    exact ⟨O, hO, mem_unitaryGroup_iff.1 hV, mem_unitaryGroup_iff.1 hC, h⟩
  · rintro ⟨O, hO, h⟩
    exact ⟨mem_unitaryGroup_iff.2 h.unitary, orb O, mem_unitaryGroup_iff.2 h.orbital, orb_symp hO.1, orb_det hO.2, h.heis⟩

theorem proj_conj {d : ℕ} (V : Op d) (v : Fin d → ℂ) : V * proj v * Vᴴ = proj (V *ᵥ v) := by
  rw [show proj v = vecMulVec v (star v) from rfl, mul_vecMulVec, vecMulVec_mul, ← star_mulVec]
  rfl

theorem orb_continuous (n : ℕ) : Continuous (orb : RMat (n + n) → Op (n + n)) :=
  (continuous_const.matrix_mul (continuous_id.matrix_map Complex.continuous_ofReal)).matrix_mul continuous_const

theorem act_measurable {m d : ℕ} {act : Op m → Op d → Op d} (h : Continuous fun p : Op m × Op d => act p.1 p.2) {g : RMat m → Op m}
    (hg : Continuous g) : Measurable fun p : RMat m × Op d => act (g p.1) p.2 :=
  (h.comp ((hg.comp continuous_fst).prodMk continuous_snd)).measurable

theorem act_continuous_const {m d : ℕ} {act : Op m → Op d → Op d} (h : Continuous fun p : Op m × Op d => act p.1 p.2) {g : RMat m → Op m}
    (hg : Continuous g) (X : Op d) : Continuous fun O : RMat m => act (g O) X :=
  h.comp (hg.prodMk continuous_const)

theorem rotAct_act_measurable (n : ℕ) : Measurable fun p : RMat (n + n) × Op (2 ^ n) => rotAct (orb p.1) p.2 :=
  act_measurable (rotAct_continuous n) (orb_continuous n)

theorem rotAct_orb_continuous {n : ℕ} (X : Op (2 ^ n)) : Continuous fun O : RMat (n + n) => rotAct (orb O) X :=
  act_continuous_const (rotAct_continuous n) (orb_continuous n) X

theorem measurable_of_cont {m d : ℕ} {g : RMat m → Op d} (h : Continuous g) : Measurable g := h.measurable

theorem ae_image {m d : ℕ} {g : RMat m → Op d} (h : Continuous g) {l : Measure (RMat m)} {G : Set (RMat m)} (hG : IsCompact G)
    (hl : ∀ᵐ O ∂l, O ∈ G) : ∀ᵐ x ∂(l.map g), x ∈ g '' G := by
  refine (ae_map_iff h.measurable.aemeasurable (hG.image h).isClosed.measurableSet).2 ?_
  filter_upwards [hl] with O hO
  exact ⟨O, hO, rfl⟩

/-- A rotated diagonal matrix, with its spectrum. -/
noncomputable def spinAct {m d : ℕ} (act : Op m → Op d → Op d) (g : RMat m → Op m) (q : RMat m × (Fin d → ℝ)) : Op d × (Fin d → ℝ) :=
  (act (g q.1) (diagonal fun i => ((q.2 i : ℝ) : ℂ)), q.2)

theorem spinAct_continuous {m d : ℕ} {act : Op m → Op d → Op d} (h : Continuous fun p : Op m × Op d => act p.1 p.2) {g : RMat m → Op m}
    (hg : Continuous g) : Continuous (spinAct act g) := by
  refine Continuous.prodMk (h.comp ((hg.comp continuous_fst).prodMk (Continuous.matrix_diagonal ?_))) continuous_snd
  exact continuous_pi fun i => Complex.continuous_ofReal.comp ((continuous_apply i).comp continuous_snd)

theorem spinAct_measurable {m d : ℕ} {act : Op m → Op d → Op d} (h : Continuous fun p : Op m × Op d => act p.1 p.2) {g : RMat m → Op m}
    (hg : Continuous g) : Measurable (spinAct act g) := (spinAct_continuous h hg).measurable

theorem spinAct_ae {m d : ℕ} {act : Op m → Op d → Op d} (h : Continuous fun p : Op m × Op d => act p.1 p.2) {g : RMat m → Op m}
    (hg : Continuous g) {l : Measure (RMat m)} [SFinite l] {D : Measure (Fin d → ℝ)} [SFinite D] {G : Set (RMat m)} (hG : IsCompact G)
    (hl : ∀ᵐ O ∂l, O ∈ G) : ∀ᵐ x ∂((l.prod D).map (spinAct act g)), ∃ O ∈ G, x.1 = act (g O) (diagonal fun i => ((x.2 i : ℝ) : ℂ)) := by
  have hc : IsClosed {x : Op d × (Fin d → ℝ) | ∃ O ∈ G, x.1 = act (g O) (diagonal fun i => ((x.2 i : ℝ) : ℂ))} := by
    have := isCompact_iff_compactSpace.1 hG
    have hT : IsClosed {t : G × (Op d × (Fin d → ℝ)) | t.2.1 = (spinAct act g (t.1.1, t.2.2)).1} :=
      isClosed_eq (continuous_fst.comp continuous_snd) (continuous_fst.comp ((spinAct_continuous h hg).comp
        ((continuous_subtype_val.comp continuous_fst).prodMk (continuous_snd.comp continuous_snd))))
    have e : {x : Op d × (Fin d → ℝ) | ∃ O ∈ G, x.1 = act (g O) (diagonal fun i => ((x.2 i : ℝ) : ℂ))} =
        Prod.snd '' {t : G × (Op d × (Fin d → ℝ)) | t.2.1 = (spinAct act g (t.1.1, t.2.2)).1} := by
      ext x
      constructor
      · rintro ⟨O, hO, hx⟩
        exact ⟨(⟨O, hO⟩, x), hx, rfl⟩
      · rintro ⟨⟨⟨O, hO⟩, y⟩, hy, rfl⟩
        exact ⟨O, hO, hy⟩
    rw [e]
    exact isClosedMap_snd_of_compactSpace _ hT
  refine (ae_map_iff (spinAct_measurable h hg).aemeasurable hc.measurableSet).2 ?_
  filter_upwards [Measure.quasiMeasurePreserving_fst.ae hl] with q hq
  exact ⟨q.1, hq, rfl⟩

theorem spinAct_invariant {m d : ℕ} {act : Op m → Op d → Op d} (h : Continuous fun p : Op m × Op d => act p.1 p.2) {g : RMat m → Op m}
    (hg : Continuous g) {l : Measure (RMat m)} [SFinite l] {D : Measure (Fin d → ℝ)} [SFinite D] {G : Set (RMat m)}
    (hl : ∀ᵐ O ∂l, O ∈ G) {P : RMat m} (hP : l.map (fun O => P * O) = l) {V : Op d}
    (hV : ∀ O ∈ G, ∀ X, V * act (g O) X * Vᴴ = act (g (P * O)) X) :
    ((l.prod D).map (spinAct act g)).map (fun x => (V * x.1 * Vᴴ, x.2)) = (l.prod D).map (spinAct act g) := by
  have hm := spinAct_measurable (d := d) h hg
  have hc : Measurable fun x : Op d × (Fin d → ℝ) => (V * x.1 * Vᴴ, x.2) :=
    ((conj_const_measurable V).comp measurable_fst).prodMk measurable_snd
  have hP' : Measurable fun O : RMat m => P * O := (continuous_const.matrix_mul continuous_id).measurable
  rw [Measure.map_map hc hm]
  have e : ((fun x : Op d × (Fin d → ℝ) => (V * x.1 * Vᴴ, x.2)) ∘ spinAct act g) =ᵐ[l.prod D]
      spinAct act g ∘ Prod.map (fun O => P * O) id := by
    filter_upwards [Measure.quasiMeasurePreserving_fst.ae hl] with q hq
    exact Prod.ext (hV q.1 hq _) rfl
  rw [Measure.map_congr e, ← Measure.map_map hm (hP'.prodMap measurable_id), ← Measure.map_prod_map _ _ hP' measurable_id, Measure.map_id, hP]

theorem spinAct_snd {m d : ℕ} {act : Op m → Op d → Op d} (h : Continuous fun p : Op m × Op d => act p.1 p.2) {g : RMat m → Op m}
    (hg : Continuous g) {l : Measure (RMat m)} [IsProbabilityMeasure l] {D : Measure (Fin d → ℝ)} [SFinite D] :
    ((l.prod D).map (spinAct act g)).map Prod.snd = D := by
  rw [Measure.map_map measurable_snd (spinAct_measurable h hg)]
  have e : Prod.snd ∘ spinAct act g = Prod.snd := rfl
  rw [e, ← Measure.snd, Measure.snd_prod]

theorem rotations_isCompact (m : ℕ) : IsCompact (rotations m) := by
  rw [rotations_eq]
  exact isCompact_iff_compactSpace.2 (rotations_compact m)

theorem rotAct_measurable {n : ℕ} (X : Op (2 ^ n)) : Measurable fun O : RMat (n + n) => rotAct (orb O) X :=
  measurable_of_cont (rotAct_orb_continuous X)

theorem rmul_measurable {m : ℕ} (V : RMat m) : Measurable fun U : RMat m => U * V :=
  (continuous_id.matrix_mul continuous_const).measurable

theorem lmul_measurable {m : ℕ} (V : RMat m) : Measurable fun U : RMat m => V * U :=
  (continuous_const.matrix_mul continuous_id).measurable

theorem rotAct_mul {n : ℕ} {O P : RMat (n + n)} (hO : O ∈ rotations (n + n)) (hP : P ∈ rotations (n + n)) (X : Op (2 ^ n)) :
    rotAct (orb O) (rotAct (orb P) X) = rotAct (orb (O * P)) X := by
  obtain ⟨W, hW⟩ := performs_exists hO
  obtain ⟨W', hW'⟩ := performs_exists hP
  rw [orb_mul, rotAct_eq (hW.mul hW'), rotAct_eq hW', rotAct_eq hW, conjTranspose_mul]
  simp only [mul_assoc]

theorem rotations_mul {m : ℕ} {O P : RMat m} (hO : O ∈ rotations m) (hP : P ∈ rotations m) : O * P ∈ rotations m :=
  ⟨by rw [transpose_mul, mul_assoc, ← mul_assoc P, hP.1, one_mul, hO.1], by rw [det_mul, hO.2, hP.2, one_mul]⟩

theorem map_rotAct {n : ℕ} {l : Measure (RMat (n + n))} (hl : IsHaar (rotations (n + n)) l) (X : Op (2 ^ n)) {V : Op (2 ^ n)}
    (hV : V ∈ FFRotations (al n)) : (l.map fun O => rotAct (orb O) X).map (fun ρ => V * ρ * Vᴴ) = l.map fun O => rotAct (orb O) X := by
  obtain ⟨P, hP, hp⟩ := (ffrot_iff V).1 hV
  rw [Measure.map_map (conj_const_measurable V) (rotAct_measurable X)]
  have e : ((fun ρ => V * ρ * Vᴴ) ∘ fun O => rotAct (orb O) X) =ᵐ[l] (fun O => rotAct (orb O) X) ∘ fun O => P * O := by
    filter_upwards [hl.support] with O hO
    change V * rotAct (orb O) X * Vᴴ = rotAct (orb (P * O)) X
    rw [← rotAct_mul hP hO, rotAct_eq hp]
  rw [Measure.map_congr e, ← Measure.map_map (rotAct_measurable X) (lmul_measurable P), hl.left P hP]

/-- The state made from `ψ₀` by a Haar distributed rotation is uniformly distributed. -/
theorem haar_ff {n : ℕ} {l : Measure (RMat (n + n))} (hl : IsHaar (rotations (n + n)) l) (ψ₀ : Fin (2 ^ n) → ℂ) :
    IsUniformFF (al n) ψ₀ (l.map fun O => rotAct (orb O) (proj ψ₀)) := by
  have := hl.prob
  have hm := rotAct_measurable (n := n) (proj ψ₀)
  refine ⟨Measure.isProbabilityMeasure_map hm.aemeasurable, ?_, fun V hV => map_rotAct hl _ hV⟩
  filter_upwards [ae_image (rotAct_orb_continuous (n := n) (proj ψ₀)) (rotations_isCompact (n + n)) hl.support] with ρ hρ
  obtain ⟨O, hO, rfl⟩ := hρ
  obtain ⟨W, hW⟩ := performs_exists hO
  exact ⟨W, (ffrot_iff W).2 ⟨O, hO, hW⟩, (rotAct_eq hW _).trans (proj_conj _ _)⟩

/-- C137. There is exactly one uniform distribution of the free-fermion states that rotations make from `ψ₀`. -/
theorem C137_unique {n : ℕ} {f : Fin (n + n) → Op (2 ^ n)} (hf : jordanWignerAlphas n = List.ofFn f) (ψ₀ : Fin (2 ^ n) → ℂ) :
    ∃! ν : Measure (Op (2 ^ n)), IsUniformFF f ψ₀ ν := by
  rw [jordanWignerAlphas_eq] at hf
  obtain rfl := List.ofFn_injective hf
  obtain ⟨l, hl⟩ := haar_rotations (n + n)
  refine ⟨_, haar_ff hl ψ₀, fun ν h => ?_⟩
  refine invariant_unique hl (fun O X => rotAct (orb O) X) (rotAct_act_measurable n) rmul_measurable (proj ψ₀)
    (fun U hU V hV => rotAct_mul hU hV _) ν h.prob ?_ fun O hO => ?_
  · filter_upwards [h.support] with ρ hρ
    obtain ⟨V, hV, rfl⟩ := hρ
    obtain ⟨O, hO, hp⟩ := (ffrot_iff V).1 hV
    exact ⟨O, hO, by rw [rotAct_eq hp, proj_conj]⟩
  · obtain ⟨W, hW⟩ := performs_exists hO
    have e : rotAct (orb O) = fun ρ : Op (2 ^ n) => W * ρ * Wᴴ := funext fun ρ => rotAct_eq hW ρ
    change ν.map (rotAct (orb O)) = ν
    rw [e]
    exact h.invariant W ((ffrot_iff W).2 ⟨O, hO, hW⟩)

section
variable {σ : Type} [MeasurableSpace σ] (rng : Rng σ) (logm : (d : ℕ) → Op d → Op d) (μ : Measure σ)

/-- With probability one the drawn rotation does not have the eigenvalue -1. -/
theorem no_minus_drawn (hi : IdealSource rng μ) (n : ℕ) : ∀ᵐ s ∂μ, (1 + (rng.orthogonal (n + n) s).1).det ≠ 0 := by
  have := hi.prob
  obtain ⟨l, hl', hf⟩ := hi.orthogonal (n + n)
  have h1 := haar_no_minus hl'
  rw [← fresh_fst' hf] at h1
  exact ae_of_ae_map (measurable_fst.comp hf.measurable).aemeasurable h1

/-- Samples of the drawn rotation applied to a fixed state. -/
theorem near_of_exec (hd : DrawsOk rng) (hi : IdealSource rng μ) (hl : LogmOk logm) {n : ℕ} (hn : 1 ≤ n) (ψ₀ : Fin (2 ^ n) → ℂ) (hψ : IsUnitVec ψ₀)
    (m : Rand σ (Σ n : ℕ, Fin (2 ^ n) → ℂ))
    (hm : ∀ s, ∃ W s', (randomFFRotation rng logm n none).exec s = (.ok W, s') ∧ m.exec s = (.ok ⟨n, W *ᵥ ψ₀⟩, s')) :
    ∃ ν : Measure (Op (2 ^ n)), IsUniformFF (al n) ψ₀ ν ∧ SamplesNear μ m ν (4e-10 * n ^ 2) := by
  have := hi.prob
  obtain ⟨l, hl', hf⟩ := hi.orthogonal (n + n)
  have := hl'.prob
  refine ⟨_, haar_ff hl' ψ₀, _, fresh_map hf (rotAct_measurable (proj ψ₀)), ?_⟩
  filter_upwards [no_minus_drawn rng μ hi n] with s hs
  obtain ⟨W, s', hW, hm'⟩ := hm s
  rw [exec_rot rng hd logm hn (Or.inl ⟨rfl, rfl⟩)] at hW
  obtain ⟨hW1, rfl⟩ := Prod.mk.inj hW
  obtain rfl := Except.ok.inj hW1
  have hO := hd.orthogonal (n + n) s
  have hC := orb_unitary hO
  have hL := hl _ _ hC
  have hp := performs_log hC (orb_canonical _) (orb_noMinus hs) hL
  refine ⟨_, _, hm', (rotAct_eq hp _).trans (proj_conj _ _), ?_⟩
  have h := rot_near (log_skew hC hL) (-Complex.I) (Or.inr rfl) ψ₀
  have h1 : vnorm ψ₀ = 1 := by rw [vnorm, show ∑ i, ‖ψ₀ i‖ ^ 2 = 1 from hψ, Real.sqrt_one]
  rw [h1, mul_one] at h
  exact h

variable {n : ℕ} {f : Fin (n + n) → Op (2 ^ n)}

/-- C137. With probability one the state `random_FF_pure_state_W0(n)` returns is within `4e-10 n²` of a uniformly distributed state of
the free-fermion states that rotations make from the vacuum; the next call is independent of it. -/
theorem C137_W0 (hd : DrawsOk rng) (hi : IdealSource rng μ) (hl : LogmOk logm) (hn : 1 ≤ n) (hf : jordanWignerAlphas n = List.ofFn f) :
    ∃ ν : Measure (Op (2 ^ n)), IsUniformFF f (fock fun _ => 0) ν ∧
      SamplesNear μ (randomFFPureStateW0 rng logm (.int n) none) ν (4e-10 * n ^ 2) := by
  rw [jordanWignerAlphas_eq] at hf
  obtain rfl := List.ofFn_injective hf
  refine near_of_exec rng logm μ hd hi hl hn _ (unit_fock _) _ fun s => ?_
  obtain ⟨W, s', h1, h2, -⟩ := C85_W0 rng logm hd hl n hn none s s (Or.inl ⟨rfl, rfl⟩)
  exact ⟨W, s', h1, h2⟩

/-- C137. The same for `random_FF_pure_state_WN(n, N)` and the state with the first `N` sites filled. -/
theorem C137_WN_partial (hd : DrawsOk rng) (hi : IdealSource rng μ) (hl : LogmOk logm) (hn : 1 ≤ n) (hf : jordanWignerAlphas n = List.ofFn f)
    (N : ℕ) (hN : N ≤ n) :
    ∃ ν : Measure (Op (2 ^ n)), IsUniformFF f (fock fun i => if (i : ℕ) < N then 1 else 0) ν ∧
      SamplesNear μ (randomFFPureStateWN rng logm (.int n) (some (.int N)) none) ν (4e-10 * n ^ 2) := by
  rw [jordanWignerAlphas_eq] at hf
  obtain rfl := List.ofFn_injective hf
  refine near_of_exec rng logm μ hd hi hl hn _ (unit_fock _) _ fun s => ?_
  obtain ⟨W, s', h1, h2, -⟩ := C57_state rng logm hd hl n N hn hN none s s s (Or.inl ⟨rfl, rfl⟩) (Or.inl ⟨rfl, rfl⟩)
  exact ⟨W, s', h1, h2⟩

/-- C137. The rotation that `random_FF_rotation(n)` returns performs, with probability one and up to `4e-10 n²`, the orbital rotation
that the same draw gives with `returnOrb=True`. -/
theorem C137_rotation (hd : DrawsOk rng) (hi : IdealSource rng μ) (hl : LogmOk logm) (hn : 1 ≤ n) (hf : jordanWignerAlphas n = List.ofFn f) :
    ∀ᵐ s ∂μ, ∃ (C : Op (n + n)) (W V : Op (2 ^ n)) (s' : σ), (randomFFRotationOrb rng n none).exec s = (.ok C, s') ∧
      (randomFFRotation rng logm n none).exec s = (.ok W, s') ∧ V ∈ unitaryGroup (Fin (2 ^ n)) ℂ ∧
      (∀ k, Vᴴ * f k * V = ∑ l, C k l • f l) ∧
      ∀ x : Fin (2 ^ n) → ℂ, √(∑ i, ‖(W *ᵥ x) i - (V *ᵥ x) i‖ ^ 2) ≤ 4e-10 * n ^ 2 * √(∑ i, ‖x i‖ ^ 2) := by
  rw [jordanWignerAlphas_eq] at hf
  obtain rfl := List.ofFn_injective hf
  filter_upwards [no_minus_drawn rng μ hi n] with s hs
  have hC := orb_unitary (hd.orthogonal (n + n) s)
  have hL := hl _ _ hC
  have hp := performs_log hC (orb_canonical _) (orb_noMinus hs) hL
  exact ⟨_, _, _, _, exec_orb rng hd n (Or.inl ⟨rfl, rfl⟩), exec_rot rng hd logm hn (Or.inl ⟨rfl, rfl⟩), mem_unitaryGroup_iff.2 hp.unitary,
    hp.heis, fun x => rot_near (log_skew hC hL) (-Complex.I) (Or.inr rfl) x⟩

/-- C137. `random_FF_state(n, pure=True)` samples the same distribution as `random_FF_pure_state_W0(n)`. -/
theorem C137_state (hd : DrawsOk rng) (hi : IdealSource rng μ) (hl : LogmOk logm) (hn : 1 ≤ n) (hf : jordanWignerAlphas n = List.ofFn f) :
    ∃ ν : Measure (Op (2 ^ n)), IsUniformFF f (fock fun _ => 0) ν ∧
      SamplesNear μ (randomFFStatePure rng logm n none false >>= fun r => pure ⟨n, r.1⟩) ν (4e-10 * n ^ 2) := by
  rw [jordanWignerAlphas_eq] at hf
  obtain rfl := List.ofFn_injective hf
  refine near_of_exec rng logm μ hd hi hl hn _ (unit_fock _) _ fun s => ?_
  have hW := exec_rot rng hd logm hn (Or.inl ⟨rfl, rfl⟩ : StartState rng none s s)
  obtain ⟨-, -, h2⟩ := exec_pureState rng logm hd hl hn (Or.inl ⟨rfl, rfl⟩ : StartState rng none s s) hW
  exact ⟨_, _, hW, by rw [exec_bind_ok h2, exec_pure, fock_zero]⟩

/-- C137. `random_FF_state_rotPDF(n, returnS=True)`: the spectrum `s` has the flat Dirichlet distribution, and the state is within `8e-10 n²` of a
state with this spectrum whose distribution no free-fermion rotation changes. -/
theorem C137_rotPDF (hd : DrawsOk rng) (hi : IdealSource rng μ) (hl : LogmOk logm) (hn : 1 ≤ n) (hf : jordanWignerAlphas n = List.ofFn f) :
    ∃ ν : Measure (Op (2 ^ n) × (Fin (2 ^ n) → ℝ)), IsRotatedSpectrum f (flatDirichlet (2 ^ n)) ν ∧
      SamplesNearPair μ (randomFFStateRotPDF rng logm (.int n) none) ν (8e-10 * n ^ 2) := by
  rw [jordanWignerAlphas_eq] at hf
  obtain rfl := List.ofFn_injective hf
  have := hi.prob
  obtain ⟨l, hl', hf⟩ := hi.orthogonal (n + n)
  have := hl'.prob
  have hdir := hi.dirichlet (2 ^ n) (by positivity)
  have hD : IsProbabilityMeasure (flatDirichlet (2 ^ n)) := by
    rw [← fresh_fst' hdir]
    exact Measure.isProbabilityMeasure_map (measurable_fst.comp hdir.measurable).aemeasurable
  have hcont := rotAct_continuous n
  have horb := orb_continuous n
  refine ⟨_, ⟨spinAct_snd hcont horb, ?_, fun V hV => ?_⟩, _, fresh_map (fresh_pair hf hdir) (spinAct_measurable hcont horb), ?_⟩
  · filter_upwards [spinAct_ae hcont horb (D := flatDirichlet (2 ^ n)) (rotations_isCompact (n + n)) hl'.support] with x hx
    obtain ⟨O, hO, hx⟩ := hx
    obtain ⟨W, hW⟩ := performs_exists hO
    exact ⟨W, (ffrot_iff W).2 ⟨O, hO, hW⟩, hx.trans (rotAct_eq hW _)⟩
  · obtain ⟨P, hP, hp⟩ := (ffrot_iff V).1 hV
    exact spinAct_invariant hcont horb hl'.support (hl'.left P hP) fun O hO X => by rw [← rotAct_mul hP hO, rotAct_eq hp]
  · filter_upwards [no_minus_drawn rng μ hi n] with s hs
    have hW := exec_rot rng hd logm hn (Or.inl ⟨rfl, rfl⟩ : StartState rng none s s)
    have hC := orb_unitary (hd.orthogonal (n + n) s)
    have hL := hl _ _ hC
    have hsk := log_skew hC hL
    have hp := performs_log hC (orb_canonical _) (orb_noMinus hs) hL
    have hGd : (Spec.quad (dropSmall 1e-10 (genMat (logm _ (orb (rng.orthogonal (n + n) s).1)))) (al n)).IsHermitian := by
      refine quad_herm ?_ _
      rw [drop_genMat]
      exact genMat_herm (drop_skewHerm hsk)
    have hG : (Spec.quad (genMat (logm _ (orb (rng.orthogonal (n + n) s).1))) (al n)).IsHermitian := quad_herm (genMat_herm hsk) _
    have hWW := expm_unitary (skewHerm_I hGd)
    refine ⟨expm ((-Complex.I) • Spec.quad (dropSmall 1e-10 (genMat (logm _ (orb (rng.orthogonal (n + n) s).1)))) (al n)) *
      diagonal (fun i => (((rng.dirichlet (2 ^ n) (rng.orthogonal (n + n) s).2).1 i : ℝ) : ℂ)) *
      (expm ((-Complex.I) • Spec.quad (dropSmall 1e-10 (genMat (logm _ (orb (rng.orthogonal (n + n) s).1)))) (al n)))ᴴ, ?_, fun x => ?_⟩
    · rw [randomFFStateRotPDF, exec_bind_ok (exec_check hn s), exec_bind_ok (exec_seed rng (Or.inl ⟨rfl, rfl⟩)), exec_bind_ok hW,
        exec_bind_ok (exec_noDraw_ok (pyAssert_ok (allclose_of_eq hWW)) _), exec_bind_ok (exec_draw _ _), exec_pure]
      rfl
    · have hadj : ∀ {G : Op (2 ^ n)}, G.IsHermitian → (expm ((-Complex.I) • G))ᴴ = expm (Complex.I • G) := fun {G} h => by
        rw [expm, ← Matrix.exp_conjTranspose, conjTranspose_smul, h.eq, expm]
        simp
      have := rotated_near hWW hp.unitary (δ := 4e-10 * n ^ 2) (by positivity)
        (fun x => rot_near hsk (-Complex.I) (Or.inr rfl) x)
        (fun x => by rw [hadj hGd, hadj hG]; exact rot_near hsk Complex.I (Or.inl rfl) x)
        (hd.dirichlet (2 ^ n) (by positivity) (rng.orthogonal (n + n) s).2) x
      rw [show (8e-10 : ℝ) * n ^ 2 = 2 * (4e-10 * n ^ 2) by ring]
      change vnorm _ ≤ _ * vnorm x
      simp only [spinAct]
      rw [rotAct_eq hp]
      exact this

end

theorem uniform_trans {n : ℕ} {ψ φ : Fin (2 ^ n) → ℂ} {V : Op (2 ^ n)} (hV : V ∈ FFRotations (al n)) (h : proj φ = proj (V *ᵥ ψ))
    {ν : Measure (Op (2 ^ n))} (hν : IsUniformFF (al n) φ ν) : IsUniformFF (al n) ψ ν := by
  refine ⟨hν.prob, ?_, hν.invariant⟩
  filter_upwards [hν.support] with ρ hρ
  obtain ⟨U, hU, rfl⟩ := hρ
  obtain ⟨O, hO, hp⟩ := (ffrot_iff U).1 hU
  obtain ⟨P, hP, hq⟩ := (ffrot_iff V).1 hV
  refine ⟨U * V, (ffrot_iff _).2 ⟨O * P, rotations_mul hO hP, by rw [orb_mul]; exact hp.mul hq⟩, ?_⟩
  rw [← proj_conj, h, proj_conj, mulVec_mulVec]

theorem proj_phase {d : ℕ} {c : ℂ} (hc : c * star c = 1) (v : Fin d → ℂ) : proj (c • v) = proj v := by
  rw [show proj (c • v) = vecMulVec (c • v) (star (c • v)) from rfl, star_smul, smul_vecMulVec, vecMulVec_smul, smul_smul, hc, one_smul]
  rfl

/-- Two more sites can be filled by a free-fermion rotation. -/
theorem fill_two {n N : ℕ} (hN : N + 2 ≤ n) : ∃ V ∈ FFRotations (al n),
    proj (fock fun i : Fin n => if (i : ℕ) < N + 2 then 1 else 0) = proj (V *ᵥ fock fun i : Fin n => if (i : ℕ) < N then 1 else 0) := by
  set a : Fin n := ⟨N, by omega⟩
  set b : Fin n := ⟨N + 1, by omega⟩
  have hab : a ≠ b := fun h => by have := congrArg Fin.val h; simp [a, b] at this
  have hp := (maj_performs b).mul (maj_performs a)
  obtain ⟨c, hc, h1⟩ := maj_fock a (fun i : Fin n => if (i : ℕ) < N then 1 else 0) (by simp [a])
  obtain ⟨c', hc', h2⟩ := maj_fock b (Function.update (fun i : Fin n => if (i : ℕ) < N then 1 else 0) a 1)
    (by rw [Function.update_of_ne hab.symm]; simp [b])
  have hdet : ((vecMulVec (majVec b) (majVec b) - 1) * (vecMulVec (majVec a) (majVec a) - 1)).det = 1 := by
    rw [det_mul, maj_det, maj_det]; norm_num
  refine ⟨maj b * maj a, ⟨mem_unitaryGroup_iff.2 hp.unitary, _, mem_unitaryGroup_iff.2 hp.orbital, symp_mul (maj_symp b) (maj_symp a), hdet, hp.heis⟩, ?_⟩
  rw [← mulVec_mulVec, h1, mulVec_smul, h2, proj_phase hc, proj_phase hc']
  congr 2
  funext i
  by_cases hb : i = b
  · subst hb; simp [b]
  · by_cases ha : i = a
    · subst ha; rw [Function.update_of_ne hb]; simp [a]
    · rw [Function.update_of_ne hb, Function.update_of_ne ha]
      have h1 : (i : ℕ) ≠ N := fun h => ha (Fin.ext h)
      have h2 : (i : ℕ) ≠ N + 1 := fun h => hb (Fin.ext h)
      have : (i : ℕ) < N + 2 ↔ (i : ℕ) < N := by omega
      simp only [this]

/-- C137. The distribution for `N` particles depends only on whether `N` is even or odd: it is not a distribution of states with `N`
particles, and for even `N` it is the one of `random_FF_pure_state_W0`. -/
theorem C137_WN_parity {n : ℕ} {f : Fin (n + n) → Op (2 ^ n)} (hf : jordanWignerAlphas n = List.ofFn f) {N N' : ℕ} (hN : N ≤ n) (hN' : N' ≤ n)
    (hpar : N % 2 = N' % 2) (ν : Measure (Op (2 ^ n))) :
    IsUniformFF f (fock fun i : Fin n => if (i : ℕ) < N then 1 else 0) ν ↔ IsUniformFF f (fock fun i : Fin n => if (i : ℕ) < N' then 1 else 0) ν := by
  have hfa := hf
  rw [jordanWignerAlphas_eq] at hfa
  obtain rfl := List.ofFn_injective hfa
  have step : ∀ {ψ φ : Fin (2 ^ n) → ℂ}, (∃ V ∈ FFRotations (al n), proj φ = proj (V *ᵥ ψ)) → ∀ ν : Measure (Op (2 ^ n)),
      (IsUniformFF (al n) φ ν ↔ IsUniformFF (al n) ψ ν) := by
    rintro ψ φ ⟨V, hV, h⟩ ν
    refine ⟨uniform_trans hV h, fun hν => ?_⟩
    obtain ⟨ν', hν', -⟩ := C137_unique hf φ
    rwa [(C137_unique hf ψ).unique hν (uniform_trans hV h hν')]
  have key : ∀ N, N ≤ n → (IsUniformFF (al n) (fock fun i : Fin n => if (i : ℕ) < N then 1 else 0) ν ↔
      IsUniformFF (al n) (fock fun i : Fin n => if (i : ℕ) < N % 2 then 1 else 0) ν) := by
    intro N
    induction N using Nat.strong_induction_on with
    | _ N ih =>
      intro hN
      rcases lt_or_ge N 2 with h | h
      · rw [Nat.mod_eq_of_lt h]
      · obtain ⟨M, rfl⟩ : ∃ M, N = M + 2 := ⟨N - 2, by omega⟩
        rw [step (fill_two hN) ν, ih M (by omega) (by omega), Nat.add_mod_right]
  rw [key N hN, key N' hN', hpar]

/-- C137. So `random_FF_pure_state_WN(n, N)` with even `N` and `random_FF_pure_state_W0(n)` sample, up to `4e-10 n²`, the same distribution. -/
theorem C137_WN_is_W0 {σ : Type} [MeasurableSpace σ] (rng : Rng σ) (logm : (d : ℕ) → Op d → Op d) (μ : Measure σ) (hd : DrawsOk rng)
    (hi : IdealSource rng μ) (hl : LogmOk logm) {n : ℕ} (hn : 1 ≤ n) (N : ℕ) (hN : N ≤ n) (heven : Even N) :
    ∃ ν : Measure (Op (2 ^ n)), SamplesNear μ (randomFFPureStateW0 rng logm (.int n) none) ν (4e-10 * n ^ 2) ∧
      SamplesNear μ (randomFFPureStateWN rng logm (.int n) (some (.int N)) none) ν (4e-10 * n ^ 2) := by
  have hf := jordanWignerAlphas_eq n
  obtain ⟨ν, h, h'⟩ := C137_W0 rng logm μ hd hi hl hn hf
  obtain ⟨ν', k, k'⟩ := C137_WN_partial rng logm μ hd hi hl hn hf N hN
  have h0 := (C137_WN_parity hf hN (Nat.zero_le n) (by rw [Nat.even_iff.1 heven]) ν').1 k
  have e : (fun i : Fin n => if (i : ℕ) < 0 then (1 : Fin 2) else 0) = fun _ => 0 := funext fun i => if_neg (Nat.not_lt_zero _)
  rw [e] at h0
  rw [(C137_unique hf _).unique h h0] at h'
  exact ⟨ν', h', k'⟩

/-- Beside the theorems: there is an ideal source and there are logarithms, so the statements hold of actual calls. -/
example : ∃ logm : (d : ℕ) → Op d → Op d, LogmOk logm ∧ ∃ ν : Measure (Op (2 ^ 3)),
    SamplesNear idealLaw (randomFFPureStateW0 idealRng logm (.int 3) none) ν (4e-10 * (3 : ℕ) ^ 2) ∧
    SamplesNear idealLaw (randomFFPureStateWN idealRng logm (.int 3) (some (.int (2 : ℕ))) none) ν (4e-10 * (3 : ℕ) ^ 2) := by
  classical
  have hex : ∀ (d : ℕ) (C : Op d), ∃ L, C * Cᴴ = 1 → IsPrincipalLog C L := fun d C =>
    if h : C * Cᴴ = 1 then (log_exists h).imp fun L hL _ => hL else ⟨0, fun h' => absurd h' h⟩
  choose logm hl using hex
  exact ⟨logm, hl, C137_WN_is_W0 idealRng logm idealLaw idealRng_draws idealRng_ideal hl (by norm_num) 2 (by norm_num) (by decide)⟩

end FF.Props
