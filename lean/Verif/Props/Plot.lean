import Verif.Proofs.Majorize
import Verif.Proofs.Random
import Verif.Props.Stabilizer

/-! # Properties of `analyze_pdf` and `random_CHP_state` (C97, C98) -/

namespace FF.Props

open Matrix
open scoped ComplexOrder

/-! ## C97 -/

variable {d : ℕ} {x : Arr} {ρ : Op d}

/-- C97. For every state the call succeeds. It draws `d` diagonal entries and `d` eigenvalues: the `i`-th diagonal entry
is real and within `5e-7` of `ρ_ii`, the `i`-th drawn eigenvalue is real and within `5e-7` of the `i`-th largest
eigenvalue, and the eigenvalues are drawn in descending order. The style and the title are the requested ones. -/
theorem C97_data (hx : Spec.IsState x ρ) (l : Fin d → ℝ) (hl : Spec.IsSpectrum ρ l) (name : Option String) (stem : Bool) :
    ∃ (p e : Fin d → ℝ) (P : PdfPlot), analyzePdf (some x) name stem = .ok P ∧
      P.diag = List.ofFn (fun i => (p i : ℂ)) ∧ P.eigenvalues = List.ofFn (fun i => (e i : ℂ)) ∧ Antitone e ∧
      (∀ i, ‖(p i : ℂ) - ρ i i‖ ≤ 5e-7) ∧ (∀ i, |e i - l i| ≤ 5e-7) ∧ P.stem = stem ∧
      (name = none → P.title = "Population analysis") ∧
      (∀ s, name = some s → P.title = "Population analysis of " ++ s) := by
  have h2 := (state_cast hx).2
  have hh := h2.psd.isHermitian
  have hn : ∀ t : ℝ, |npRound 6 t - t| ≤ 5e-7 := fun t => (npRound_near 6 t).trans (by norm_num)
  refine ⟨_, _, _, analyzePdf_ok hx name stem, rfl, rfl, fun i j hij => npRound_mono 6 ((specDesc_isSpectrum hh).1 hij),
    fun i => ?_, fun i => ?_, rfl, ?_, ?_⟩
  · have : ρ i i = (((ρ i i).re : ℝ) : ℂ) := ((Complex.conj_eq_iff_re).1 (hh.apply i i)).symm
    conv_lhs => rw [this]
    rw [Complex.ofReal_re, ← Complex.ofReal_sub, Complex.norm_real]
    exact hn _
  · rw [isSpectrum_unique hh hl]
    exact hn _
  · rintro rfl; rfl
  · rintro s rfl
    exact congrArg (· ++ s) (by decide)

/-- C97. The drawn eigenvalues dominate the drawn diagonal (majorisation, up to the rounding): any `k` diagonal entries
sum to at most the sum of the first `k` eigenvalues plus `k * 1e-6`; both series sum to 1 up to `d * 5e-7`; a population
or eigenvalue below `5e-7` is drawn as exactly 0. -/
theorem C97_majorization (hx : Spec.IsState x ρ) (l : Fin d → ℝ) (hl : Spec.IsSpectrum ρ l) (name : Option String)
    (stem : Bool) (p e : Fin d → ℝ) (P : PdfPlot) (hP : analyzePdf (some x) name stem = .ok P)
    (hp : P.diag = List.ofFn (fun i => (p i : ℂ))) (he : P.eigenvalues = List.ofFn (fun i => (e i : ℂ))) :
    (∀ S : Finset (Fin d), ∑ i ∈ S, p i ≤ (∑ i : Fin d, if (i : ℕ) < S.card then e i else 0) + S.card * 1e-6) ∧
    |∑ i, p i - 1| ≤ d * 5e-7 ∧ |∑ i, e i - 1| ≤ d * 5e-7 ∧ (∀ i, 0 ≤ p i) ∧ (∀ i, 0 ≤ e i) ∧
    (∀ i, (ρ i i).re < 5e-7 → p i = 0) ∧ (∀ i, l i < 5e-7 → e i = 0) := by
  have h2 := (state_cast hx).2
  have hh := h2.psd.isHermitian
  rw [analyzePdf_ok hx] at hP
  obtain rfl := Except.ok.inj hP
  have hp' : ∀ i, p i = npRound 6 (ρ i i).re := fun i => by
    have := congrFun (List.ofFn_injective hp) i
    exact_mod_cast this.symm
  have he' : ∀ i, e i = npRound 6 (l i) := fun i => by
    have := congrFun (List.ofFn_injective he) i
    rw [isSpectrum_unique hh hl] at this
    exact_mod_cast this.symm
  have hn : ∀ t : ℝ, |npRound 6 t - t| ≤ 5e-7 := fun t => (npRound_near 6 t).trans (by norm_num)
  have hd0 : ∀ i, 0 ≤ (ρ i i).re := fun i => (Complex.le_def.1 (h2.psd.diag_nonneg (i := i))).1
  have hl0 : ∀ i, 0 ≤ l i := fun i => by
    rw [← isSpectrum_unique hh hl]
    exact eigvalsh_nonneg (by rw [lowerHerm_eq hh]; exact h2.psd) _
  have hr0 : ∀ t : ℝ, 0 ≤ t → 0 ≤ npRound 6 t := fun t ht => by
    unfold npRound
    have : (0 : ℝ) ≤ rint (t * 10 ^ (6 : ℤ)) := by exact_mod_cast rint_nonneg (by positivity)
    positivity
  have hz : ∀ t : ℝ, 0 ≤ t → t < 5e-7 → npRound 6 t = 0 := fun t h0 h => npRound_small 6 t (by
    rw [abs_of_nonneg h0]; norm_num at h ⊢; linarith)
  have hsum1 : ∑ i, (ρ i i).re = 1 := by
    have := congrArg Complex.re h2.trace_one
    rwa [trace, Complex.re_sum, Complex.one_re] at this
  have hdev : ∀ f : Fin d → ℝ, ∑ i, f i = 1 → |∑ i, npRound 6 (f i) - 1| ≤ d * 5e-7 := fun f hf => by
    rw [← hf, ← Finset.sum_sub_distrib]
    refine (Finset.abs_sum_le_sum_abs _ _).trans ((Finset.sum_le_sum fun i _ => hn (f i)).trans ?_)
    simp
  refine ⟨fun S => ?_, ?_, ?_, fun i => by rw [hp']; exact hr0 _ (hd0 i), fun i => by rw [he']; exact hr0 _ (hl0 i),
    fun i h => by rw [hp']; exact hz _ (hd0 i) h, fun i h => by rw [he']; exact hz _ (hl0 i) h⟩
  · have h1 := schur_majorize hh S
    rw [isSpectrum_unique hh hl] at h1
    have h3 : ∑ i ∈ S, p i ≤ ∑ i ∈ S, ((ρ i i).re + 5e-7) := Finset.sum_le_sum fun i _ => by
      rw [hp']; linarith [(abs_le.1 (hn (ρ i i).re)).2]
    have hcard : ∑ j : Fin d, (if (j : ℕ) < S.card then (5e-7 : ℝ) else 0) ≤ S.card * 5e-7 := by
      rw [← Finset.sum_filter, Finset.sum_const, nsmul_eq_mul]
      refine mul_le_mul_of_nonneg_right (Nat.cast_le.2 ?_) (by norm_num)
      have : ((Finset.univ.filter fun j : Fin d => (j : ℕ) < S.card).map Fin.valEmbedding) ⊆ Finset.range S.card := by
        intro k hk
        obtain ⟨j, hj, rfl⟩ := Finset.mem_map.1 hk
        exact Finset.mem_range.2 (Finset.mem_filter.1 hj).2
      have h := Finset.card_le_card this
      rwa [Finset.card_map, Finset.card_range] at h
    have h4 : ∑ j : Fin d, (if (j : ℕ) < S.card then l j else 0) ≤
        (∑ j : Fin d, if (j : ℕ) < S.card then e j else 0) + ∑ j : Fin d, (if (j : ℕ) < S.card then (5e-7 : ℝ) else 0) := by
      rw [← Finset.sum_add_distrib]
      refine Finset.sum_le_sum fun j _ => ?_
      split_ifs
      · rw [he']; linarith [(abs_le.1 (hn (l j))).1]
      · simp
    rw [Finset.sum_add_distrib, Finset.sum_const, nsmul_eq_mul] at h3
    linarith
  · simp only [hp']; exact hdev _ hsum1
  · simp only [he']
    refine hdev _ ?_
    rw [← isSpectrum_unique hh hl, sum_specDesc hh, hsum1]

/-- C97. Rejected arguments: TypeError if it is neither an array nor a list, ValueError if it is empty, otherwise
exactly the error of `cast_to_density_matrix`. -/
theorem C97_errors (name : Option String) (stem : Bool) :
    analyzePdf none name stem = .error .typeError ∧
    (∀ v, analyzePdf (some (.vec 0 v)) name stem = .error .valueError) ∧
    (∀ n A, analyzePdf (some (.mat 0 n A)) name stem = .error .valueError) ∧
    (∀ m A, analyzePdf (some (.mat m 0 A)) name stem = .error .valueError) ∧
    (∀ y err, Arr.size y ≠ 0 → castToDensityMatrix y = .error err → analyzePdf (some y) name stem = .error err) := by
  refine ⟨rfl, fun v => rfl, fun n A => ?_, fun m A => ?_, fun y err hy h => ?_⟩
  · unfold analyzePdf
    exact if_pos (Nat.zero_mul n)
  · unfold analyzePdf
    exact if_pos (Nat.mul_zero m)
  · unfold analyzePdf
    simp only [bind, Except.bind]
    rw [if_neg hy, h]

/-- Every density matrix has a spectrum; a pure state of two qubits meets the hypotheses. -/
example (hx : Spec.IsState x ρ) : ∃ l, Spec.IsSpectrum ρ l :=
  ⟨_, specDesc_isSpectrum (state_cast hx).2.psd.isHermitian⟩

example : Spec.IsState (.vec 4 ![3 / 5, 0, 0, 4 / 5]) (Spec.proj ![3 / 5, 0, 0, 4 / 5]) := by
  refine .inl ⟨_, ?_, rfl, rfl⟩
  simp [Spec.IsUnitVec, Fin.sum_univ_four]; norm_num

/-! ## C98 -/

variable {σ : Type} {n : ℕ}

theorem proj_zero_trace (A : Op (2 ^ n)) :
    (A * Spec.proj (zeroState (2 ^ n))).trace = A ⟨0, by positivity⟩ ⟨0, by positivity⟩ := by
  have e : ∀ i : Fin (2 ^ n), zeroState (2 ^ n) i = if i = ⟨0, by positivity⟩ then 1 else 0 := fun i => by
    rw [zeroState]; exact if_congr (by rw [Fin.ext_iff]) rfl rfl
  revert e
  generalize (⟨0, by positivity⟩ : Fin (2 ^ n)) = z
  intro e
  simp only [trace, diag_apply, mul_apply, Spec.proj, of_apply, e]
  rw [Finset.sum_eq_single z, Finset.sum_eq_single z]
  · simp
  · intro j _ hj; rw [if_neg hj]; ring
  · simp
  · intro i _ hi
    refine Finset.sum_eq_zero fun j _ => ?_
    rw [if_neg hi, star_zero]; ring
  · simp

theorem zeroState_flat : Spec.PauliFlat (Spec.proj (zeroState (2 ^ n))) := by
  intro w
  rw [proj_zero_trace, Spec.pauliString, of_apply]
  have h : ∀ k, Spec.pauli (w k) (Spec.digit 2 n ((⟨0, by positivity⟩ : Fin (2 ^ n)) : ℕ) k)
      (Spec.digit 2 n ((⟨0, by positivity⟩ : Fin (2 ^ n)) : ℕ) k) = 0 ∨
      Spec.pauli (w k) (Spec.digit 2 n ((⟨0, by positivity⟩ : Fin (2 ^ n)) : ℕ) k)
      (Spec.digit 2 n ((⟨0, by positivity⟩ : Fin (2 ^ n)) : ℕ) k) = 1 := by
    intro k
    have h0 : Spec.digit 2 n 0 k = 0 := by simp [Spec.digit]
    rw [h0]
    generalize w k = a
    fin_cases a <;> simp [Spec.pauli]
  by_cases hz : ∃ k, Spec.pauli (w k) (Spec.digit 2 n ((⟨0, by positivity⟩ : Fin (2 ^ n)) : ℕ) k)
      (Spec.digit 2 n ((⟨0, by positivity⟩ : Fin (2 ^ n)) : ℕ) k) = 0
  · obtain ⟨k, hk⟩ := hz
    exact .inl (Finset.prod_eq_zero (Finset.mem_univ k) hk)
  · exact .inr (.inl (Finset.prod_eq_one fun k _ => (h k).resolve_left fun h0 => hz ⟨k, h0⟩))

theorem stab_vec {ψ : Fin (2 ^ n) → ℂ} (h : Spec.IsStabilizerVec ψ) : Spec.IsUnitVec ψ ∧ Spec.PauliFlat (Spec.proj ψ) := by
  obtain ⟨V, ⟨hV, hc⟩, hψ⟩ := h
  have hV' : Vᴴ * V = 1 := mul_eq_one_comm.1 hV
  constructor
  · have := congrFun (congrFun hV' ⟨0, by positivity⟩) ⟨0, by positivity⟩
    rw [mul_apply, one_apply_eq] at this
    simp only [conjTranspose_apply, Complex.star_def, ← Complex.normSq_eq_conj_mul_self, Complex.normSq_eq_norm_sq] at this
    rw [Spec.IsUnitVec]
    simp only [hψ]
    exact_mod_cast this
  · have e : Spec.proj ψ = V * Spec.proj (zeroState (2 ^ n)) * Vᴴ := by
      have e0 : ∀ i : Fin (2 ^ n), zeroState (2 ^ n) i = if i = ⟨0, by positivity⟩ then 1 else 0 := fun i => by
        rw [zeroState]; exact if_congr (by rw [Fin.ext_iff]) rfl rfl
      revert e0 hψ
      generalize (⟨0, by positivity⟩ : Fin (2 ^ n)) = z
      intro hψ e0
      ext i j
      simp only [mul_apply, Spec.proj, of_apply, hψ, conjTranspose_apply, e0]
      rw [Finset.sum_eq_single z, Finset.sum_eq_single z]
      · simp
      · intro a _ ha; rw [if_neg ha]; ring
      · simp
      · intro a _ ha
        rw [Finset.sum_eq_zero fun b _ => ?_, zero_mul]
        rw [if_neg ha, star_zero]; ring
      · simp
    intro w
    rw [e]
    have e2 : (Spec.pauliString w * (V * Spec.proj (zeroState (2 ^ n)) * Vᴴ)).trace =
        (Vᴴ * Spec.pauliString w * V * Spec.proj (zeroState (2 ^ n))).trace := by
      rw [← mul_assoc, trace_mul_comm, ← mul_assoc, ← mul_assoc]
    rw [e2]
    obtain ⟨w', hw | hw⟩ := hc w
    · rw [hw]; exact zeroState_flat w'
    · rw [hw, neg_mul, trace_neg]
      rcases zeroState_flat w' with h | h | h <;> rw [h] <;> simp

/-- C98. For every `n >= 1` and every state of stim's generator the call returns a column of length `2^n` that is a unit
vector; its Pauli expectation values are all 0, 1 or -1 and exactly `2^n` of them are not 0 (the stabilizer group); its
stabilizer Rényi entropy is 0 at every order. -/
theorem C98_state {stim : Stim σ} (hst : Spec.StimOk stim) (hn : 1 ≤ n) (s : σ) :
    ∃ (ψ : Fin (2 ^ n) → ℂ) (s' : σ), (randomCHPState (some stim) (.int n)).exec s = (.ok ⟨n, ψ⟩, s') ∧
      Spec.IsUnitVec ψ ∧ Spec.PauliFlat (Spec.proj ψ) ∧
      {w : Fin n → Fin 4 | (Spec.pauliString w * Spec.proj ψ).trace ≠ 0}.ncard = 2 ^ n ∧
      ∀ o, OrderOk o → sre (.vec _ ψ) o = .ok 0 := by
  have h := stab_vec (hst n s hn)
  have hstate : Spec.IsState (.vec _ (stim.stateVector n s).1) (Spec.proj (stim.stateVector n s).1) :=
    .inl ⟨_, h.1, rfl, rfl⟩
  have hpure : Spec.Pure (Spec.proj (stim.stateVector n s).1) := ⟨_, h.1, rfl⟩
  have hcp : checkPositive (.int (n : ℤ)) = .ok n := by
    rw [checkPositive, if_neg (by omega), Int.toNat_natCast]
  have h2 := (state_cast hstate).2
  refine ⟨_, (stim.stateVector n s).2, ?_, h.1, h.2, ?_, fun o ho => ?_⟩
  · unfold randomCHPState
    simp only
    rw [exec_bind_ok (exec_noDraw_ok hcp s), exec_bind_ok (exec_draw _ _)]
    rfl
  · have hsq := pexp_parseval h2.psd.isHermitian
    rw [pure_purity hpure, mul_one] at hsq
    have hval : ∀ w, pexp (Spec.proj (stim.stateVector n s).1) w ^ 2 =
        if (Spec.pauliString w * Spec.proj (stim.stateVector n s).1).trace ≠ 0 then 1 else 0 := by
      intro w
      rw [pexp]
      rcases h.2 w with h | h | h <;> rw [h] <;> simp
    simp only [hval] at hsq
    rw [Finset.sum_boole] at hsq
    rw [Set.ncard_eq_toFinset_card', Set.toFinset_setOf]
    exact_mod_cast hsq
  · cases o with
    | num a => exact (C63_zero_iff hn hstate hpure a ho).2 h.2
    | inf => exact C63_inf hn hstate hpure

/-- C98. Without the package every call raises ImportError, before the argument is looked at; with it, an argument that
is not an integer raises TypeError, a non-positive integer ValueError, and nothing is drawn. -/
theorem C98_errors (stim : Stim σ) (m : PyObj) (s : σ) :
    (randomCHPState (σ := σ) none m).exec s = (.error .importError, s) ∧
    (randomCHPState (some stim) .other).exec s = (.error .typeError, s) ∧
    (∀ z : ℤ, z ≤ 0 → (randomCHPState (some stim) (.int z)).exec s = (.error .valueError, s)) := by
  refine ⟨rfl, rfl, fun z hz => ?_⟩
  have hcp : checkPositive (.int z) = .error .valueError := by rw [checkPositive, if_pos hz]
  unfold randomCHPState
  simp only
  rw [hcp]
  rfl

theorem one_clifford : Spec.IsClifford (1 : Op (2 ^ n)) :=
  ⟨by simp, fun w => ⟨w, .inl (by simp)⟩⟩

/-- The square root of the Pauli matrix X. -/
noncomputable def sqrtX : Op 2 := !![(1 + Complex.I) / 2, (1 - Complex.I) / 2; (1 - Complex.I) / 2, (1 + Complex.I) / 2]

theorem sqrtX_clifford : Spec.IsClifford (n := 1) sqrtX := by
  have hI : Complex.I * Complex.I = -1 := Complex.I_mul_I
  have hc : (sqrtX)ᴴ = !![(1 - Complex.I) / 2, (1 + Complex.I) / 2; (1 + Complex.I) / 2, (1 - Complex.I) / 2] := by
    ext i j
    fin_cases i <;> fin_cases j <;> simp [sqrtX, sub_eq_add_neg]
  have h1 : sqrtX * sqrtXᴴ = 1 := by
    rw [hc, sqrtX]
    ext i j
    fin_cases i <;> fin_cases j <;> simp [mul_apply, Fin.sum_univ_two] <;> ring_nf <;> simp [Complex.I_sq] <;> norm_num
  have key : ∀ a : Fin 4, ∃ b : Fin 4, sqrtXᴴ * Spec.pauli a * sqrtX = Spec.pauli b ∨
      sqrtXᴴ * Spec.pauli a * sqrtX = -Spec.pauli b := by
    rw [hc, sqrtX]
    intro a
    fin_cases a
    · refine ⟨0, .inl ?_⟩
      ext i j
      fin_cases i <;> fin_cases j <;> simp [Spec.pauli, mul_apply, Fin.sum_univ_two] <;> ring_nf <;> simp [Complex.I_sq] <;> norm_num
    · refine ⟨1, .inl ?_⟩
      ext i j
      fin_cases i <;> fin_cases j <;> simp [Spec.pauli, mul_apply, Fin.sum_univ_two] <;> ring_nf <;> simp [Complex.I_sq] <;> norm_num
    · refine ⟨3, .inr ?_⟩
      ext i j
      fin_cases i <;> fin_cases j <;> simp [Spec.pauli, mul_apply, Fin.sum_univ_two] <;> ring_nf <;> simp [Complex.I_sq] <;> norm_num
    · refine ⟨2, .inl ?_⟩
      ext i j
      fin_cases i <;> fin_cases j <;> simp [Spec.pauli, mul_apply, Fin.sum_univ_two] <;> ring_nf <;> simp [Complex.I_sq] <;> norm_num
  refine ⟨h1, fun w => ?_⟩
  obtain ⟨b, hb⟩ := key (w 0)
  refine ⟨fun _ => b, ?_⟩
  rw [pauliString_one, pauliString_one]
  exact hb

/-- A contract-abiding stim exists, and states that are not basis vectors are covered. -/
example : Spec.StimOk (σ := Unit) ⟨fun n s => (zeroState (2 ^ n), s)⟩ := fun n s _ =>
  ⟨1, one_clifford, fun i => by
    rw [one_apply]; exact if_congr (by rw [Fin.ext_iff]) rfl rfl⟩

example : Spec.IsStabilizerVec (n := 1) ![(1 + Complex.I) / 2, (1 - Complex.I) / 2] :=
  ⟨sqrtX, sqrtX_clifford, fun i => by
    change (![(1 + Complex.I) / 2, (1 - Complex.I) / 2] : Fin 2 → ℂ) i = sqrtX i 0
    revert i
    exact Fin.forall_fin_two.2 ⟨rfl, rfl⟩⟩

end FF.Props
