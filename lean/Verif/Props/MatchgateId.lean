import Verif.Proofs.MatchgatePf
import Verif.Props.PureGauss
import Verif.Props.FafMore
import Verif.Props.Wick

/-! # C123: anti-flatness and the matchgate identities -/

namespace FF.Props

open Matrix
open scoped ComplexOrder

section
variable {n : ℕ} {schurR : {m : ℕ} → RMat m → RMat m} {schurC : {m : ℕ} → Op m → Op m} {k : ℕ}

theorem amp_parity {ψ : Fin (2 ^ n) → ℂ} {e : ℂ} (h : Spec.parity n *ᵥ ψ = e • ψ) (b : Fin n → Fin 2)
    (hb : (-1 : ℂ) ^ (∑ k, (b k : ℕ)) ≠ e) : Spec.amp ψ b = 0 := by
  have h1 := congrFun h (bIdx b)
  rw [Spec.parity, mulVec_diagonal, (eq_bIdx _ _).1 rfl, Pi.smul_apply, smul_eq_mul] at h1
  rw [amp_eq]
  have h2 : ((-1 : ℂ) ^ (∑ k, (b k : ℕ)) - e) * ψ (bIdx b) = 0 := by linear_combination h1
  exact (mul_eq_zero.1 h2).resolve_left (sub_ne_zero.2 hb)

/-- C123. For a unit vector `ψ` on `n` sites, `FAF(ψ, k=1)` is twice the sum of the squared amounts by which
the matchgate identities fail in `ψ`, up to the `n * 1e-20` that the cutoff of the routine allows. -/
theorem C123_faf (hS : ∀ {m : ℕ} (A : RMat m), Aᵀ = -A → ∃ Z, Spec.IsRealSchur A (schurR A) Z)
    {ψ : Fin (2 ^ n) → ℂ} (hψ : Spec.IsUnitVec ψ) : ∃ v, faf schurR schurC (.vec (2 ^ n) ψ) 1 = .ok v ∧
      2 * ∑ b, ∑ c, ‖Spec.matchgateDefect ψ b c‖ ^ 2 ≤ v ∧
      v ≤ 2 * ∑ b, ∑ c, ‖Spec.matchgateDefect ψ b c‖ ^ 2 + n * 1e-20 := by
  have hg : jordanWignerMajoranas n = List.ofFn (gmaj n) := jordanWignerMajoranas_eq n
  obtain ⟨M, hM, hM', -⟩ := C67_covariance hg (.inl ⟨ψ, hψ, rfl, rfl⟩)
  obtain ⟨Z, hZ⟩ := hS M hM'
  have h := C67_formula (schurC := schurC) hg (.inl ⟨ψ, hψ, rfl, rfl⟩) hM hZ le_rfl
  rw [pow_one, pow_one] at h
  rw [defect_cov hψ (maj_facts hg).1 (maj_facts hg).2 hM]
  obtain ⟨v, h1, h2, h3⟩ := h
  exact ⟨v, h1, by linarith, by linarith⟩

/-- C123. The anti-flatness of a unit vector is 0 if and only if all matchgate identities hold. -/
theorem C123_iff (hS : ∀ {m : ℕ} (A : RMat m), Aᵀ = -A → ∃ Z, Spec.IsRealSchur A (schurR A) Z)
    {ψ : Fin (2 ^ n) → ℂ} (hψ : Spec.IsUnitVec ψ) (hk : 1 ≤ k) :
    faf schurR schurC (.vec (2 ^ n) ψ) k = .ok 0 ↔ ∀ b c, Spec.matchgateDefect ψ b c = 0 := by
  have hg : jordanWignerMajoranas n = List.ofFn (gmaj n) := jordanWignerMajoranas_eq n
  obtain ⟨M, hM, hM', -⟩ := C67_covariance hg (.inl ⟨ψ, hψ, rfl, rfl⟩)
  obtain ⟨Z, hZ⟩ := hS M hM'
  rw [C67_zero_iff hg (.inl ⟨ψ, hψ, rfl, rfl⟩) hM hZ hk, defect_zero hψ (maj_facts hg).1 (maj_facts hg).2 hM]

/-- C123. In a state of zero anti-flatness the amplitude of the basis vector with the sites `s_1 < ... < s_(2m+2)` filled,
times the `m`-th power of the vacuum amplitude, is `pf` of the array of the amplitudes of the pairs `s_a, s_b`. -/
theorem C123_pf (hS : ∀ {m : ℕ} (A : RMat m), Aᵀ = -A → ∃ Z, Spec.IsRealSchur A (schurR A) Z)
    {ψ : Fin (2 ^ n) → ℂ} (hψ : Spec.IsUnitVec ψ) (hk : 1 ≤ k) (h0 : faf schurR schurC (.vec (2 ^ n) ψ) k = .ok 0)
    {m : ℕ} (s : Fin (2 * m + 2) → Fin n) (hs : StrictMono s) :
    pf (Matrix.of fun a b => if a < b then Spec.amp ψ (Spec.occ ![s a, s b]) else
      if b < a then -Spec.amp ψ (Spec.occ ![s b, s a]) else 0) =
      .ok (Spec.amp ψ (Spec.occ s) * Spec.amp ψ (fun _ => 0) ^ m) := by
  rw [← amp_contract ((C123_iff hS hψ hk).1 h0) hs, ← C88_pf]
  rfl

/-- C123. With at most three sites every state of definite parity has zero anti-flatness. -/
theorem C123_small (hS : ∀ {m : ℕ} (A : RMat m), Aᵀ = -A → ∃ Z, Spec.IsRealSchur A (schurR A) Z)
    {ψ : Fin (2 ^ n) → ℂ} (hψ : Spec.IsUnitVec ψ) (hk : 1 ≤ k) (hn : n ≤ 3) {e : ℂ} (hp : Spec.parity n *ᵥ ψ = e • ψ) :
    faf schurR schurC (.vec (2 ^ n) ψ) k = .ok 0 :=
  (C123_iff hS hψ hk).2 fun b c => defect_small hn (amp_parity hp) b c

/-- C123. With four sites this is false: `(3|0000> + 4|1111>)/5` is even and has anti-flatness different from 0. -/
theorem C123_four (hS : ∀ {m : ℕ} (A : RMat m), Aᵀ = -A → ∃ Z, Spec.IsRealSchur A (schurR A) Z) (hk : 1 ≤ k) :
    let ψ : Fin (2 ^ 4) → ℂ := (3 / 5 : ℂ) • Spec.fock (fun _ => 0) + (4 / 5 : ℂ) • Spec.fock (fun _ => 1)
    Spec.IsUnitVec ψ ∧ Spec.parity 4 *ᵥ ψ = (1 : ℂ) • ψ ∧ faf schurR schurC (.vec (2 ^ 4) ψ) k ≠ .ok 0 := by
  intro ψ
  have ha : ∀ b : Fin 4 → Fin 2, Spec.amp ψ b = if b = (fun _ => 0) then 3 / 5 else if b = (fun _ => 1) then 4 / 5 else 0 := by
    intro b
    have h : ∀ c : Fin 4 → Fin 2, Spec.fock c (bIdx b) = if b = c then 1 else 0 := by
      intro c
      rw [fock_eq, Pi.single_apply]
      congr 1
      rw [eq_bIdx, (eq_bIdx _ _).1 rfl]
    have h01 : (fun _ : Fin 4 => (1 : Fin 2)) ≠ fun _ => 0 := fun h => by simpa using congrFun h 0
    rw [amp_eq]
    simp only [ψ, Pi.add_apply, Pi.smul_apply, smul_eq_mul, h]
    by_cases h1 : b = fun _ => 0
    · rw [h1, if_pos rfl, if_neg h01.symm, if_pos rfl]; ring
    · rw [if_neg h1, if_neg h1]
      split_ifs <;> ring
  have hu : Spec.IsUnitVec ψ := by
    rw [Spec.IsUnitVec, ← sum_occ]
    simp only [← amp_eq, ha]
    rw [Finset.sum_eq_add (fun _ => 0) (fun _ => 1)]
    · have h01 : (fun _ : Fin 4 => (1 : Fin 2)) ≠ fun _ => 0 := fun h => by simpa using congrFun h 0
      rw [if_pos rfl, if_neg h01, if_pos rfl]
      norm_num
    · exact fun h => by simpa using congrFun h 0
    · intro c _ hc
      rw [if_neg hc.1, if_neg hc.2]; simp
    · exact fun h => absurd (Finset.mem_univ _) h
    · exact fun h => absurd (Finset.mem_univ _) h
  refine ⟨hu, ?_, fun h0 => ?_⟩
  · simp only [ψ]
    rw [mulVec_add, mulVec_smul, mulVec_smul, parity_fock, parity_fock]
    have h4 : (-1 : ℂ) ^ 4 = 1 := by norm_num
    simp [h4]
  · have h := defect_occ ψ (s := (id : Fin (2 + 2) → Fin 4)) strictMono_id
    rw [(C123_iff hS hu hk).1 h0] at h
    have hfull : Spec.occ (id : Fin (2 + 2) → Fin 4) = fun _ => 1 := by funext i; simp [Spec.occ]
    have hp : ∀ p : Fin 3, Spec.amp ψ (Spec.occ ![id (0 : Fin 4), id p.succ]) = 0 := by
      intro p
      rw [ha, if_neg, if_neg]
      · intro h
        have : ∀ p : Fin 3, ∃ i : Fin 4, i ≠ 0 ∧ i ≠ p.succ := by decide
        obtain ⟨i, h1, h2⟩ := this p
        have h3 := (occ_apply _ _).1 (congrFun h i)
        rw [Fin.exists_fin_two] at h3
        rcases h3 with h3 | h3
        · exact h1 h3.symm
        · exact h2 h3.symm
      · intro h
        have h3 := congrFun h 0
        have h4 : Spec.occ ![id (0 : Fin 4), id p.succ] 0 = 1 := (occ_apply _ _).2 ⟨0, rfl⟩
        rw [h4] at h3
        exact absurd h3 (by decide)
    have h01 : (fun _ : Fin 4 => (1 : Fin 2)) ≠ fun _ => 0 := fun h => by simpa using congrFun h 0
    rw [hfull, ha, ha, if_neg h01, if_pos rfl, if_pos rfl] at h
    simp only [hp, mul_zero, zero_mul, Finset.sum_const_zero] at h
    norm_num at h

/-- The hypotheses on `schur` can be met, and so can the others: with two sites the state `(3|00> + 4|11>)/5` is even. -/
example : (∃ schurR : {m : ℕ} → RMat m → RMat m, ∀ {m : ℕ} (A : RMat m), Aᵀ = -A → ∃ Z, Spec.IsRealSchur A (schurR A) Z) ∧
    ∃ ψ : Fin (2 ^ 2) → ℂ, Spec.IsUnitVec ψ ∧ Spec.parity 2 *ᵥ ψ = (1 : ℂ) • ψ ∧ ψ 0 ≠ 0 ∧ ψ 3 ≠ 0 := by
  refine ⟨schur_routine, (3 / 5 : ℂ) • Spec.fock (fun _ => 0) + (4 / 5 : ℂ) • Spec.fock (fun _ => 1), ?_, ?_, ?_, ?_⟩
  · rw [Spec.IsUnitVec]
    refine (Fin.sum_univ_four _).trans ?_
    simp [Spec.fock, Spec.basisIndex]
    norm_num
  · rw [mulVec_add, mulVec_smul, mulVec_smul, parity_fock, parity_fock]
    simp
  · simp [Spec.fock, Spec.basisIndex]
  · simp [Spec.fock, Spec.basisIndex]

end

section
variable {σ : Type} (rng : Rng σ) (logm : (d : ℕ) → Op d → Op d) {n : ℕ}

theorem defect_modes {ψ : Fin (2 ^ n) → ℂ} (h : HasModes (Spec.proj ψ) ∧ Spec.IsUnitVec ψ) (b c : Fin n → Fin 2) :
    Spec.matchgateDefect ψ b c = 0 := by
  obtain ⟨schurR, hS⟩ := schur_routine
  have hg : jordanWignerMajoranas n = List.ofFn (gmaj n) := jordanWignerMajoranas_eq n
  obtain ⟨M, hM, hM', -⟩ := C67_covariance hg (.inl ⟨ψ, h.2, rfl, rfl⟩)
  obtain ⟨Z, hZ⟩ := hS M hM'
  exact (C123_iff (schurC := fun A => A) hS h.2 le_rfl).1 (faf_modes h hg hM hZ le_rfl) b c

/-- C123. All matchgate identities hold for the states `random_FF_state(pure=True)` returns. -/
theorem C123_random_pure (hd : Spec.DrawsOk rng) (hl : Spec.LogmOk logm) (hn : 1 ≤ n) (returnH : Bool)
    (seed : Option ℤ) (s s0 s' : σ) (h : Spec.StartState rng seed s s0) (ψ : Fin (2 ^ n) → ℂ) (G : Option (Op (2 ^ n)))
    (hrun : (randomFFStatePure rng logm n seed returnH).exec s = (.ok (ψ, G), s')) (b c : Fin n → Fin 2) :
    Spec.matchgateDefect ψ b c = 0 :=
  defect_modes (modes_random_pure rng logm hd hl hn returnH seed s s0 s' h ψ G hrun) b c

/-- C123. All matchgate identities hold for the states `random_FF_pure_state_W0` returns. -/
theorem C123_W0 (hd : Spec.DrawsOk rng) (hl : Spec.LogmOk logm) (hn : 1 ≤ n)
    (seed : Option ℤ) (s s0 s' : σ) (h : Spec.StartState rng seed s s0) (ψ : Fin (2 ^ n) → ℂ)
    (hrun : (randomFFPureStateW0 rng logm (.int n) seed).exec s = (.ok ⟨n, ψ⟩, s')) (b c : Fin n → Fin 2) :
    Spec.matchgateDefect ψ b c = 0 :=
  defect_modes (modes_W0 rng logm hd hl hn seed s s0 s' h ψ hrun) b c

/-- C123. All matchgate identities hold for the states `random_FF_pure_state_WN` returns, for every particle number. -/
theorem C123_WN (hd : Spec.DrawsOk rng) (hl : Spec.LogmOk logm) (hn : 1 ≤ n) (N : ℕ) (hN : N ≤ n)
    (seed : Option ℤ) (s s0 s1 s' : σ) (h : Spec.StartState rng seed s s0)
    (h1 : Spec.StartState rng (nextSeed seed) s0 s1) (ψ : Fin (2 ^ n) → ℂ)
    (hrun : (randomFFPureStateWN rng logm (.int n) (some (.int N)) seed).exec s = (.ok ⟨n, ψ⟩, s')) (b c : Fin n → Fin 2) :
    Spec.matchgateDefect ψ b c = 0 :=
  defect_modes (modes_WN rng logm hd hl hn N hN seed s s0 s1 s' h h1 ψ hrun) b c

/-- A run that meets the hypotheses: the generator that always draws the identity, with two sites. -/
example : ∃ (rng : Rng ℕ) (logm : (d : ℕ) → Op d → Op d) (ψ : Fin (2 ^ 2) → ℂ) (s' : ℕ), Spec.DrawsOk rng ∧
    Spec.LogmOk logm ∧ Spec.StartState rng (some 5) 0 5 ∧
    (randomFFPureStateW0 rng logm (.int 2) (some 5)).exec 0 = (.ok ⟨2, ψ⟩, s') := by
  obtain ⟨logm, hl⟩ := logm_exists
  have hd : Spec.DrawsOk (demoRng fun _ _ => 1) := demo_ok (by simp) (by simp)
  have hs : Spec.StartState (demoRng fun _ _ => 1) (some 5) 0 5 := Or.inr ⟨5, by norm_num, rfl, rfl⟩
  obtain ⟨W, s', -, h2, h3, -⟩ := C85_W0 _ logm hd hl 2 (by norm_num) (some 5) 0 5 hs
  exact ⟨_, logm, _, s', hd, hl, hs, h2⟩

end

end FF.Props
