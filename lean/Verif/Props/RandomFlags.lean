import Verif.Props.RandomStates

/-! # Property C158: the flag `fixedN` of `random_FF_state`. Conventions as in `Props/Random.lean`. -/

namespace FF.Props

open Matrix
open scoped ComplexConjugate ComplexOrder

/-- C158. With `pure=True` the flag changes nothing: the same draws give the same outcome with and without it. -/
theorem C158_pure_ignores {σ : Type} (rng : Rng σ) (logm : (d : ℕ) → Op d → Op d) (n : ℕ) (seed : Option ℤ) (returnH : Bool) :
    randomFFState rng logm n true seed returnH true = randomFFState rng logm n false seed returnH true := by
  simp only [randomFFState, if_true]

/-- C158. With `fixedN=True` and `pure=False` the generator and the state commute with the particle number, whatever
the draws. -/
theorem C158_mixed_partial {σ : Type} (rng : Rng σ) (logm : (d : ℕ) → Op d → Op d) (hd : Spec.DrawsOk rng) (n : ℕ) (hn : 1 ≤ n)
    (seed : Option ℤ) (s s0 : σ) (h : Spec.StartState rng seed s s0) (a : Fin n → Op (2 ^ n))
    (ha : jordanWignerLowering n = List.ofFn a) :
    ∃ (ρ G : Op (2 ^ n)) (s' : σ),
      (randomFFState rng logm n true seed true false).exec s = (.ok (.mixed ρ (some G)), s') ∧
      (randomFFState rng logm n true seed false false).exec s = (.ok (.mixed ρ none), s') ∧
      ρ.PosDef ∧ ρ.trace = 1 ∧
      G * (∑ i, (a i)ᴴ * a i) = (∑ i, (a i)ᴴ * a i) * G ∧ ρ * (∑ i, (a i)ᴴ * a i) = (∑ i, (a i)ᴴ * a i) * ρ := by
  obtain ⟨A, B, s1, he, hA, hB, hN⟩ := exec_genH rng (fixedN := true) (n := n) (starts_again rng h)
  have hB0 := hN rfl
  subst hB0
  obtain ⟨G, hG, hGc⟩ := C35_number n hn A a ha
  have hGh : G.IsHermitian := by
    rw [jordanWignerAlphas_eq, buildOp_square _ _ hn] at hG
    rw [← Except.ok.inj hG]
    apply quad_herm
    rw [show buildH n A none = buildH n A (some 0) from rfl]
    exact drop_herm (buildH_herm A 0 hA (by simp)) _
  have hG' : buildOp n (buildH n A (some 0)) (jordanWignerAlphas n) false = .ok G := hG
  have hb := gibbs_beta (d := 2 ^ n) (by positivity) hGh (rng.exponential s1).1
  have hrun : ∀ r, (randomFFStateMixed rng logm n true seed r).exec s =
      (.ok ((npTrace (expm ((-((rng.exponential s1).1 : ℂ)) • G)))⁻¹ • expm ((-((rng.exponential s1).1 : ℂ)) • G),
        if r then some G else none), (rng.exponential s1).2) := by
    intro r
    rw [randomFFStateMixed, exec_bind_ok (exec_seed rng h)]
    simp only [if_true]
    rw [exec_bind_ok he, exec_bind_ok (exec_noDraw_ok hG' _), exec_bind_ok (exec_draw _ _)]
    cases r <;> rfl
  refine ⟨_, G, (rng.exponential s1).2, ?_, ?_, hb.1, hb.2, hGc, ?_⟩
  · rw [randomFFState, if_neg (by simp), exec_bind_ok (hrun true)]
    rfl
  · rw [randomFFState, if_neg (by simp), exec_bind_ok (hrun false)]
    rfl
  · rw [Matrix.smul_mul, Matrix.mul_smul]
    congr 1
    apply expm_comm
    rw [Matrix.smul_mul, Matrix.mul_smul, hGc]

/-- C158 is false for `random_FF_state(2, fixedN=True, pure=True, returnH=True)`: for some draws, with every seed and
without one, the returned generator does not commute with the particle number, and the returned state is not a
multiple of the vacuum, although a generator that commutes with the particle number leaves the vacuum in place. -/
theorem C158_violation (logm : (d : ℕ) → Op d → Op d) (hl : Spec.LogmOk logm) (a : Fin 2 → Op (2 ^ 2))
    (ha : jordanWignerLowering 2 = List.ofFn a) :
    ∃ rng : Rng ℕ, Spec.DrawsOk rng ∧ ∀ (seed : Option ℤ) (s s0 : ℕ), Spec.StartState rng seed s s0 →
      ∃ (ψ : Fin (2 ^ 2) → ℂ) (G : Op (2 ^ 2)) (s' : ℕ),
        (randomFFState rng logm 2 true seed true true).exec s = (.ok (.pure ψ (some G)), s') ∧
        G * (∑ i, (a i)ᴴ * a i) ≠ (∑ i, (a i)ᴴ * a i) * G ∧ ∀ c : ℂ, ψ ≠ c • Spec.fock (fun _ : Fin 2 => 0) := by
  obtain ⟨O, hO, hdet, horb⟩ := pairRot_real
  set D : (m : ℕ) → ℕ → RMat m := fun m _ => if h : m = 2 + 2 then h ▸ O else 1 with hD
  have hDO : ∀ s, D (2 + 2) s = O := by intro s; simp [hD]
  have hd : Spec.DrawsOk (demoRng D) := by
    apply demo_ok
    · intro m s
      simp only [hD]
      split_ifs with h
      · subst h; exact hO
      · simp
    · intro m s
      simp only [hD]
      split_ifs with h
      · subst h; exact hdet
      · simp
  refine ⟨demoRng D, hd, fun seed s s0 h => ?_⟩
  have hst := starts_again (demoRng D) h
  have hW := exec_rot (demoRng D) hd logm (n := 2) (by norm_num) hst
  have hst' : ∃ t, Spec.StartState (demoRng D) seed ((demoRng D).orthogonal (2 + 2) s0).2 t := by
    rcases h with ⟨h1, -⟩ | ⟨k, hk, hs, -⟩
    · exact ⟨_, Or.inl ⟨h1, rfl⟩⟩
    · exact ⟨_, Or.inr ⟨k, hk, hs, rfl⟩⟩
  obtain ⟨t, ht⟩ := hst'
  have hG := exec_rotH (demoRng D) hd logm (n := 2) (by norm_num) ht
  rw [show ((demoRng D).orthogonal (2 + 2) s0).1 = O from hDO s0, horb,
    log_unique pairRot_unitary (hl _ _ pairRot_unitary) pairRot_log] at hW
  rw [show ((demoRng D).orthogonal (2 + 2) t).1 = O from hDO t, horb,
    log_unique pairRot_unitary (hl _ _ pairRot_unitary) pairRot_log] at hG
  obtain ⟨-, hex, -⟩ := exec_pureState (demoRng D) logm hd hl (n := 2) (by norm_num) h hW
  have hrun := hex hG
  obtain rfl : a = fun i : Fin 2 => jwLower 2 i := by
    rw [jordanWignerLowering_eq] at ha
    exact (List.ofFn_injective ha).symm
  have hvac : ∀ i : Fin 2, jwLower 2 i *ᵥ Spec.fock (fun _ : Fin 2 => (0 : Fin 2)) = 0 := by
    intro i
    have := jwLower_fock i (fun _ => 0)
    simpa using this
  refine ⟨_, _, _, by rw [randomFFState, if_pos rfl, exec_bind_ok hrun]; rfl, ?_, ?_⟩
  · intro hc
    have hc' : pairGen * (∑ i : Fin 2, (jwLower 2 i)ᴴ * jwLower 2 i) =
      (∑ i : Fin 2, (jwLower 2 i)ᴴ * jwLower 2 i) * pairGen := hc
    have h1 : expm ((-Complex.I) • pairGen) * (∑ i : Fin 2, (jwLower 2 i)ᴴ * jwLower 2 i) =
        (∑ i : Fin 2, (jwLower 2 i)ᴴ * jwLower 2 i) * expm ((-Complex.I) • pairGen) := by
      apply expm_comm
      rw [Matrix.smul_mul, Matrix.mul_smul, hc']
    set v := expm ((-Complex.I) • pairGen) *ᵥ Spec.fock (fun _ : Fin 2 => (0 : Fin 2)) with hv
    have h2 : (∑ i : Fin 2, (jwLower 2 i)ᴴ * jwLower 2 i) *ᵥ v = 0 := by
      rw [hv, mulVec_mulVec, ← h1, ← mulVec_mulVec, Matrix.sum_mulVec]
      simp only [← mulVec_mulVec, hvac, mulVec_zero, Finset.sum_const_zero]
    have h3 : ∑ i : Fin 2, star (jwLower 2 i *ᵥ v) ⬝ᵥ (jwLower 2 i *ᵥ v) = 0 := by
      have h4 := congrArg (fun w => star v ⬝ᵥ w) h2
      simp only [Matrix.sum_mulVec, dotProduct_sum, dotProduct_zero, ← mulVec_mulVec] at h4
      rw [← h4]
      apply Finset.sum_congr rfl
      intro i _
      rw [star_mulVec, ← dotProduct_mulVec]
    have h5 := (Finset.sum_eq_zero_iff_of_nonneg fun (i : Fin 2) _ => dotProduct_star_self_nonneg (jwLower 2 i *ᵥ v)).1 h3 0
      (Finset.mem_univ _)
    exact pairGen_vacuum (dotProduct_star_self_eq_zero.1 h5)
  · intro c hc
    apply pairGen_vacuum
    have hc' : expm ((-Complex.I) • pairGen) *ᵥ zeroState (2 ^ 2) = c • Spec.fock (fun _ : Fin 2 => 0) := hc
    rw [fock_zero] at hc'
    rw [hc', mulVec_smul, show jwLower 2 0 *ᵥ Spec.fock (fun _ : Fin 2 => 0) = 0 from hvac 0, smul_zero]

/-- The hypotheses of C158 are met. -/
example : ∃ (rng : Rng ℕ) (a : Fin 2 → Op (2 ^ 2)), Spec.DrawsOk rng ∧ Spec.StartState rng (some 5) 0 (rng.seeded 5) ∧
    jordanWignerLowering 2 = List.ofFn a :=
  ⟨demoRng fun _ _ => 1, _, demo_ok (by simp) (by simp), Or.inr ⟨5, by norm_num, rfl, rfl⟩, jordanWignerLowering_eq 2⟩

end FF.Props
