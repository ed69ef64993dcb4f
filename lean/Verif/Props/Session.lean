import Verif.Proofs.Session
import Verif.Props.RandomStates
import Verif.Props.GraphMisc

/-! # C134: sequences of calls that draw random numbers -/

namespace FF.Props

open Spec Matrix

section
variable {σ τ : Type} (x : Externals σ τ)

theorem ownSeed_repro {c : NpCall σ} (h : seedOf c ≠ none) : Spec.Reproducible (c.code x) := by
  have R := fun n m N f r k => C53_reproducible x.rng x.logm n m N f r k
  cases c with
  | rotationOrb n seed => obtain ⟨k, rfl⟩ := Option.ne_none_iff_exists'.1 h; exact (R n .other none false false k).1
  | rotationH n seed => obtain ⟨k, rfl⟩ := Option.ne_none_iff_exists'.1 h; exact (R n .other none false false k).2.1
  | rotation n seed => obtain ⟨k, rfl⟩ := Option.ne_none_iff_exists'.1 h; exact (R n .other none false false k).2.2.1
  | generator n f seed => obtain ⟨k, rfl⟩ := Option.ne_none_iff_exists'.1 h; exact (R n .other none f false k).2.2.2.1
  | statePure n seed r => obtain ⟨k, rfl⟩ := Option.ne_none_iff_exists'.1 h; exact (R n .other none false r k).2.2.2.2.1
  | stateMixed n f seed r => obtain ⟨k, rfl⟩ := Option.ne_none_iff_exists'.1 h; exact (R n .other none f r k).2.2.2.2.2.1
  | qubit n seed => obtain ⟨k, rfl⟩ := Option.ne_none_iff_exists'.1 h; exact (R 0 n none false false k).2.2.2.2.2.2.1
  | qubitPure n seed => obtain ⟨k, rfl⟩ := Option.ne_none_iff_exists'.1 h; exact (R 0 n none false false k).2.2.2.2.2.2.2.1
  | randH n seed => obtain ⟨k, rfl⟩ := Option.ne_none_iff_exists'.1 h; exact (R 0 n none false false k).2.2.2.2.2.2.2.2.1
  | rotPDF n seed => obtain ⟨k, rfl⟩ := Option.ne_none_iff_exists'.1 h; exact (R 0 n none false false k).2.2.2.2.2.2.2.2.2.1
  | pureW0 n seed => obtain ⟨k, rfl⟩ := Option.ne_none_iff_exists'.1 h; exact (R 0 n none false false k).2.2.2.2.2.2.2.2.2.2.1
  | pureWN n N seed => obtain ⟨k, rfl⟩ := Option.ne_none_iff_exists'.1 h; exact (R 0 n N false false k).2.2.2.2.2.2.2.2.2.2.2.1
  | pureCN n seed => obtain ⟨k, rfl⟩ := Option.ne_none_iff_exists'.1 h; exact (R 0 n none false false k).2.2.2.2.2.2.2.2.2.2.2.2
  | bitstring n k => exact absurd rfl h
  | user f => exact absurd rfl h

/-- C134. Replay: if every call of a session has a seed of its own or comes after a call that set the generator it uses, then the outcomes
of all calls, exceptions included, are the same whatever the generators did before. -/
theorem C134_replay (cs : List (RandomCall σ)) (h : Replayable cs) (s s' : Gens σ τ) : (session x cs s).1 = (session x cs s').1 := by
  induction cs using List.reverseRecOn with
  | nil => rfl
  | append_singleton cs c ih =>
    have ih' := ih fun b d a e => h b d (a ++ [c]) (by rw [e]; simp)
    suffices e : (c.exec x (session x cs s).2).1 = (c.exec x (session x cs s').2).1 by
      rw [session_snoc, session_snoc, ih', e]
    rcases h cs c [] rfl with h1 | ⟨d, hd, hf⟩
    · cases c with
      | np c => exact ownSeed_repro x h1 _ _
      | planar n seed =>
        obtain ⟨k, rfl, hk⟩ := h1
        simp only [RandomCall.exec]
        rw [planar_forget x n hk]
    · cases c with
      | np c =>
        cases d with
        | planar n seed => exact hf.elim
        | np d =>
          simp only [RandomCall.exec]
          rw [np_agree x cs s s' ⟨d, hd, hf⟩]
      | planar n seed =>
        cases d with
        | np d => exact hf.elim
        | planar m seed' =>
          obtain ⟨k, rfl, hk⟩ := hf
          simp only [RandomCall.exec]
          rw [py_agree x cs s s' ⟨m, k, hd, hk⟩]

/-- A session that starts with `random_FF_state(3, seed=7)` and goes on without seeds is replayable. -/
example : Replayable (σ := ℕ) [.np (.stateMixed 3 false (some 7) false), .np (.qubit (.int 2) none), .np (.bitstring 5 2)] := by
  intro b c a e
  match b with
  | [] =>
    obtain ⟨rfl, -⟩ := List.cons.inj (show _ :: _ = c :: a from e)
    exact Or.inl (by simp [OwnSeed, seedOf])
  | d :: b =>
    obtain ⟨rfl, e'⟩ := List.cons.inj e
    refine Or.inr ⟨_, List.mem_cons_self, ?_⟩
    have hc : c ∈ [RandomCall.np (.qubit (.int 2) none), .np (.bitstring 5 2)] := e' ▸ by simp
    have hs : SetsNp (σ := ℕ) (.stateMixed 3 false (some 7) false) := ⟨trivial, 7, by norm_num, by norm_num, rfl⟩
    rcases List.mem_cons.1 hc with rfl | hc
    · exact hs
    · obtain rfl := List.mem_singleton.1 hc
      exact hs

/-- C134. Without the condition this fails: a session whose first call has no seed, or a seed that is not reached because an argument is
rejected first, depends on what came before. -/
theorem C134_replay_needed (prng : GraphRng ℕ) (nx : Nx) : ∃ (x : Externals ℕ ℕ) (s s' : Gens ℕ ℕ), x.prng = prng ∧ x.nx = nx ∧
    (session x [.np (.qubit (.int 0) (some 7)), .np (.user fun s => ((s : ℝ), s))] s).1 ≠
      (session x [.np (.qubit (.int 0) (some 7)), .np (.user fun s => ((s : ℝ), s))] s').1 := by
  refine ⟨⟨demoRng fun _ _ => 1, fun _ _ => 0, fun _ _ s => ([], s), prng, nx⟩, ⟨0, 0⟩, ⟨1, 0⟩, rfl, rfl, fun h => ?_⟩
  have h' := (List.cons.inj h).2
  simp only [session, RandomCall.exec, NpCall.code] at h'
  have h2 := (List.cons.inj h').1
  have h3 := eq_of_heq (Sigma.mk.inj h2).2
  have h4 := Except.ok.inj h3
  revert h4
  change ((0 : ℕ) : ℝ) ≠ ((1 : ℕ) : ℝ)
  norm_num

theorem isNp_np (c : NpCall σ) : isNp (.np c) = true := rfl
theorem isNp_planar (n : ℤ) (seed : Option ℤ) : isNp (.planar n seed : RandomCall σ) = false := rfl

/-- C134. The two generators do not interfere: the outcomes of the calls that use numpy's generator are those of the session from which all
calls of `generate_random_planar_graph` are removed, and vice versa. -/
theorem C134_separate (cs : List (RandomCall σ)) (s : Gens σ τ) :
    (session x cs s).1.filter (fun r => isNp r.1) = (session x (cs.filter isNp) s).1 ∧
    (session x cs s).1.filter (fun r => !isNp r.1) = (session x (cs.filter fun c => !isNp c) s).1 := by
  have key1 : ∀ (cs : List (RandomCall σ)) (s : Gens σ τ) (b : τ),
      (session x cs s).1.filter (fun r => isNp r.1) = (session x (cs.filter isNp) ⟨s.np, b⟩).1 := by
    intro cs
    induction cs with
    | nil => intros; rfl
    | cons c cs ih =>
      intro s b
      cases c with
      | np c =>
        simp only [session, List.filter_cons, isNp_np, isNp_planar, if_true]
        rw [ih _ b]
        rfl
      | planar n seed =>
        simp only [session, List.filter_cons, isNp_np, isNp_planar, Bool.false_eq_true, if_false]
        rw [ih _ b]
        rfl
  have key2 : ∀ (cs : List (RandomCall σ)) (s : Gens σ τ) (b : σ),
      (session x cs s).1.filter (fun r => !isNp r.1) = (session x (cs.filter fun c => !isNp c) ⟨b, s.py⟩).1 := by
    intro cs
    induction cs with
    | nil => intros; rfl
    | cons c cs ih =>
      intro s b
      cases c with
      | planar n seed =>
        simp only [session, List.filter_cons, isNp_np, isNp_planar, Bool.not_false, if_true]
        rw [ih _ b]
        rfl
      | np c =>
        simp only [session, List.filter_cons, isNp_np, isNp_planar, Bool.not_true, Bool.false_eq_true, if_false]
        rw [ih _ b]
        rfl
  exact ⟨key1 cs s s.py, key2 cs s s.np⟩

/-- C134 is false for calls without a seed: they do not draw anew after a call with a seed, which sets the generator that they all share.
Whenever the same seeded call is made before the same unseeded call, the latter returns the same value; this holds for draws of the
caller's own code too. -/
theorem C134_repeats (c d : NpCall σ) (hc : SetsNp c) (between : List (RandomCall σ)) (s : Gens σ τ) :
    ∃ r1 r2 rs, (session x ([.np c, .np d] ++ between ++ [.np c, .np d]) s).1 = [⟨.np c, r1⟩, ⟨.np d, r2⟩] ++ rs ++ [⟨.np c, r1⟩, ⟨.np d, r2⟩] := by
  have h2 : ∀ t : Gens σ τ, (session x [.np c, .np d] t).1 = (session x [.np c, .np d] s).1 := fun t => by
    simp only [session, RandomCall.exec]
    rw [setsNp_forget x hc t.np s.np]
  rw [session_append, session_append]
  simp only
  rw [h2 (session x between _).2]
  exact ⟨_, _, (session x between (session x [.np c, .np d] s).2).1, rfl⟩

/-- For instance the caller's own noise is the same in both rounds. -/
example : SetsNp (σ := ℕ) (.pureWN (.int 3) (some (.int 2)) (some 42)) :=
  ⟨⟨3, by norm_num, rfl, Or.inr ⟨2, by norm_num, by norm_num, rfl⟩⟩, 42, by norm_num, by norm_num, rfl⟩

end

section
variable {σ : Type} (rng : Rng σ) (logm : (d : ℕ) → Op d → Op d)

/-- C134 is false for different functions and seeds: `random_FF_state(n, seed=k, pure=True)`, `random_FF_pure_state_W0(n, seed=k)` and
`random_FF_pure_state_WN(n, N=0, seed=k-1)` are the same vector. -/
theorem C134_same_state (hd : Spec.DrawsOk rng) (hl : Spec.LogmOk logm) (n : ℕ) (hn : 1 ≤ n) (k : ℕ) (hk : k + 1 < 2 ^ 32) (s s' s'' : σ) :
    ∃ ψ : Fin (2 ^ n) → ℂ,
      ((randomFFPureStateWN rng logm (.int n) (some (.int 0)) (some (k : ℤ))).exec s).1 = .ok ⟨n, ψ⟩ ∧
      ((randomFFPureStateW0 rng logm (.int n) (some ((k : ℤ) + 1))).exec s').1 = .ok ⟨n, ψ⟩ ∧
      ((randomFFStatePure rng logm n (some ((k : ℤ) + 1)) false).exec s'').1 = .ok (ψ, none) := by
  have st : ∀ s : σ, Spec.StartState rng (some ((k : ℤ) + 1)) s (rng.seeded (k + 1)) := fun s =>
    Or.inr ⟨k + 1, hk, by push_cast; rfl, rfl⟩
  have st0 : Spec.StartState rng (some (k : ℤ)) s (rng.seeded k) := Or.inr ⟨k, by omega, rfl, rfl⟩
  obtain ⟨W, t, hW, h1, -, -⟩ := C57_state rng logm hd hl n 0 hn (Nat.zero_le n) (some (k : ℤ)) s _ _ st0 (st _)
  obtain ⟨W', t', hW', h2, -, -⟩ := C85_W0 rng logm hd hl n hn (some ((k : ℤ) + 1)) s' _ (st _)
  obtain ⟨W'', hW''⟩ : ∃ W'', (randomFFRotation rng logm n (some ((k : ℤ) + 1))).exec (rng.seeded (k + 1)) = (.ok W'', t') := by
    refine ⟨W', ?_⟩
    rw [exec_rot rng hd logm hn (st _)] at hW' ⊢
    exact hW'
  have h3 := (exec_pureState rng logm hd hl hn (st s'') hW'').2.2
  have e1 : W' = W := by
    rw [show nextSeed (some (k : ℤ)) = some ((k : ℤ) + 1) from rfl, exec_rot rng hd logm hn (st _)] at hW
    rw [exec_rot rng hd logm hn (st _)] at hW'
    exact Except.ok.inj (Prod.mk.inj (hW'.symm.trans hW)).1
  have e2 : W'' = W' := by
    rw [exec_rot rng hd logm hn (st _)] at hW' hW''
    exact Except.ok.inj (Prod.mk.inj (hW''.symm.trans hW')).1
  subst e1 e2
  refine ⟨W'' *ᵥ Spec.fock fun _ : Fin n => 0, ?_, ?_, ?_⟩
  · have := congrArg Prod.fst h1
    simpa using this
  · rw [h2]
  · rw [h3, fock_zero]

/-- C134: the rotation and the state drawn with the same seed are not independent: `random_FF_rotation(n, seed=k)` commutes with
`random_FF_state(n, seed=k)`, so evolving this state with this rotation does nothing. -/
theorem C134_commute (hd : Spec.DrawsOk rng) (n : ℕ) (hn : 1 ≤ n) (k : ℕ) (hk : k < 2 ^ 32) (s s' : σ) :
    ∃ (ρ W : Op (2 ^ n)), ((randomFFStateMixed rng logm n false (some (k : ℤ)) false).exec s).1 = .ok (ρ, none) ∧
      ((randomFFRotation rng logm n (some (k : ℤ))).exec s').1 = .ok W ∧ W * ρ = ρ * W := by
  have st : ∀ s : σ, Spec.StartState rng (some (k : ℤ)) s (rng.seeded k) := fun s => Or.inr ⟨k, hk, rfl, rfl⟩
  obtain ⟨G, hG, hW⟩ : ∃ G, (∀ s, (randomFFRotationH rng logm n (some (k : ℤ))).exec s = (.ok G, (rng.orthogonal (n + n) (rng.seeded k)).2)) ∧
      ∀ s, (randomFFRotation rng logm n (some (k : ℤ))).exec s = (.ok (expm ((-Complex.I) • G)), (rng.orthogonal (n + n) (rng.seeded k)).2) :=
    ⟨_, fun s => exec_rotH rng hd logm hn (st s), fun s => exec_rot rng hd logm hn (st s)⟩
  obtain ⟨β, c, hρ⟩ : ∃ β c : ℂ, ((randomFFStateMixed rng logm n false (some (k : ℤ)) false).exec s).1 = .ok (c • expm ((-β) • G), none) := by
    have e : (randomFFStateMixed rng logm n false (some (k : ℤ)) false).exec s = (.ok ((npTrace (expm ((-((rng.exponential
        (rng.orthogonal (n + n) (rng.seeded k)).2).1 : ℂ)) • G)))⁻¹ • expm ((-((rng.exponential
        (rng.orthogonal (n + n) (rng.seeded k)).2).1 : ℂ)) • G), none), (rng.exponential (rng.orthogonal (n + n) (rng.seeded k)).2).2) := by
      rw [randomFFStateMixed, exec_bind_ok (exec_seed rng (st s))]
      simp only [Bool.false_eq_true, if_false]
      rw [exec_bind_ok (hG _), exec_bind_ok (exec_draw _ _), exec_pure]
    rw [e]
    exact ⟨_, _, rfl⟩
  refine ⟨c • expm ((-β) • G), expm ((-Complex.I) • G), hρ, by rw [hW], ?_⟩
  have h0 : ((-Complex.I) • G) * ((-β) • G) = ((-β) • G) * ((-Complex.I) • G) := by
    rw [Matrix.smul_mul, Matrix.mul_smul, Matrix.smul_mul, Matrix.mul_smul, smul_comm]
  have h1 := expm_comm (expm_comm h0.symm).symm
  rw [Matrix.mul_smul, Matrix.smul_mul, h1]

end

/-- The hypotheses of both theorems are met. -/
example : Spec.DrawsOk (demoRng fun _ _ => 1) ∧ (42 : ℕ) + 1 < 2 ^ 32 :=
  ⟨demo_ok (by simp) (by simp), by norm_num⟩

/-- C134. `generate_random_bitstring(n, k)` leaves the generator alone if `k` is not in `0 .. n`, and makes one draw otherwise. -/
theorem C134_bitstring {σ : Type} (choice : ℕ → ℕ → σ → List ℕ × σ) (n : ℕ) (k : ℤ) (s : σ) :
    ((randomBitstring choice n k).exec s).2 = if 0 ≤ k ∧ k ≤ n then (choice n k.toNat s).2 else s := by
  by_cases h : k < 0 ∨ k > n
  · rw [if_neg (by omega), Rand.exec]
    exact congrArg Prod.snd (if_pos h)
  · rw [if_pos (by omega), Rand.exec]
    exact congrArg Prod.snd (if_neg h)

end FF.Props
