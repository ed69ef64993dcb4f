import Verif.Spec.Session
import Verif.Proofs.Random

/-! # Helper lemmas on sessions -/

namespace FF

open Spec

variable {σ τ : Type} (x : Externals σ τ)

/-- After a valid seed nothing depends on the state before. -/
theorem seed_forget {α : Type} (rng : Rng σ) {k : ℤ} (h0 : 0 ≤ k) (h1 : k < 2 ^ 32) (f : Unit → Rand σ α) (s s' : σ) :
    (seedRng rng (some k) >>= f).exec s = (seedRng rng (some k) >>= f).exec s' := by
  have h : ∀ s : σ, (seedRng rng (some k)).exec s = (.ok (), rng.seeded k.toNat) := fun s => by
    rw [seedRng, if_pos ⟨h0, h1⟩]; rfl
  rw [exec_bind_ok (h s), exec_bind_ok (h s')]

theorem noDraw_forget {α β : Type} {v : Except PyErr α} {a : α} (hv : v = .ok a) (f : α → Rand σ β) (s s' : σ)
    (h : (f a).exec s = (f a).exec s') : (noDraw v >>= f).exec s = (noDraw v >>= f).exec s' := by
  rw [exec_bind_ok (exec_noDraw_ok hv s), exec_bind_ok (exec_noDraw_ok hv s'), h]

theorem bind_forget {α β : Type} {m : Rand σ α} (f : α → Rand σ β) (s s' : σ) (h : m.exec s = m.exec s') :
    (m >>= f).exec s = (m >>= f).exec s' := by rw [exec_bind, exec_bind, h]

theorem checkPositive_ok {n : PyObj} (h : Positive n) : ∃ m, checkPositive n = .ok m := by
  obtain ⟨z, hz, rfl⟩ := h
  exact ⟨z.toNat, by rw [checkPositive, if_neg (by omega)]⟩

theorem setsNp_forget {c : NpCall σ} (h : SetsNp c) (s s' : σ) : (c.code x).exec s = (c.code x).exec s' := by
  obtain ⟨ha, k, h0, h1, hk⟩ := h
  cases c with
  | rotationOrb n seed => obtain rfl : seed = some k := hk; exact seed_forget _ h0 h1 _ _ _
  | rotationH n seed => obtain rfl : seed = some k := hk; exact bind_forget _ _ _ (seed_forget _ h0 h1 _ _ _)
  | rotation n seed => obtain rfl : seed = some k := hk; exact bind_forget _ _ _ (bind_forget _ _ _ (seed_forget _ h0 h1 _ _ _))
  | generator n f seed => obtain rfl : seed = some k := hk; exact seed_forget _ h0 h1 _ _ _
  | statePure n seed r => obtain rfl : seed = some k := hk; exact seed_forget _ h0 h1 _ _ _
  | stateMixed n f seed r => obtain rfl : seed = some k := hk; exact seed_forget _ h0 h1 _ _ _
  | qubit n seed =>
    obtain rfl : seed = some k := hk
    exact noDraw_forget (checkPositive_ok ha).choose_spec _ _ _ (seed_forget _ h0 h1 _ _ _)
  | qubitPure n seed =>
    obtain rfl : seed = some k := hk
    exact noDraw_forget (checkPositive_ok ha).choose_spec _ _ _ (seed_forget _ h0 h1 _ _ _)
  | randH n seed =>
    obtain rfl : seed = some k := hk
    exact noDraw_forget (checkPositive_ok ha).choose_spec _ _ _ (seed_forget _ h0 h1 _ _ _)
  | rotPDF n seed =>
    obtain rfl : seed = some k := hk
    exact noDraw_forget (checkPositive_ok ha).choose_spec _ _ _ (seed_forget _ h0 h1 _ _ _)
  | pureW0 n seed =>
    obtain rfl : seed = some k := hk
    exact noDraw_forget (checkPositive_ok ha).choose_spec _ _ _ (seed_forget _ h0 h1 _ _ _)
  | pureWN n N seed =>
    obtain rfl : seed = some k := hk
    obtain ⟨z, hz, rfl, hN⟩ := ha
    refine noDraw_forget (a := z.toNat) (by rw [checkPositive, if_neg (by omega)]) _ _ _ ?_
    rcases hN with rfl | ⟨y, hy0, hy1, rfl⟩
    · exact noDraw_forget (a := none) rfl _ _ _ (seed_forget _ h0 h1 _ _ _)
    · exact noDraw_forget (a := some y.toNat) (by rw [checkN, if_neg (by omega)]) _ _ _ (seed_forget _ h0 h1 _ _ _)
  | pureCN n seed =>
    obtain rfl : seed = some k := hk
    exact noDraw_forget (checkPositive_ok ha).choose_spec _ _ _ (seed_forget _ h0 h1 _ _ _)
  | bitstring n k => cases hk
  | user f => cases hk

theorem planar_forget (n : ℤ) {k : ℤ} (hk : k ≠ 0) (s s' : τ) :
    (generateRandomPlanarGraph x.prng x.nx n (some k)).exec s = (generateRandomPlanarGraph x.prng x.nx n (some k)).exec s' := by
  unfold generateRandomPlanarGraph
  simp only [if_pos hk]
  rfl

theorem session_append (cs ds : List (RandomCall σ)) (s : Gens σ τ) :
    session x (cs ++ ds) s = ((session x cs s).1 ++ (session x ds (session x cs s).2).1, (session x ds (session x cs s).2).2) := by
  induction cs generalizing s with
  | nil => rfl
  | cons c cs ih =>
    simp only [List.cons_append, session]
    rw [ih]

theorem session_snoc (cs : List (RandomCall σ)) (c : RandomCall σ) (s : Gens σ τ) :
    session x (cs ++ [c]) s = ((session x cs s).1 ++ [⟨c, (c.exec x (session x cs s).2).1⟩], (c.exec x (session x cs s).2).2) := by
  rw [session_append]; rfl

theorem np_agree (cs : List (RandomCall σ)) (s s' : Gens σ τ) (h : ∃ d, RandomCall.np d ∈ cs ∧ SetsNp d) :
    (session x cs s).2.np = (session x cs s').2.np := by
  induction cs using List.reverseRecOn with
  | nil => obtain ⟨d, hd, _⟩ := h; cases hd
  | append_singleton cs c ih =>
    obtain ⟨d, hd, hs⟩ := h
    rw [session_snoc, session_snoc]
    cases c with
    | planar n seed =>
      have : RandomCall.np d ∈ cs := by simpa using hd
      exact ih ⟨d, this, hs⟩
    | np c =>
      simp only [RandomCall.exec]
      rcases List.mem_append.1 hd with h1 | h1
      · rw [ih ⟨d, h1, hs⟩]
      · obtain rfl : d = c := by simpa using h1
        rw [setsNp_forget x hs]

theorem py_agree (cs : List (RandomCall σ)) (s s' : Gens σ τ) (h : ∃ n k, RandomCall.planar n (some k) ∈ cs ∧ k ≠ 0) :
    (session x cs s).2.py = (session x cs s').2.py := by
  induction cs using List.reverseRecOn with
  | nil => obtain ⟨n, k, hd, _⟩ := h; cases hd
  | append_singleton cs c ih =>
    obtain ⟨n, k, hd, hk⟩ := h
    rw [session_snoc, session_snoc]
    cases c with
    | np c =>
      have : RandomCall.planar n (some k) ∈ cs := by simpa using hd
      exact ih ⟨n, k, this, hk⟩
    | planar n' seed =>
      simp only [RandomCall.exec]
      rcases List.mem_append.1 hd with h1 | h1
      · rw [ih ⟨n, k, h1, hk⟩]
      · obtain ⟨rfl, rfl⟩ : n = n' ∧ some k = seed := by simpa using h1
        rw [planar_forget x n hk]

end FF
