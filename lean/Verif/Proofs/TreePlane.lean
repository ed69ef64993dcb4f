import Verif.Proofs.Plane

/-!
# Every tree has a planar embedding
-/

namespace FF
open Relation

section
variable {β : Type}

/-- iterating `f` from `a` one gets to `b` -/
def gets (f : β → β) (a b : β) : Prop := ∃ k, f^[k] a = b

theorem gets.refl {f : β → β} (a : β) : gets f a a := ⟨0, rfl⟩

theorem gets.step {f : β → β} {a b c : β} (h : gets f a b) (hc : f b = c) : gets f a c := by
  obtain ⟨k, rfl⟩ := h
  exact ⟨k + 1, by rw [Function.iterate_succ_apply', hc]⟩

theorem gets.trans {f : β → β} {a b c : β} (h : gets f a b) (h' : gets f b c) : gets f a c := by
  obtain ⟨k, rfl⟩ := h
  obtain ⟨l, rfl⟩ := h'
  exact ⟨l + k, Function.iterate_add_apply _ _ _ _⟩

/-- if every step of `f` inside of `p` can be made with `g`, so can every walk -/
theorem gets.map {f g : β → β} {p : β → Prop} (hp : ∀ a, p a → p (f a)) (h : ∀ a, p a → gets g a (f a)) {a b : β} (ha : p a)
    (hg : gets f a b) : gets g a b := by
  obtain ⟨k, rfl⟩ := hg
  induction k generalizing a with
  | zero => exact gets.refl a
  | succ k ih =>
    rw [Function.iterate_succ_apply]
    exact (h a ha).trans (ih (hp a ha))

end

/-- a growing tree with an embedding that has a single face -/
structure Grow (H : NxGraph ℕ) (S : Finset ℕ) (T : List Dart) (cw : ℕ → ℕ → ℕ) : Prop where
  nodes : ∀ s ∈ S, s ∈ H.nodes
  sub : ∀ e ∈ T, H.hasEdge e.1 e.2
  inS : ∀ e ∈ T, e.1 ∈ S ∧ e.2 ∈ S
  card : T.length + 1 = S.card
  nodup : (T.map fun e => s(e.1, e.2)).Nodup
  touched : T ≠ [] → ∀ s ∈ S, ∃ u, NxGraph.hasEdge ⟨[], T, fun _ _ => 1⟩ s u
  rot : Spec.IsRotation ⟨[], T, fun _ _ => 1⟩ cw
  single : ∀ d e : ℕ × ℕ, NxGraph.hasEdge ⟨[], T, fun _ _ => 1⟩ d.1 d.2 → NxGraph.hasEdge ⟨[], T, fun _ _ => 1⟩ e.1 e.2 →
    gets (Spec.next cw) d e

theorem Grow.start {H : NxGraph ℕ} {r : ℕ} (hr : r ∈ H.nodes) : Grow H {r} [] (fun _ _ => 0) where
  nodes := by simp [hr]
  sub := by simp
  inS := by simp
  card := by simp
  nodup := by simp
  touched := fun h => absurd rfl h
  rot := ⟨by simp [NxGraph.hasEdge], by simp [NxGraph.hasEdge], by simp [NxGraph.hasEdge]⟩
  single := by simp [NxGraph.hasEdge]

theorem Grow.add {H : NxGraph ℕ} {S : Finset ℕ} {T : List Dart} {cw : ℕ → ℕ → ℕ} (h : Grow H S T cw) (hs : Spec.IsSimple H)
    {s t : ℕ} (hsS : s ∈ S) (htS : t ∉ S) (hst : H.hasEdge s t) : ∃ cw', Grow H (insert t S) ((s, t) :: T) cw' := by
  have hne : s ≠ t := fun e => htS (e ▸ hsS)
  have hE : ∀ u v, NxGraph.hasEdge ⟨[], (s, t) :: T, fun _ _ => 1⟩ u v ↔
      (u = s ∧ v = t) ∨ (u = t ∧ v = s) ∨ NxGraph.hasEdge ⟨[], T, fun _ _ => 1⟩ u v := by
    intro u v
    simp only [NxGraph.hasEdge, List.mem_cons, Prod.mk.injEq]
    tauto
  have hin : ∀ u v, NxGraph.hasEdge ⟨[], T, fun _ _ => 1⟩ u v → u ∈ S ∧ v ∈ S := by
    rintro u v (h1 | h1)
    · exact h.inS _ h1
    · exact (h.inS _ h1).symm
  have common : ∀ cw', Spec.IsRotation ⟨[], (s, t) :: T, fun _ _ => 1⟩ cw' →
      (∀ d e : ℕ × ℕ, NxGraph.hasEdge ⟨[], (s, t) :: T, fun _ _ => 1⟩ d.1 d.2 →
        NxGraph.hasEdge ⟨[], (s, t) :: T, fun _ _ => 1⟩ e.1 e.2 → gets (Spec.next cw') d e) →
      Grow H (insert t S) ((s, t) :: T) cw' := by
    intro cw' hr hg
    refine ⟨?_, ?_, ?_, ?_, ?_, ?_, hr, hg⟩
    · intro x hx
      rcases Finset.mem_insert.1 hx with rfl | hx
      · exact (hs.mem_nodes hst).2
      · exact h.nodes x hx
    · intro e he
      rcases List.mem_cons.1 he with rfl | he
      · exact hst
      · exact h.sub e he
    · intro e he
      rcases List.mem_cons.1 he with rfl | he
      · exact ⟨Finset.mem_insert_of_mem hsS, Finset.mem_insert_self _ _⟩
      · exact ⟨Finset.mem_insert_of_mem (h.inS e he).1, Finset.mem_insert_of_mem (h.inS e he).2⟩
    · rw [List.length_cons, Finset.card_insert_of_notMem htS, h.card]
    · rw [List.map_cons, List.nodup_cons]
      refine ⟨?_, h.nodup⟩
      intro hm
      obtain ⟨e, he, heq⟩ := List.mem_map.1 hm
      have hi := h.inS e he
      rcases Sym2.eq_iff.1 heq with ⟨h1, h2⟩ | ⟨h1, h2⟩
      · exact htS (show (s, t).2 ∈ S from h2 ▸ hi.2)
      · exact htS (show (s, t).2 ∈ S from h1 ▸ hi.1)
    · intro _ x hx
      rcases Finset.mem_insert.1 hx with rfl | hx
      · exact ⟨s, (hE _ _).2 (Or.inr (Or.inl ⟨rfl, rfl⟩))⟩
      · by_cases hT : T = []
        · have hc := h.card
          rw [hT] at hc
          obtain ⟨y, hy⟩ := Finset.card_eq_one.1 hc.symm
          rw [hy, Finset.mem_singleton] at hsS hx
          exact ⟨t, (hE _ _).2 (Or.inl ⟨hx.trans hsS.symm, rfl⟩)⟩
        · obtain ⟨u, hu⟩ := h.touched hT x hx
          exact ⟨u, (hE _ _).2 (Or.inr (Or.inr hu))⟩
  by_cases hT : T = []
  · subst hT
    have hE' : ∀ u v, NxGraph.hasEdge ⟨[], [(s, t)], fun _ _ => 1⟩ u v ↔ (u = s ∧ v = t) ∨ (u = t ∧ v = s) := by
      intro u v
      rw [hE]
      simp [NxGraph.hasEdge]
    refine ⟨fun v _ => if v = s then t else s, common _ ⟨?_, ?_, ?_⟩ ?_⟩
    · intro v u huv
      rw [hE'] at huv ⊢
      rcases huv with ⟨rfl, rfl⟩ | ⟨rfl, rfl⟩
      · left; simp
      · right; simp [hne.symm]
    · intro v u u' huv huv' _
      rw [hE'] at huv huv'
      omega
    · intro v u u' huv huv'
      rw [hE'] at huv huv'
      exact ⟨0, by simp only [Function.iterate_zero_apply]; omega⟩
    · rintro ⟨d1, d2⟩ ⟨e1, e2⟩ hd he
      simp only [hE'] at hd he
      have s1 : Spec.next (fun v _ => if v = s then t else s) (s, t) = (t, s) := by simp [Spec.next, hne.symm]
      have s2 : Spec.next (fun v _ => if v = s then t else s) (t, s) = (s, t) := by simp [Spec.next]
      rcases hd with ⟨rfl, rfl⟩ | ⟨rfl, rfl⟩ <;> rcases he with ⟨rfl, rfl⟩ | ⟨rfl, rfl⟩
      · exact gets.refl _
      · exact (gets.refl _).step s1
      · exact (gets.refl _).step s2
      · exact gets.refl _
  · obtain ⟨w, hw⟩ := h.touched hT s hsS
    have hwS := (hin _ _ hw).2
    have hwt : w ≠ t := fun e => htS (e ▸ hwS)
    set cw' : ℕ → ℕ → ℕ := fun v u => if v = t then s else if v = s ∧ u = w then t else if v = s ∧ u = t then cw s w
      else cw v u with hcw
    have c1 : cw' s w = t := by simp [hcw, hne]
    have c2 : cw' s t = cw s w := by simp [hcw, hne, hwt.symm]
    have c3 : ∀ u, cw' t u = s := by intro u; simp [hcw]
    have c4 : ∀ v u, NxGraph.hasEdge ⟨[], T, fun _ _ => 1⟩ v u → ¬ (v = s ∧ u = w) → cw' v u = cw v u := by
      intro v u hvu hn
      have hv : v ≠ t := fun e => htS (e ▸ (hin _ _ hvu).1)
      have hu : u ≠ t := fun e => htS (e ▸ (hin _ _ hvu).2)
      simp [hcw, hv, hu, hn]
    have hmem := h.rot.mem
    have hcwt : ∀ v u, NxGraph.hasEdge ⟨[], T, fun _ _ => 1⟩ v u → cw v u ≠ t := fun v u hvu e =>
      htS (e ▸ (hin _ _ (hmem v u hvu)).2)
    have htn : ∀ u, ¬ NxGraph.hasEdge ⟨[], T, fun _ _ => 1⟩ t u := fun u hu => htS (hin _ _ hu).1
    have hnt : ∀ u, ¬ NxGraph.hasEdge ⟨[], T, fun _ _ => 1⟩ u t := fun u hu => htS (hin _ _ hu).2
    refine ⟨cw', common _ ⟨?_, ?_, ?_⟩ ?_⟩
    · intro v u huv
      rw [hE] at huv ⊢
      rcases huv with ⟨rfl, rfl⟩ | ⟨rfl, rfl⟩ | huv
      · rw [c2]; exact Or.inr (Or.inr (hmem _ _ hw))
      · rw [c3]; exact Or.inr (Or.inl ⟨rfl, rfl⟩)
      · by_cases hc : v = s ∧ u = w
        · obtain ⟨rfl, rfl⟩ := hc
          rw [c1]; exact Or.inl ⟨rfl, rfl⟩
        · rw [c4 v u huv hc]; exact Or.inr (Or.inr (hmem _ _ huv))
    · intro v u u' huv huv' heq
      rw [hE] at huv huv'
      rcases huv with ⟨rfl, rfl⟩ | ⟨rfl, rfl⟩ | huv
      · rcases huv' with ⟨-, rfl⟩ | ⟨h1, -⟩ | huv'
        · rfl
        · exact absurd h1 hne
        · rw [c2] at heq
          by_cases hc : u' = w
          · rw [hc, c1] at heq
            exact absurd heq (hcwt _ _ hw)
          · rw [c4 _ _ huv' (fun h => hc h.2)] at heq
            exact absurd (h.rot.inj _ _ _ hw huv' heq).symm hc
      · rcases huv' with ⟨h1, -⟩ | ⟨-, rfl⟩ | huv'
        · exact absurd h1.symm hne
        · rfl
        · exact absurd huv' (htn _)
      · rcases huv' with ⟨rfl, rfl⟩ | ⟨rfl, rfl⟩ | huv'
        · rw [c2] at heq
          by_cases hc : u = w
          · rw [hc, c1] at heq
            exact absurd heq.symm (hcwt _ _ hw)
          · rw [c4 _ _ huv (fun h => hc h.2)] at heq
            exact absurd (h.rot.inj _ _ _ huv hw heq) hc
        · exact absurd huv (htn _)
        · by_cases hc : v = s ∧ u = w
          · by_cases hc' : v = s ∧ u' = w
            · rw [hc.2, hc'.2]
            · rw [c4 _ _ huv' hc', hc.1, hc.2, c1] at heq
              rw [hc.1] at huv'
              exact absurd heq.symm (hcwt _ _ huv')
          · by_cases hc' : v = s ∧ u' = w
            · rw [c4 _ _ huv hc, hc'.1, hc'.2, c1] at heq
              rw [hc'.1] at huv
              exact absurd heq (hcwt _ _ huv)
            · rw [c4 _ _ huv hc, c4 _ _ huv' hc'] at heq
              exact h.rot.inj _ _ _ huv huv' heq
    · intro v u u' huv huv'
      have old : ∀ a b, NxGraph.hasEdge ⟨[], T, fun _ _ => 1⟩ v a → NxGraph.hasEdge ⟨[], T, fun _ _ => 1⟩ v b →
          gets (cw' v) a b := by
        intro a b ha hb
        refine gets.map (p := fun a => NxGraph.hasEdge ⟨[], T, fun _ _ => 1⟩ v a) (fun a ha => hmem v a ha) ?_ ha
          (h.rot.cyclic v a b ha hb)
        intro a ha
        by_cases hc : v = s ∧ a = w
        · rw [hc.1, hc.2]
          exact ((gets.refl w).step c1).step c2
        · exact (gets.refl a).step (c4 v a ha hc)
      rw [hE] at huv huv'
      show gets (cw' v) u u'
      rcases huv with ⟨rfl, rfl⟩ | ⟨rfl, rfl⟩ | huv
      · rcases huv' with ⟨-, rfl⟩ | ⟨h1, -⟩ | huv'
        · exact gets.refl _
        · exact absurd h1 hne
        · exact ((gets.refl _).step c2).trans (old _ _ (hmem _ _ hw) huv')
      · rcases huv' with ⟨h1, -⟩ | ⟨-, rfl⟩ | huv'
        · exact absurd h1.symm hne
        · exact gets.refl _
        · exact absurd huv' (htn _)
      · rcases huv' with ⟨rfl, rfl⟩ | ⟨rfl, rfl⟩ | huv'
        · exact (old _ _ huv hw).step c1
        · exact absurd huv (htn _)
        · exact old _ _ huv huv'
    · have n1 : Spec.next cw' (w, s) = (s, t) := by simp only [Spec.next, c1]
      have n2 : Spec.next cw' (s, t) = (t, s) := by simp only [Spec.next, c3]
      have n3 : Spec.next cw' (t, s) = (s, cw s w) := by simp only [Spec.next, c2]
      have hsym : ∀ {a b}, NxGraph.hasEdge ⟨[], T, fun _ _ => 1⟩ a b → NxGraph.hasEdge ⟨[], T, fun _ _ => 1⟩ b a :=
        fun h => Or.symm h
      have old : ∀ d e : ℕ × ℕ, NxGraph.hasEdge ⟨[], T, fun _ _ => 1⟩ d.1 d.2 → NxGraph.hasEdge ⟨[], T, fun _ _ => 1⟩ e.1 e.2 →
          gets (Spec.next cw') d e := by
        intro d e hd he
        refine gets.map (p := fun d : ℕ × ℕ => NxGraph.hasEdge ⟨[], T, fun _ _ => 1⟩ d.1 d.2)
          (fun a ha => hmem _ _ (hsym ha)) ?_ hd (h.single d e hd he)
        rintro ⟨a, b⟩ ha
        by_cases hc : b = s ∧ a = w
        · obtain ⟨rfl, rfl⟩ := hc
          exact (((gets.refl _).step n1).step n2).step n3
        · refine (gets.refl _).step ?_
          simp only [Spec.next]
          rw [c4 b a (hsym ha) hc]
      have hws : NxGraph.hasEdge ⟨[], T, fun _ _ => 1⟩ w s := hsym hw
      have hsc := hmem _ _ hw
      rintro ⟨d1, d2⟩ ⟨e1, e2⟩ hd he
      rw [hE] at hd he
      dsimp only at hd he
      have toW : gets (Spec.next cw') (d1, d2) (w, s) := by
        rcases hd with ⟨rfl, rfl⟩ | ⟨rfl, rfl⟩ | hd
        · exact (((gets.refl _).step n2).step n3).trans (old _ _ hsc hws)
        · exact ((gets.refl _).step n3).trans (old _ _ hsc hws)
        · exact old _ _ hd hws
      refine toW.trans ?_
      rcases he with ⟨rfl, rfl⟩ | ⟨rfl, rfl⟩ | he
      · exact (gets.refl _).step n1
      · exact ((gets.refl _).step n1).step n2
      · exact old _ _ hws he

/-- every tree has a planar embedding -/
theorem tree_planar {H : NxGraph ℕ} (hs : Spec.IsSimple H) (ht : H.isTree) (hE : H.edges ≠ []) :
    ∃ cw, Spec.IsPlanarEmbedding H cw := by
  classical
  have hpos : 0 < H.nodes.length := by have := ht.1; omega
  obtain ⟨r, hr⟩ := List.exists_mem_of_length_pos hpos
  have grow : ∀ k, 1 ≤ k → k ≤ H.nodes.length → ∃ S T cw, Grow H S T cw ∧ S.card = k := by
    intro k hk
    induction k, hk using Nat.le_induction with
    | base => intro _; exact ⟨{r}, [], _, Grow.start hr, by simp⟩
    | succ k hk ih =>
      intro hkl
      obtain ⟨S, T, cw, hg, hc⟩ := ih (by omega)
      obtain ⟨s0, hs0⟩ : S.Nonempty := Finset.card_pos.1 (by omega)
      obtain ⟨t0, ht0, ht0S⟩ : ∃ t ∈ H.nodes, t ∉ S := by
        by_contra hcon
        push Not at hcon
        have : H.nodes.toFinset ⊆ S := fun x hx => hcon x (List.mem_toFinset.1 hx)
        have := Finset.card_le_card this
        rw [List.toFinset_card_of_nodup hs.nodes_nodup] at this
        omega
      have hex : ∀ x, ReflTransGen H.hasEdge s0 x → x ∈ S ∨ ∃ s t, s ∈ S ∧ t ∉ S ∧ H.hasEdge s t := by
        intro x hx
        induction hx with
        | refl => exact Or.inl hs0
        | @tail b y _ hbc ih =>
          rcases ih with h1 | h1
          · by_cases hc : y ∈ S
            · exact Or.inl hc
            · exact Or.inr ⟨_, _, h1, hc, hbc⟩
          · exact Or.inr h1
      rcases hex t0 (ht.2 s0 (hg.nodes _ hs0) t0 ht0) with h1 | ⟨s, t, h1, h2, h3⟩
      · exact absurd h1 ht0S
      · obtain ⟨cw', hg'⟩ := hg.add hs h1 h2 h3
        exact ⟨_, _, _, hg', by rw [Finset.card_insert_of_notMem h2, hc]⟩
  obtain ⟨S, T, cw, hg, hc⟩ := grow _ hpos le_rfl
  have hTl : T.length = H.edges.length := by have := hg.card; have := ht.1; omega
  have hiff : ∀ u v, H.hasEdge u v ↔ NxGraph.hasEdge ⟨[], T, fun _ _ => 1⟩ u v := by
    have hsub : (T.map fun e => s(e.1, e.2)).toFinset ⊆ (H.edges.map fun e => s(e.1, e.2)).toFinset := by
      intro x hx
      rw [List.mem_toFinset, List.mem_map] at hx ⊢
      obtain ⟨e, he, rfl⟩ := hx
      rcases hg.sub e he with h1 | h1
      · exact ⟨_, h1, rfl⟩
      · exact ⟨_, h1, Sym2.eq_swap⟩
    have heq := Finset.eq_of_subset_of_card_le hsub (by
      rw [List.toFinset_card_of_nodup hg.nodup, List.length_map, hTl]
      exact (List.toFinset_card_le _).trans (by rw [List.length_map]))
    have key : ∀ (l : List Dart) u v, s(u, v) ∈ (l.map fun e => s(e.1, e.2)).toFinset ↔
        ((u, v) ∈ l ∨ (v, u) ∈ l) := by
      intro l u v
      rw [List.mem_toFinset, List.mem_map]
      constructor
      · rintro ⟨e, he, h1⟩
        rcases Sym2.eq_iff.1 h1 with ⟨rfl, rfl⟩ | ⟨rfl, rfl⟩
        · exact Or.inl he
        · exact Or.inr he
      · rintro (h1 | h1)
        · exact ⟨_, h1, rfl⟩
        · exact ⟨_, h1, Sym2.eq_swap⟩
    intro u v
    show ((u, v) ∈ H.edges ∨ (v, u) ∈ H.edges) ↔ ((u, v) ∈ T ∨ (v, u) ∈ T)
    rw [← key, ← key, heq]
  refine ⟨cw, ⟨?_, ?_, ?_⟩, ?_⟩
  · intro v u h1
    rw [hiff] at h1 ⊢
    exact hg.rot.mem v u h1
  · intro v u u' h1 h2
    rw [hiff] at h1 h2
    exact hg.rot.inj v u u' h1 h2
  · intro v u u' h1 h2
    rw [hiff] at h1 h2
    exact hg.rot.cyclic v u u' h1 h2
  · obtain ⟨e0, he0⟩ := List.exists_mem_of_ne_nil _ hE
    have h0 : H.hasEdge e0.1 e0.2 := Or.inl he0
    have : {F | ∃ d : ℕ × ℕ, H.hasEdge d.1 d.2 ∧ F = Spec.faceOf cw d} = {Spec.faceOf cw e0} := by
      ext F
      simp only [Set.mem_setOf_eq, Set.mem_singleton_iff]
      constructor
      · rintro ⟨d, hd, rfl⟩
        ext e
        exact ⟨fun h1 => (hg.single e0 d ((hiff _ _).1 h0) ((hiff _ _).1 hd)).trans h1,
          fun h1 => (hg.single d e0 ((hiff _ _).1 hd) ((hiff _ _).1 h0)).trans h1⟩
      · rintro rfl
        exact ⟨e0, h0, rfl⟩
    rw [Spec.numFaces, this, Set.ncard_singleton]
    have := ht.1
    omega

end FF
