import Verif.Proofs.Faces
import Verif.Proofs.Kasteleyn
import Mathlib.Data.Sym.Sym2

/-! # Embeddings of networkx graphs as abstract embeddings -/

namespace FF

open Verif.Kasteleyn

theorem IsCyc.ne_nil {nxt : Dart → Dart} {f : List Dart} (h : IsCyc nxt f) : f ≠ [] := by
  obtain ⟨d, k, rfl, _⟩ := h
  simp [List.iterate]

theorem IsCyc.next_mem {nxt : Dart → Dart} {f : List Dart} (h : IsCyc nxt f) {d : Dart} (hd : d ∈ f) :
    nxt d ∈ f := by
  obtain ⟨a, k, rfl, hc⟩ := h
  obtain ⟨j, hj, rfl⟩ := List.mem_iterate.1 hd
  by_cases h1 : j + 1 < k + 1
  · exact List.mem_iterate.2 ⟨j + 1, h1, by rw [Function.iterate_succ_apply']⟩
  · have : j = k := by omega
    subst this
    exact List.mem_iterate.2 ⟨0, by omega, by rw [← Function.iterate_succ_apply' nxt]; exact hc⟩

theorem IsCyc.orbit {nxt : Dart → Dart} {f : List Dart} (h : IsCyc nxt f) {d : Dart} (hd : d ∈ f) (x : Dart) :
    x ∈ f ↔ ∃ k, nxt^[k] d = x := by
  constructor
  · intro hx
    obtain ⟨a, k, rfl, hc⟩ := h
    obtain ⟨i, hi, rfl⟩ := List.mem_iterate.1 hd
    obtain ⟨j, hj, rfl⟩ := List.mem_iterate.1 hx
    refine ⟨j + (k + 1 - i), ?_⟩
    rw [Function.iterate_add_apply, ← Function.iterate_add_apply nxt (k + 1 - i) i,
      Nat.sub_add_cancel (by omega), hc]
  · rintro ⟨k, rfl⟩
    induction k with
    | zero => exact hd
    | succ k ih => rw [Function.iterate_succ_apply']; exact h.next_mem ih

section lists
variable {G : NxGraph ℕ} {cw : ℕ → ℕ → ℕ} {F : List (List Dart)}

theorem IsFaceList.nodup (h : IsFaceList G cw F) : F.flatten.Nodup := h.perm.nodup_iff.2 (edgeset_nodup G)

theorem IsFaceList.mem_edge (h : IsFaceList G cw F) {f : List Dart} (hf : f ∈ F) {d : Dart} (hd : d ∈ f) :
    G.hasEdge d.1 d.2 :=
  mem_edgeset.1 (h.perm.mem_iff.1 (List.mem_flatten.2 ⟨f, hf, hd⟩))

theorem IsFaceList.exists_face (h : IsFaceList G cw F) {d : Dart} (hd : G.hasEdge d.1 d.2) :
    ∃ i : Fin F.length, d ∈ F.get i := by
  obtain ⟨f, hf, hdf⟩ := List.mem_flatten.1 (h.perm.mem_iff.2 (mem_edgeset.2 hd))
  obtain ⟨i, rfl⟩ := List.get_of_mem hf
  exact ⟨i, hdf⟩

theorem IsFaceList.unique (h : IsFaceList G cw F) {d : Dart} {i j : Fin F.length} (hi : d ∈ F.get i)
    (hj : d ∈ F.get j) : i = j := by
  have hp := (List.nodup_flatten.1 h.nodup).2
  by_contra hne
  have hp' := List.pairwise_iff_getElem.1 hp
  rcases lt_or_gt_of_ne (fun h => hne (Fin.ext h) : i.1 ≠ j.1) with hlt | hlt
  · exact hp' i.1 j.1 i.2 j.2 hlt hi hj
  · exact hp' j.1 i.1 j.2 i.2 hlt hj hi

theorem IsFaceList.pos (h : IsFaceList G cw F) (hE : G.edges ≠ []) : 0 < F.length := by
  obtain ⟨e, es, he⟩ := List.exists_cons_of_ne_nil hE
  obtain ⟨i, _⟩ := h.exists_face (d := e) (Or.inl (by rw [he]; simp))
  exact Nat.lt_of_le_of_lt (Nat.zero_le _) i.2

theorem IsFaceList.numFaces (h : IsFaceList G cw F) : Spec.numFaces G cw = F.length := by
  have hset : {S | ∃ d : ℕ × ℕ, G.hasEdge d.1 d.2 ∧ S = Spec.faceOf cw d}
      = Set.range fun i : Fin F.length => {x | x ∈ F.get i} := by
    ext S
    constructor
    · rintro ⟨d, hd, rfl⟩
      obtain ⟨i, hi⟩ := h.exists_face hd
      refine ⟨i, ?_⟩
      ext x
      exact (h.cyc _ (List.get_mem F i)).orbit hi x
    · rintro ⟨i, rfl⟩
      obtain ⟨d, hd⟩ := List.exists_mem_of_ne_nil _ (h.cyc _ (List.get_mem F i)).ne_nil
      refine ⟨d, h.mem_edge (List.get_mem F i) hd, ?_⟩
      ext x
      exact (h.cyc _ (List.get_mem F i)).orbit hd x
  rw [Spec.numFaces, hset, ← Set.image_univ, Set.ncard_image_of_injective, Set.ncard_univ, Nat.card_fin]
  intro i j hij
  obtain ⟨d, hd⟩ := List.exists_mem_of_ne_nil _ (h.cyc _ (List.get_mem F i)).ne_nil
  have : d ∈ (fun i : Fin F.length => {x | x ∈ F.get i}) j := by rw [← hij]; exact hd
  exact h.unique hd this

theorem _root_.FF.Spec.IsSimple.antisymm {α : Type} [DecidableEq α] {G : NxGraph α} (h : Spec.IsSimple G) {a b : α}
    (hab : (a, b) ∈ G.edges) : (b, a) ∉ G.edges := by
  intro hba
  have h1 := h.ordered _ hab
  have h2 := h.ordered _ hba
  simp only at h1 h2
  omega

theorem _root_.FF.Spec.IsSimple.irrefl {α : Type} [DecidableEq α] {G : NxGraph α} (h : Spec.IsSimple G) (a : α) :
    ¬ G.hasEdge a a := by
  rintro (h1 | h1) <;> exact absurd (h.ordered _ h1) (lt_irrefl _)

theorem _root_.FF.Spec.IsSimple.mem_nodes {α : Type} [DecidableEq α] {G : NxGraph α} (h : Spec.IsSimple G) {a b : α}
    (hab : G.hasEdge a b) : a ∈ G.nodes ∧ b ∈ G.nodes := by
  rcases hab with h1 | h1
  · exact h.mem _ h1
  · exact (h.mem _ h1).symm

theorem length_edgeset (h : Spec.IsSimple G) : G.edgeset.length = 2 * G.edges.length := by
  have hnd : (G.edges.flatMap fun e => [(e.1, e.2), (e.2, e.1)]).Nodup := by
    rw [List.nodup_flatMap]
    constructor
    · intro e he
      simp only [List.nodup_cons, List.mem_singleton, Prod.mk.injEq, List.not_mem_nil, not_false_iff,
        List.nodup_nil, and_true]
      rintro ⟨h1, -⟩
      have := h.ordered e he
      rw [h1] at this
      exact absurd this (lt_irrefl _)
    · rw [List.pairwise_iff_getElem]
      intro i j hi hj hij
      simp only [Function.onFun]
      intro x hx hy
      have hne : G.edges[i] ≠ G.edges[j] := fun he => by
        have := h.edges_nodup.getElem_inj_iff.1 he
        omega
      have hi' := List.getElem_mem hi
      have hj' := List.getElem_mem hj
      generalize G.edges[i] = p at *
      generalize G.edges[j] = q at *
      simp only [List.mem_cons, List.not_mem_nil, or_false] at hx hy
      rcases hx with rfl | rfl <;> rcases hy with hy | hy
      · exact hne hy
      · apply h.antisymm (a := q.1) (b := q.2) hj'; rw [← hy]; exact hi'
      · apply h.antisymm (a := p.1) (b := p.2) hi'; rw [hy]; exact hj'
      · simp only [Prod.mk.injEq] at hy; exact hne (Prod.ext hy.2 hy.1)
  rw [NxGraph.edgeset, List.dedup_eq_self.2 hnd, List.length_flatMap]
  simp [Nat.mul_comm]

end lists

/-- Everything `pfo_algorithm` works with, for a connected planar graph whose labels are `0 .. n-1`, inserted in any
order. -/
structure Ctx (G : NxGraph ℕ) (cw : ℕ → ℕ → ℕ) (F : List (List Dart)) : Prop where
  simple : Spec.IsSimple G
  labels : ∀ v, v ∈ G.nodes ↔ v < G.nodes.length
  conn : G.isConnected
  ne : G.edges ≠ []
  emb : Spec.IsPlanarEmbedding G cw
  faces : IsFaceList G cw F

namespace Ctx
variable {G : NxGraph ℕ} {cw : ℕ → ℕ → ℕ} {F : List (List Dart)}

theorem _root_.FF.Spec.IsNumbered.labels (h : Spec.IsNumbered G) (v : ℕ) : v ∈ G.nodes ↔ v < G.nodes.length := by
  unfold Spec.IsNumbered at h
  constructor
  · intro hv; rw [h] at hv; exact List.mem_range.1 hv
  · intro hv; rw [h]; exact List.mem_range.2 hv

theorem mem_nodes (c : Ctx G cw F) {v : ℕ} : v ∈ G.nodes ↔ v < G.nodes.length := c.labels v

theorem lt_of_edge (c : Ctx G cw F) {u v : ℕ} (h : G.hasEdge u v) : u < G.nodes.length ∧ v < G.nodes.length :=
  ⟨c.mem_nodes.1 (c.simple.mem_nodes h).1, c.mem_nodes.1 (c.simple.mem_nodes h).2⟩

theorem _root_.FF.Spec.IsNumbered.idxOf (h1 : Spec.IsNumbered G) {v : ℕ} (h : v < G.nodes.length) : G.nodes.idxOf v = v := by
  unfold Spec.IsNumbered at h1
  generalize G.nodes.length = n at h h1
  rw [h1]
  have : (List.range n)[v]'(by simpa using h) = v := by simp
  conv_lhs => rw [← this]
  exact List.Nodup.idxOf_getElem List.nodup_range v (by simpa using h)

theorem edge_lt (c : Ctx G cw F) (hn : Spec.IsNumbered G) {u v : ℕ} (h : (u, v) ∈ G.edges) : u < v := by
  have h1 := c.simple.ordered _ h
  have h2 := c.lt_of_edge (Or.inl h)
  simpa only [hn.idxOf h2.1, hn.idxOf h2.2] using h1

noncomputable def cwV (cw : ℕ → ℕ → ℕ) (n : ℕ) (v u : Fin n) : Fin n :=
  if h : cw v.1 u.1 < n then ⟨cw v.1 u.1, h⟩ else v

theorem cwV_val (c : Ctx G cw F) {v u : Fin G.nodes.length} (h : G.hasEdge v.1 u.1) :
    (cwV cw _ v u).1 = cw v.1 u.1 := by
  have := (c.lt_of_edge (c.emb.rotation.mem _ _ h)).2
  rw [cwV, dif_pos this]

theorem cwV_iter (c : Ctx G cw F) {v u : Fin G.nodes.length} (h : G.hasEdge v.1 u.1) (k : ℕ) :
    ((cwV cw _ v)^[k] u).1 = (cw v.1)^[k] u.1 ∧ G.hasEdge v.1 ((cwV cw _ v)^[k] u).1 := by
  induction k with
  | zero => exact ⟨rfl, h⟩
  | succ k ih =>
    rw [Function.iterate_succ_apply', Function.iterate_succ_apply', c.cwV_val ih.2]
    constructor
    · rw [ih.1]
    · exact c.emb.rotation.mem _ _ ih.2

open Classical in
/-- the face of a directed edge -/
noncomputable def faceV (c : Ctx G cw F) (u v : Fin G.nodes.length) : Fin F.length :=
  if h : G.hasEdge u.1 v.1 then (c.faces.exists_face (d := (u.1, v.1)) h).choose else ⟨0, c.faces.pos c.ne⟩

theorem faceV_spec (c : Ctx G cw F) {u v : Fin G.nodes.length} (h : G.hasEdge u.1 v.1) :
    (u.1, v.1) ∈ F.get (c.faceV u v) := by
  rw [faceV, dif_pos h]
  exact (c.faces.exists_face (d := (u.1, v.1)) h).choose_spec

theorem faceV_eq (c : Ctx G cw F) {u v : Fin G.nodes.length} {i : Fin F.length} (h : (u.1, v.1) ∈ F.get i) :
    c.faceV u v = i :=
  c.faces.unique (c.faceV_spec (c.faces.mem_edge (List.get_mem F i) h)) h

theorem card_darts (c : Ctx G cw F) :
    Nat.card {d : Fin G.nodes.length × Fin G.nodes.length // G.hasEdge d.1.1 d.2.1} = 2 * G.edges.length := by
  classical
  rw [← length_edgeset c.simple, ← List.toFinset_card_of_nodup (edgeset_nodup G), Nat.card_eq_fintype_card,
    Fintype.card_subtype]
  apply Finset.card_bij (fun d _ => (d.1.1, d.2.1))
  · intro d hd
    simp only [Finset.mem_filter, Finset.mem_univ, true_and] at hd
    rw [List.mem_toFinset, mem_edgeset]; exact hd
  · intro a _ b _ hab
    simp only [Prod.mk.injEq] at hab
    exact Prod.ext (Fin.ext hab.1) (Fin.ext hab.2)
  · rintro ⟨u, v⟩ h
    rw [List.mem_toFinset, mem_edgeset] at h
    have h1 := c.lt_of_edge h
    exact ⟨(⟨u, h1.1⟩, ⟨v, h1.2⟩), by simpa using h, rfl⟩

/-- The abstract embedding. -/
noncomputable def toEmb (c : Ctx G cw F) : Emb (Fin G.nodes.length) (Fin F.length) where
  adj u v := G.hasEdge u.1 v.1
  cw := cwV cw _
  face := c.faceV
  symm h := NxGraph.hasEdge_symm h
  irrefl v := c.simple.irrefl v.1
  cw_adj {v u} h := by rw [c.cwV_val h]; exact c.emb.rotation.mem _ _ h
  cw_inj {v u u'} h h' he := by
    apply Fin.ext
    apply c.emb.rotation.inj _ _ _ h h'
    rw [← c.cwV_val h, ← c.cwV_val h', he]
  cw_trans {v u u'} h h' := by
    obtain ⟨k, hk⟩ := c.emb.rotation.cyclic _ _ _ h h'
    exact ⟨k, Fin.ext (by rw [(c.cwV_iter h k).1, hk])⟩
  face_next {u v} h := by
    symm
    apply c.faceV_eq
    rw [c.cwV_val (NxGraph.hasEdge_symm h)]
    exact (c.faces.cyc _ (List.get_mem F _)).next_mem (c.faceV_spec h)
  surj i := by
    obtain ⟨d, hd⟩ := List.exists_mem_of_ne_nil _ (c.faces.cyc _ (List.get_mem F i)).ne_nil
    have h1 := c.faces.mem_edge (List.get_mem F i) hd
    have h2 := c.lt_of_edge h1
    exact ⟨⟨d.1, h2.1⟩, ⟨d.2, h2.2⟩, h1, c.faceV_eq hd⟩
  conn u v := by
    have h := c.conn u.1 (c.mem_nodes.2 u.2) v.1 (c.mem_nodes.2 v.2)
    have key : ∀ x, Relation.ReflTransGen G.hasEdge u.1 x → ∀ hx : x < G.nodes.length,
        Relation.ReflTransGen (fun a b : Fin G.nodes.length => G.hasEdge a.1 b.1) u ⟨x, hx⟩ := by
      intro x hx
      induction hx with
      | refl => intro _; exact Relation.ReflTransGen.refl
      | tail _ hbc ih =>
        intro hx
        exact Relation.ReflTransGen.tail (ih (c.lt_of_edge hbc).1) hbc
    exact key v.1 h v.2
  euler := by
    have h1 := c.emb.euler
    rw [c.faces.numFaces] at h1
    rw [Fintype.card_fin, Fintype.card_fin]
    have h2 := c.card_darts
    omega

@[simp] theorem toEmb_adj (c : Ctx G cw F) (u v : Fin G.nodes.length) : c.toEmb.adj u v ↔ G.hasEdge u.1 v.1 :=
  Iff.rfl

theorem toEmb_face (c : Ctx G cw F) (u v : Fin G.nodes.length) : c.toEmb.face u v = c.faceV u v := rfl

theorem pos (c : Ctx G cw F) : 0 < G.nodes.length := by
  obtain ⟨e, es, he⟩ := List.exists_cons_of_ne_nil c.ne
  have := (c.lt_of_edge (u := e.1) (v := e.2) (Or.inl (by rw [he]; simp))).1
  omega

theorem exists_rtree (c : Ctx G cw F) {T : List Dart} (hT : Spec.IsSpanningTree G T) :
    ∃ R : RTree c.toEmb, ∀ u v, R.isT u v ↔ ((u.1, v.1) ∈ T ∨ (v.1, u.1) ∈ T) := by
  classical
  set r : Fin G.nodes.length := ⟨0, c.pos⟩ with hr
  set D : Fin G.nodes.length → Fin G.nodes.length → Prop := fun u v => (u.1, v.1) ∈ T ∨ (v.1, u.1) ∈ T with hD
  have hreach : ∀ u : Fin G.nodes.length, Relation.ReflTransGen D u r := by
    intro u
    have h := hT.conn u.1 (c.mem_nodes.2 u.2) r.1 (c.mem_nodes.2 r.2)
    have key : ∀ x, Relation.ReflTransGen (fun a b => (a, b) ∈ T ∨ (b, a) ∈ T) u.1 x →
        ∀ hx : x < G.nodes.length, Relation.ReflTransGen D u ⟨x, hx⟩ := by
      intro x hx
      induction hx with
      | refl => intro _; exact Relation.ReflTransGen.refl
      | @tail b _ _ hbc ih =>
        intro hx
        have hlt : b < G.nodes.length := by
          rcases hbc with h | h
          · exact (c.lt_of_edge (hT.sub _ h)).1
          · exact (c.lt_of_edge (hT.sub _ h)).2
        exact Relation.ReflTransGen.tail (ih hlt) hbc
    exact key r.1 h r.2
  obtain ⟨rk, hrk⟩ := rank_of_reach D (· = r) (fun x => ⟨r, rfl, hreach x⟩)
  have : ∀ x, ∃ y, x ≠ r → D x y ∧ rk y < rk x := by
    intro x
    by_cases hx : x = r
    · exact ⟨x, fun h => absurd hx h⟩
    · obtain ⟨y, hy⟩ := hrk x hx
      exact ⟨y, fun _ => hy⟩
  choose par hpar using this
  have hadj : ∀ {u v}, D u v → c.toEmb.adj u v := by
    rintro u v (h | h)
    · exact hT.sub _ h
    · exact NxGraph.hasEdge_symm (hT.sub _ h)
  let R : RTree c.toEmb := ⟨r, par, rk, fun h => hadj (hpar _ h).1, fun h => (hpar _ h).2⟩
  refine ⟨R, fun u v => ⟨?_, ?_⟩⟩
  · rintro (⟨h1, rfl⟩ | ⟨h1, rfl⟩)
    · exact (hpar u h1).1
    · exact Or.symm (hpar v h1).1
  · intro huv
    set S : Finset (Sym2 ℕ) := (T.map fun e => s(e.1, e.2)).toFinset with hS
    set I : Finset (Sym2 ℕ) := ((Finset.univ : Finset (Fin G.nodes.length)).erase r).image
      fun v => s(v.1, (par v).1) with hI
    have hsub : I ⊆ S := by
      intro p hp
      obtain ⟨w, hw, rfl⟩ := Finset.mem_image.1 hp
      rw [hS, List.mem_toFinset, List.mem_map]
      rcases (hpar w (Finset.ne_of_mem_erase hw)).1 with h | h
      · exact ⟨_, h, rfl⟩
      · exact ⟨_, h, Sym2.eq_swap⟩
    have hIc : I.card = G.nodes.length - 1 := by
      rw [hI, Finset.card_image_of_injOn, Finset.card_erase_of_mem (Finset.mem_univ _), Finset.card_univ,
        Fintype.card_fin]
      intro a ha b hb hab
      have ha' := hpar a (Finset.ne_of_mem_erase ha)
      have hb' := hpar b (Finset.ne_of_mem_erase hb)
      rcases Sym2.eq_iff.1 hab with ⟨h, _⟩ | ⟨h1, h2⟩
      · exact Fin.ext h
      · have h1 := Fin.ext h1
        have h2 := Fin.ext h2
        rw [h2] at ha'
        rw [← h1] at hb'
        omega
    have hSc : S.card ≤ T.length := by
      have := List.toFinset_card_le (T.map fun e => s(e.1, e.2))
      rwa [List.length_map] at this
    have hcard := hT.card
    have heq : I = S := Finset.eq_of_subset_of_card_le hsub (by rw [hIc]; omega)
    have hmem : s(u.1, v.1) ∈ S := by
      rw [hS, List.mem_toFinset, List.mem_map]
      rcases huv with h | h
      · exact ⟨_, h, rfl⟩
      · exact ⟨_, h, Sym2.eq_swap⟩
    rw [← heq] at hmem
    obtain ⟨w, hw, hwe⟩ := Finset.mem_image.1 hmem
    have hwr := Finset.ne_of_mem_erase hw
    rcases Sym2.eq_iff.1 hwe with ⟨h1, h2⟩ | ⟨h1, h2⟩
    · left
      have := Fin.ext h1
      subst this
      exact ⟨hwr, Fin.ext h2⟩
    · right
      have := Fin.ext h1
      subst this
      exact ⟨hwr, Fin.ext h2⟩

end Ctx
end FF
