import Verif.Proofs.Dual
import Verif.Proofs.Plane

/-!
# When the dual graph is a tree: graphs with any labels and any number of components
-/

namespace FF
open Verif.Kasteleyn Relation

/-! ## Adding edges -/

theorem fold_nodes_le (l : List (ℕ × ℕ)) : ∀ H : NxGraph ℕ, H.nodes.length ≤ (l.foldl NxGraph.addEdge H).nodes.length := by
  induction l with
  | nil => intro H; exact le_rfl
  | cons e l ih =>
    intro H
    refine le_trans ?_ (ih _)
    simp only [NxGraph.addEdge]
    split_ifs <;> simp

theorem fold_edges_le (l : List (ℕ × ℕ)) : ∀ H : NxGraph ℕ,
    (l.foldl NxGraph.addEdge H).edges.length ≤ H.edges.length + l.length := by
  induction l with
  | nil => intro H; exact le_rfl
  | cons e l ih =>
    intro H
    refine (ih _).trans ?_
    simp only [NxGraph.addEdge, List.length_cons]
    split_ifs <;> simp <;> omega

theorem fold_nodes_eq (l : List (ℕ × ℕ)) : ∀ H : NxGraph ℕ, (∀ e ∈ l, e.1 ∈ H.nodes ∧ e.2 ∈ H.nodes) →
    (l.foldl NxGraph.addEdge H).nodes = H.nodes := by
  induction l with
  | nil => intro H _; rfl
  | cons e l ih =>
    intro H h
    have he := h e (by simp)
    have hn : (H.addEdge e).nodes = H.nodes := by simp only [NxGraph.addEdge, if_pos he.1, if_pos he.2]
    rw [List.foldl_cons, ih _ (fun x hx => by rw [hn]; exact h x (by simp [hx])), hn]

theorem fold_hasEdge (l : List (ℕ × ℕ)) : ∀ (H : NxGraph ℕ) (u v : ℕ),
    (l.foldl NxGraph.addEdge H).hasEdge u v ↔ H.hasEdge u v ∨ (u, v) ∈ l ∨ (v, u) ∈ l := by
  induction l with
  | nil => intro H u v; simp
  | cons e l ih =>
    intro H u v
    have hstep : (H.addEdge e).hasEdge u v ↔ H.hasEdge u v ∨ (u, v) = e ∨ (v, u) = e := by
      by_cases h : H.hasEdge e.1 e.2
      · have hE : (H.addEdge e).edges = H.edges := by rw [NxGraph.addEdge]; exact if_pos h
        have : (H.addEdge e).hasEdge u v ↔ H.hasEdge u v := by rw [NxGraph.hasEdge, NxGraph.hasEdge, hE]
        rw [this]
        constructor
        · exact Or.inl
        · rintro (h' | rfl | rfl)
          · exact h'
          · exact h
          · exact Or.symm h
      · have hE : (H.addEdge e).edges = H.edges ++ [e] := by rw [NxGraph.addEdge]; exact if_neg h
        simp only [NxGraph.hasEdge, hE, List.mem_append, List.mem_singleton]
        tauto
    rw [List.foldl_cons, ih, hstep]
    simp only [List.mem_cons]
    tauto

/-- a connected graph has at least `n - 1` edges -/
theorem conn_edges {H : NxGraph ℕ} (hnd : H.nodes.Nodup) (hc : H.isConnected) : H.nodes.length ≤ H.edges.length + 1 := by
  classical
  rcases hn : H.nodes with _ | ⟨r, l⟩
  · simp
  have hr : r ∈ H.nodes := by rw [hn]; simp
  obtain ⟨rk, hrk⟩ := rank_of_reach H.hasEdge (fun x => x = r ∨ x ∉ H.nodes) (fun x => by
    by_cases hx : x ∈ H.nodes
    · exact ⟨r, Or.inl rfl, hc x hx r hr⟩
    · exact ⟨x, Or.inr hx, ReflTransGen.refl⟩)
  have : ∀ x, ∃ y, x ∈ l → H.hasEdge x y ∧ rk y < rk x := by
    intro x
    by_cases hx : x ∈ l
    · obtain ⟨y, hy⟩ := hrk x (by
        rintro (rfl | h)
        · rw [hn] at hnd; exact (List.nodup_cons.1 hnd).1 hx
        · exact h (by rw [hn]; simp [hx]))
      exact ⟨y, fun _ => hy⟩
    · exact ⟨0, fun h => absurd h hx⟩
  choose par hpar using this
  have hl : l.Nodup := by rw [hn] at hnd; exact (List.nodup_cons.1 hnd).2
  have hle : l.toFinset.card ≤ ((H.edges.map fun e => s(e.1, e.2)).toFinset).card := by
    refine Finset.card_le_card_of_injOn (fun x => s(x, par x)) ?_ ?_
    · intro x hx
      have hx : x ∈ l := by simpa using hx
      simp only [List.coe_toFinset, Set.mem_ofPred_eq, List.mem_map]
      rcases (hpar x hx).1 with h | h
      · exact ⟨_, h, rfl⟩
      · exact ⟨_, h, Sym2.eq_swap⟩
    · intro x hx y hy hxy
      have hx : x ∈ l := by simpa using hx
      have hy : y ∈ l := by simpa using hy
      rcases Sym2.eq_iff.1 hxy with h | ⟨h1, h2⟩
      · exact h.1
      · have h3 := (hpar x hx).2
        have h4 := (hpar y hy).2
        rw [h2] at h3
        rw [← h1] at h4
        omega
  rw [List.toFinset_card_of_nodup hl] at hle
  have := List.toFinset_card_le (H.edges.map fun e => s(e.1, e.2))
  rw [List.length_map] at this
  simp only [List.length_cons]
  omega

/-! ## Edges outside of the forest -/

section
variable {G : NxGraph ℕ} {cw : ℕ → ℕ → ℕ} {F : List (List Dart)} {T : List Dart}

theorem notInT_length (hs : Spec.IsSimple G) (hT : Spec.IsSpanningForest G T) :
    (edgesNotInT G T).length + T.length = G.edges.length := by
  classical
  have h1 : (G.edges.filter fun e => e ∈ T ∨ (e.2, e.1) ∈ T).length = T.length := by
    have hS : ((G.edges.filter fun e => e ∈ T ∨ (e.2, e.1) ∈ T).map fun e => s(e.1, e.2)).Perm (T.map fun e => s(e.1, e.2)) := by
      rw [List.perm_ext_iff_of_nodup _ hT.nodup]
      · intro x
        simp only [List.mem_map, List.mem_filter, decide_eq_true_eq]
        constructor
        · rintro ⟨e, ⟨-, h | h⟩, rfl⟩
          · exact ⟨e, h, rfl⟩
          · exact ⟨_, h, Sym2.eq_swap⟩
        · rintro ⟨e, he, rfl⟩
          rcases hT.sub e he with h | h
          · exact ⟨e, ⟨h, Or.inl he⟩, rfl⟩
          · exact ⟨(e.2, e.1), ⟨h, Or.inr he⟩, Sym2.eq_swap⟩
      · refine List.Nodup.map_on ?_ (hs.edges_nodup.filter _)
        intro x hx y hy hxy
        rcases Sym2.eq_iff.1 hxy with h | ⟨h1, h2⟩
        · exact Prod.ext h.1 h.2
        · have hx := (List.mem_filter.1 hx).1
          have hy := (List.mem_filter.1 hy).1
          refine absurd hy (hs.antisymm (a := y.2) (b := y.1) ?_)
          rw [← h1, ← h2]
          exact hx
    have := hS.length_eq
    rwa [List.length_map, List.length_map] at this
  rw [← h1, edgesNotInT, add_comm]
  have := List.length_eq_length_filter_add (l := G.edges) (fun e => decide (e ∈ T ∨ (e.2, e.1) ∈ T))
  rw [this]
  congr 1
  simp

/-- the number of faces -/
theorem faces_count (hs : Spec.IsSimple G) (hp : Spec.IsPlane G cw) (hl : IsFaceList G cw F) (hT : Spec.IsSpanningForest G T) :
    F.length = (edgesNotInT G T).length + Spec.numComponents G := by
  have h1 := hp.euler
  rw [hl.numFaces] at h1
  have h2 := notInT_length hs hT
  have h3 := hT.card
  omega

theorem dualScan_desc {e : Dart} (h : ¬ e.1 < e.2) (hne : e.1 ≠ e.2) :
    dualScan (F.map fun f => f.map sortDart) e none (F.map fun f => f.map sortDart) = none := by
  apply dualScan_none
  intro f hf hef
  obtain ⟨f, -, rfl⟩ := List.mem_map.1 hf
  obtain ⟨d, -, rfl⟩ := List.mem_map.1 hef
  simp only [sortDart] at h hne
  omega

/-- if the dual graph is a tree, there is one component with edges and all edges outside of the forest are reported from the
smaller to the larger node -/
theorem dual_tree_only (nx : Nx) (ho : ∀ l, (nx.setOrder l).Perm l) (hs : Spec.IsSimple G) (hE : G.edges ≠ [])
    (hp : Spec.IsPlane G cw) (hl : IsFaceList G cw F) (hT : Spec.IsSpanningForest G T) (h : (dualGraphH nx G F T).isTree) :
    Spec.numComponents G = 1 ∧ ∀ e ∈ edgesNotInT G T, e.1 < e.2 := by
  classical
  set fe := F.map fun f => f.map sortDart with hfe
  have hperm := ho (edgesNotInT G T)
  have h1 : ((nx.setOrder (edgesNotInT G T)).filterMap fun e => dualScan fe e none fe).length ≤
      ((edgesNotInT G T).filter fun e => e.1 < e.2).length := by
    rw [(hperm.filterMap _).length_eq]
    have hfl : ∀ l : List Dart, (∀ e ∈ l, e ∈ G.edges) →
        (l.filterMap fun e => dualScan fe e none fe).length ≤ (l.filter fun e => decide (e.1 < e.2)).length := by
      intro l
      induction l with
      | nil => intro _; simp
      | cons e l ih =>
        intro hm
        have ih := ih fun x hx => hm x (by simp [hx])
        have he : e.1 ≠ e.2 := fun h => by
          have := hs.ordered e (hm e (by simp))
          rw [h] at this
          exact lt_irrefl _ this
        by_cases hlt : e.1 < e.2
        · rw [List.filter_cons_of_pos (by simpa using hlt), List.length_cons]
          rcases hd : dualScan fe e none fe with _ | d
          · rw [List.filterMap_cons_none (f := fun e => dualScan fe e none fe) hd]; omega
          · rw [List.filterMap_cons_some (f := fun e => dualScan fe e none fe) hd, List.length_cons]; omega
        · rw [List.filterMap_cons_none (f := fun e => dualScan fe e none fe) (dualScan_desc hlt he), List.filter_cons_of_neg (by simpa using hlt)]
          exact ih
    exact hfl _ fun e he => (Ctx.mem_edgesNotInT.1 he).1
  have h2 := fold_nodes_le ((nx.setOrder (edgesNotInT G T)).filterMap fun e => dualScan fe e none fe)
    { nodes := List.range fe.length, edges := [] }
  have h3 := fold_edges_le ((nx.setOrder (edgesNotInT G T)).filterMap fun e => dualScan fe e none fe)
    { nodes := List.range fe.length, edges := [] }
  have h4 : ((nx.setOrder (edgesNotInT G T)).filterMap fun e => dualScan fe e none fe).foldl NxGraph.addEdge
    { nodes := List.range fe.length, edges := [] } = dualGraphH nx G F T := rfl
  rw [h4] at h2 h3
  simp only [List.length_range, List.length_nil, zero_add] at h2 h3
  have hfl : fe.length = F.length := by rw [hfe, List.length_map]
  have h5 := h.1
  have h6 := faces_count hs hp hl hT
  have h7 := List.length_filter_le (fun e : Dart => decide (e.1 < e.2)) (edgesNotInT G T)
  have h8 := numComponents_pos hs hE
  have h9 : ((edgesNotInT G T).filter fun e : Dart => decide (e.1 < e.2)).length = (edgesNotInT G T).length := by omega
  refine ⟨by omega, fun e he => ?_⟩
  have := List.length_filter_eq_length_iff.1 h9 e he
  simpa using this

end

/-! ## One component with edges -/

/-- A plane graph all of whose edges are in one component. -/
structure PCtx (G : NxGraph ℕ) (cw : ℕ → ℕ → ℕ) (F : List (List Dart)) : Prop where
  simple : Spec.IsSimple G
  ne : G.edges ≠ []
  one : Spec.numComponents G = 1
  emb : Spec.IsPlane G cw
  faces : IsFaceList G cw F

namespace PCtx
variable {G : NxGraph ℕ} {cw : ℕ → ℕ → ℕ} {F : List (List Dart)}

/-- the nodes with a neighbour -/
abbrev Vx (G : NxGraph ℕ) : Type := {v : ℕ // v ∈ Spec.touched G}

noncomputable def fin (c : PCtx G cw F) : Fintype (Vx G) := (touched_finite c.simple).fintype

theorem card_V (c : PCtx G cw F) : @Fintype.card (Vx G) c.fin = (Spec.touched G).ncard := by
  rw [@Fintype.card_eq_nat_card _ c.fin]
  rfl

theorem left_mem {u v : ℕ} (h : G.hasEdge u v) : u ∈ Spec.touched G := ⟨v, h⟩
theorem right_mem {u v : ℕ} (h : G.hasEdge u v) : v ∈ Spec.touched G := ⟨u, Or.symm h⟩

open Classical in
noncomputable def cwV (G : NxGraph ℕ) (cw : ℕ → ℕ → ℕ) (v u : Vx G) : Vx G :=
  if h : cw v.1 u.1 ∈ Spec.touched G then ⟨cw v.1 u.1, h⟩ else v

theorem cwV_val (c : PCtx G cw F) {v u : Vx G} (h : G.hasEdge v.1 u.1) : (cwV G cw v u).1 = cw v.1 u.1 := by
  rw [cwV, dif_pos (right_mem (c.emb.rotation.mem _ _ h))]

theorem cwV_iter (c : PCtx G cw F) {v u : Vx G} (h : G.hasEdge v.1 u.1) (k : ℕ) :
    ((cwV G cw v)^[k] u).1 = (cw v.1)^[k] u.1 ∧ G.hasEdge v.1 ((cwV G cw v)^[k] u).1 := by
  induction k with
  | zero => exact ⟨rfl, h⟩
  | succ k ih =>
    rw [Function.iterate_succ_apply', Function.iterate_succ_apply', c.cwV_val ih.2]
    constructor
    · rw [ih.1]
    · exact c.emb.rotation.mem _ _ ih.2

open Classical in
noncomputable def faceV (c : PCtx G cw F) (u v : Vx G) : Fin F.length :=
  if h : G.hasEdge u.1 v.1 then (c.faces.exists_face (d := (u.1, v.1)) h).choose else ⟨0, c.faces.pos c.ne⟩

theorem faceV_spec (c : PCtx G cw F) {u v : Vx G} (h : G.hasEdge u.1 v.1) : (u.1, v.1) ∈ F.get (c.faceV u v) := by
  rw [faceV, dif_pos h]
  exact (c.faces.exists_face (d := (u.1, v.1)) h).choose_spec

theorem faceV_eq (c : PCtx G cw F) {u v : Vx G} {i : Fin F.length} (h : (u.1, v.1) ∈ F.get i) : c.faceV u v = i :=
  c.faces.unique (c.faceV_spec (c.faces.mem_edge (List.get_mem F i) h)) h

theorem faceV_val (c : PCtx G cw F) {u v : Vx G} (h : G.hasEdge u.1 v.1) : (c.faceV u v).1 = fIdx F (u.1, v.1) :=
  (c.faces.fIdx_eq (c.faceV_spec h)).symm

theorem card_darts (c : PCtx G cw F) : Nat.card {d : Vx G × Vx G // G.hasEdge d.1.1 d.2.1} = 2 * G.edges.length := by
  classical
  letI := c.fin
  rw [← length_edgeset c.simple, ← List.toFinset_card_of_nodup (edgeset_nodup G), Nat.card_eq_fintype_card,
    Fintype.card_subtype]
  apply Finset.card_bij (fun d _ => (d.1.1, d.2.1))
  · intro d hd
    simp only [Finset.mem_filter, Finset.mem_univ, true_and] at hd
    rw [List.mem_toFinset, mem_edgeset]; exact hd
  · intro a _ b _ hab
    simp only [Prod.mk.injEq] at hab
    exact Prod.ext (Subtype.ext hab.1) (Subtype.ext hab.2)
  · rintro ⟨u, v⟩ h
    rw [List.mem_toFinset, mem_edgeset] at h
    exact ⟨(⟨u, left_mem h⟩, ⟨v, right_mem h⟩), by simpa using h, rfl⟩

/-- The abstract embedding. -/
noncomputable def toEmb (c : PCtx G cw F) : @Emb (Vx G) (Fin F.length) c.fin _ :=
  letI := c.fin
  { adj u v := G.hasEdge u.1 v.1
    cw := cwV G cw
    face := c.faceV
    symm h := NxGraph.hasEdge_symm h
    irrefl v := c.simple.irrefl v.1
    cw_adj {v u} h := by rw [c.cwV_val h]; exact c.emb.rotation.mem _ _ h
    cw_inj {v u u'} h h' he := by
      apply Subtype.ext
      apply c.emb.rotation.inj _ _ _ h h'
      rw [← c.cwV_val h, ← c.cwV_val h', he]
    cw_trans {v u u'} h h' := by
      obtain ⟨k, hk⟩ := c.emb.rotation.cyclic _ _ _ h h'
      exact ⟨k, Subtype.ext (by rw [(c.cwV_iter h k).1, hk])⟩
    face_next {u v} h := by
      symm
      apply c.faceV_eq
      rw [c.cwV_val (NxGraph.hasEdge_symm h)]
      exact (c.faces.cyc _ (List.get_mem F _)).next_mem (c.faceV_spec h)
    surj i := by
      obtain ⟨d, hd⟩ := List.exists_mem_of_ne_nil _ (c.faces.cyc _ (List.get_mem F i)).ne_nil
      have h1 := c.faces.mem_edge (List.get_mem F i) hd
      exact ⟨⟨d.1, left_mem h1⟩, ⟨d.2, right_mem h1⟩, h1, c.faceV_eq hd⟩
    conn u v := by
      have h := (numComponents_one_iff c.simple c.ne).1 c.one u.1 u.2 v.1 v.2
      have key : ∀ x, ReflTransGen G.hasEdge u.1 x → ∀ hx : x ∈ Spec.touched G,
          ReflTransGen (fun a b : Vx G => G.hasEdge a.1 b.1) u ⟨x, hx⟩ := by
        intro x hx
        induction hx with
        | refl => intro _; exact ReflTransGen.refl
        | tail _ hbc ih =>
          intro hx
          exact ReflTransGen.tail (ih (left_mem hbc)) hbc
      exact key v.1 h v.2
    euler := by
      have h1 := c.emb.euler
      rw [c.faces.numFaces, c.one] at h1
      rw [c.card_V, Fintype.card_fin]
      have h2 := c.card_darts
      omega }

theorem exists_rtree (c : PCtx G cw F) {T : List Dart} (hT : Spec.IsSpanningForest G T) :
    letI := c.fin
    ∃ R : RTree c.toEmb, ∀ u v, R.isT u v ↔ ((u.1, v.1) ∈ T ∨ (v.1, u.1) ∈ T) := by
  classical
  letI := c.fin
  obtain ⟨r0, hr0⟩ := touched_nonempty c.ne
  set r : Vx G := ⟨r0, hr0⟩ with hr
  set D : Vx G → Vx G → Prop := fun u v => (u.1, v.1) ∈ T ∨ (v.1, u.1) ∈ T with hD
  have hreach : ∀ u : Vx G, ReflTransGen D u r := by
    intro u
    have h : ReflTransGen (fun a b => (a, b) ∈ T ∨ (b, a) ∈ T) u.1 r.1 := by
      have h := (numComponents_one_iff c.simple c.ne).1 c.one u.1 u.2 r.1 r.2
      generalize r.1 = x at h
      induction h with
      | refl => exact ReflTransGen.refl
      | tail _ h' ih => exact ih.trans (hT.conn _ _ h')
    have key : ∀ x, ReflTransGen (fun a b => (a, b) ∈ T ∨ (b, a) ∈ T) u.1 x →
        ∀ hx : x ∈ Spec.touched G, ReflTransGen D u ⟨x, hx⟩ := by
      intro x hx
      induction hx with
      | refl => intro _; exact ReflTransGen.refl
      | @tail b _ _ hbc ih =>
        intro hx
        have hb : b ∈ Spec.touched G := by
          rcases hbc with h | h
          · exact left_mem (hT.sub _ h)
          · exact right_mem (hT.sub _ h)
        exact ReflTransGen.tail (ih hb) hbc
    exact key r.1 h r.2
  obtain ⟨rk, hrk⟩ := rank_of_reach D (· = r) (fun x => ⟨r, rfl, hreach x⟩)
  have : ∀ x, ∃ y, x ≠ r → D x y ∧ rk y < rk x := by
    intro x
    by_cases hx : x = r
    · exact ⟨x, fun h => absurd hx h⟩
    · obtain ⟨y, hy⟩ := hrk x hx
      exact ⟨y, fun _ => hy⟩
  choose par hpar using this
  have hadj : ∀ {u v}, D u v → c.toEmb.adj u v := by
    rintro u v (h | h)
    · exact hT.sub _ h
    · exact NxGraph.hasEdge_symm (hT.sub _ h)
  let R : RTree c.toEmb := ⟨r, par, rk, fun h => hadj (hpar _ h).1, fun h => (hpar _ h).2⟩
  refine ⟨R, fun u v => ⟨?_, ?_⟩⟩
  · rintro (⟨h1, rfl⟩ | ⟨h1, rfl⟩)
    · exact (hpar u h1).1
    · exact Or.symm (hpar v h1).1
  · intro huv
    set S : Finset (Sym2 ℕ) := (T.map fun e => s(e.1, e.2)).toFinset with hS
    set I : Finset (Sym2 ℕ) := ((Finset.univ : Finset (Vx G)).erase r).image fun v => s(v.1, (par v).1) with hI
    have hsub : I ⊆ S := by
      intro p hp
      obtain ⟨w, hw, rfl⟩ := Finset.mem_image.1 hp
      rw [hS, List.mem_toFinset, List.mem_map]
      rcases (hpar w (Finset.ne_of_mem_erase hw)).1 with h | h
      · exact ⟨_, h, rfl⟩
      · exact ⟨_, h, Sym2.eq_swap⟩
    have hIc : I.card = (Spec.touched G).ncard - 1 := by
      rw [hI, Finset.card_image_of_injOn, Finset.card_erase_of_mem (Finset.mem_univ _), Finset.card_univ, c.card_V]
      intro a ha b hb hab
      have ha' := hpar a (Finset.ne_of_mem_erase ha)
      have hb' := hpar b (Finset.ne_of_mem_erase hb)
      rcases Sym2.eq_iff.1 hab with ⟨h, _⟩ | ⟨h1, h2⟩
      · exact Subtype.ext h
      · have h1 := Subtype.ext h1
        have h2 := Subtype.ext h2
        rw [h2] at ha'
        rw [← h1] at hb'
        omega
    have hSc : S.card ≤ T.length := by
      have := List.toFinset_card_le (T.map fun e => s(e.1, e.2))
      rwa [List.length_map] at this
    have hcard := hT.card
    rw [c.one] at hcard
    have heq : I = S := Finset.eq_of_subset_of_card_le hsub (by rw [hIc]; omega)
    have hmem : s(u.1, v.1) ∈ S := by
      rw [hS, List.mem_toFinset, List.mem_map]
      rcases huv with h | h
      · exact ⟨_, h, rfl⟩
      · exact ⟨_, h, Sym2.eq_swap⟩
    rw [← heq] at hmem
    obtain ⟨w, hw, hwe⟩ := Finset.mem_image.1 hmem
    have hwr := Finset.ne_of_mem_erase hw
    rcases Sym2.eq_iff.1 hwe with ⟨h1, h2⟩ | ⟨h1, h2⟩
    · left
      have := Subtype.ext h1
      subst this
      exact ⟨hwr, Subtype.ext h2⟩
    · right
      have := Subtype.ext h1
      subst this
      exact ⟨hwr, Subtype.ext h2⟩

/-- conversely the dual graph is then a tree, on the faces -/
theorem dual_tree (c : PCtx G cw F) {T : List Dart} (hT : Spec.IsSpanningForest G T) (nx : Nx)
    (ho : ∀ l, (nx.setOrder l).Perm l) (hasc : ∀ e ∈ edgesNotInT G T, e.1 < e.2) :
    (dualGraphH nx G F T).nodes = List.range F.length ∧ (dualGraphH nx G F T).isTree := by
  classical
  letI := c.fin
  obtain ⟨R, hR⟩ := c.exists_rtree hT
  obtain ⟨C, -⟩ := R.exists_coTree (⟨0, c.faces.pos c.ne⟩ : Fin F.length)
  set fe := F.map fun f => f.map sortDart with hfe
  have hfel : fe.length = F.length := by simp [hfe]
  have hside : ∀ e ∈ edgesNotInT G T, G.hasEdge e.1 e.2 ∧ fIdx F e ≠ fIdx F (e.2, e.1) := by
    intro e he
    rw [Ctx.mem_edgesNotInT] at he
    have h1 : G.hasEdge e.1 e.2 := Or.inl he.1
    refine ⟨h1, fun h => ?_⟩
    obtain ⟨f, hf, hh⟩ := C.eq_of_notT (u := ⟨e.1, left_mem h1⟩) (v := ⟨e.2, right_mem h1⟩) h1
      (fun hh => he.2 ((hR _ _).1 hh))
    have hv : c.faceV ⟨e.1, left_mem h1⟩ ⟨e.2, right_mem h1⟩ = c.faceV ⟨e.2, right_mem h1⟩ ⟨e.1, left_mem h1⟩ := by
      apply Fin.ext
      rw [c.faceV_val h1, c.faceV_val (NxGraph.hasEdge_symm h1)]
      exact h
    have h3 := C.rk_lt hf
    have h2 := C.face hf
    rcases hh with h | h <;> rw [← h] at h3 h2
    · change c.faceV _ _ = f at h2
      change C.rk (c.faceV _ _) < _ at h3
      rw [← hv, h2] at h3; exact absurd h3 (lt_irrefl _)
    · change c.faceV _ _ = f at h2
      change C.rk (c.faceV _ _) < _ at h3
      rw [hv, h2] at h3; exact absurd h3 (lt_irrefl _)
  have hscan : ∀ e ∈ edgesNotInT G T, dualScan fe e none fe = some (Ctx.dualEdge F e) := by
    intro e he
    obtain ⟨hadj, hne⟩ := hside e he
    have hlt := hasc e he
    have hl1 := c.faces.fIdx_lt hadj
    have hl2 := c.faces.fIdx_lt (d := (e.2, e.1)) (NxGraph.hasEdge_symm hadj)
    apply dualScan_two c.faces.fe_nodup
    · rw [hfel]; omega
    · rw [hfel]; omega
    · omega
    · intro k hk
      rw [hfel] at hk
      have : fe[k]'(by rw [hfel]; exact hk) = (F[k]).map sortDart := by simp [hfe]
      rw [this, c.faces.mem_fe hadj hlt k hk]
      omega
  have hperm := ho (edgesNotInT G T)
  have hfm : (nx.setOrder (edgesNotInT G T)).filterMap (fun e => dualScan fe e none fe)
      = (nx.setOrder (edgesNotInT G T)).map (Ctx.dualEdge F) := by
    rw [← List.filterMap_eq_map]
    apply List.filterMap_congr
    intro e he
    exact hscan e (hperm.mem_iff.1 he)
  have hH : dualGraphH nx G F T = ((nx.setOrder (edgesNotInT G T)).map (Ctx.dualEdge F)).foldl NxGraph.addEdge
      { nodes := List.range F.length, edges := [] } := by
    rw [← hfm, ← hfel]; rfl
  have hnodes : (dualGraphH nx G F T).nodes = List.range F.length := by
    rw [hH, fold_nodes_eq]
    intro e he
    obtain ⟨d, hd, rfl⟩ := List.mem_map.1 he
    obtain ⟨hadj, hne⟩ := hside d (hperm.mem_iff.1 hd)
    have hl1 := c.faces.fIdx_lt hadj
    have hl2 := c.faces.fIdx_lt (d := (d.2, d.1)) (NxGraph.hasEdge_symm hadj)
    simp only [Ctx.dualEdge, List.mem_range]
    omega
  have hconn : (dualGraphH nx G F T).isConnected := by
    intro a ha b hb
    rw [hnodes, List.mem_range] at ha hb
    have h := R.dual_conn (⟨a, ha⟩ : Fin F.length) ⟨b, hb⟩
    have key : ∀ x : Fin F.length, ReflTransGen R.dual ⟨a, ha⟩ x → ReflTransGen (dualGraphH nx G F T).hasEdge a x.1 := by
      intro x hx
      induction hx with
      | refl => exact ReflTransGen.refl
      | @tail y z _ hyz ih =>
        refine ih.tail ?_
        obtain ⟨u, v, hadj, hnT, hy, hz⟩ := hyz
        have hadj' : G.hasEdge u.1 v.1 := hadj
        change c.faceV u v = y at hy
        change c.faceV v u = z at hz
        have hyv : y.1 = fIdx F (u.1, v.1) := by rw [← hy, c.faceV_val hadj']
        have hzv : z.1 = fIdx F (v.1, u.1) := by rw [← hz, c.faceV_val (NxGraph.hasEdge_symm hadj')]
        rw [hR] at hnT
        have hmem : ∀ e : Dart, e ∈ edgesNotInT G T →
            Ctx.dualEdge F e ∈ (nx.setOrder (edgesNotInT G T)).map (Ctx.dualEdge F) :=
          fun e he => List.mem_map.2 ⟨e, hperm.mem_iff.2 he, rfl⟩
        have hd : (min y.1 z.1, max y.1 z.1) ∈ (nx.setOrder (edgesNotInT G T)).map (Ctx.dualEdge F) := by
          rcases hadj' with h | h
          · have := hmem (u.1, v.1) (Ctx.mem_edgesNotInT.2 ⟨h, hnT⟩)
            rw [Ctx.dualEdge, ← hyv, ← hzv] at this
            exact this
          · have := hmem (v.1, u.1) (Ctx.mem_edgesNotInT.2 ⟨h, fun hh => hnT (Or.symm hh)⟩)
            rw [Ctx.dualEdge, ← hyv, ← hzv, min_comm, max_comm] at this
            exact this
        rw [hH, fold_hasEdge]
        right
        rcases le_total y.1 z.1 with h | h
        · rw [min_eq_left h, max_eq_right h] at hd; exact Or.inl hd
        · rw [min_eq_right h, max_eq_left h] at hd; exact Or.inr hd
    exact key ⟨b, hb⟩ h
  refine ⟨hnodes, ?_, hconn⟩
  have h1 := conn_edges (by rw [hnodes]; exact List.nodup_range) hconn
  have h2 : (dualGraphH nx G F T).edges.length ≤ (edgesNotInT G T).length := by
    have := fold_edges_le ((nx.setOrder (edgesNotInT G T)).map (Ctx.dualEdge F)) { nodes := List.range F.length, edges := [] }
    rw [← hH] at this
    simpa [hperm.length_eq] using this
  have h3 := faces_count c.simple c.emb c.faces hT
  rw [c.one] at h3
  have h4 : (dualGraphH nx G F T).nodes.length = F.length := by rw [hnodes, List.length_range]
  omega

end PCtx
end FF
