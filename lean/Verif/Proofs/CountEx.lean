import Verif.Proofs.PfoExact
import Verif.Proofs.GraphEx

/-!
# Graphs on which counting goes wrong
-/

namespace FF
open Relation

/-! ## Dense graphs are not planar -/

/-- every face of a connected simple graph with at least three nodes has at least three edges -/
theorem three_le_face {G : NxGraph ℕ} {cw : ℕ → ℕ → ℕ} (hs : Spec.IsSimple G) (hc : G.isConnected)
    (hn : 3 ≤ G.nodes.length) (hr : Spec.IsRotation G cw) {f : List Dart} (hf : Spec.IsFaceWalk cw f)
    (hm : ∀ d ∈ f, G.hasEdge d.1 d.2) : 3 ≤ f.length := by
  obtain ⟨hne, hw⟩ := hf
  match f, hne, hw, hm with
  | [], hne, _, _ => exact absurd rfl hne
  | [d], _, hw, hm =>
    exfalso
    have h := hw 0 (by simp)
    simp only [List.length_singleton, Nat.mod_one, List.getElem_cons_zero, Spec.next] at h
    have h1 : d.1 = d.2 := congrArg Prod.fst h
    have := hm d (by simp)
    rw [h1] at this
    exact hs.irrefl _ this
  | [d, e], _, hw, hm =>
    exfalso
    have h0 := hw 0 (by simp)
    have h1 := hw 1 (by simp)
    simp [Spec.next] at h0 h1
    have hd := hm d (by simp)
    obtain ⟨u, v⟩ := d
    subst h0
    simp only [Prod.mk.injEq] at h1
    obtain ⟨h1, h2⟩ := h1
    rw [← h1] at h2
    -- `u` is the only neighbour of `v`, and conversely
    have hu : ∀ x, G.hasEdge v x → x = u := by
      intro x hx
      obtain ⟨k, hk⟩ := hr.cyclic v u x hd.symm hx
      rw [← hk]
      exact Function.iterate_fixed h1.symm k
    have hv : ∀ x, G.hasEdge u x → x = v := by
      intro x hx
      obtain ⟨k, hk⟩ := hr.cyclic u v x hd hx
      rw [← hk]
      exact Function.iterate_fixed h2.symm k
    have hall : ∀ x ∈ G.nodes, x = u ∨ x = v := by
      intro x hx
      have := hc u (hs.mem_nodes hd).1 x hx
      induction this with
      | refl => exact Or.inl rfl
      | tail _ hbc ih =>
        rcases ih (hs.mem_nodes hbc).1 with h | h
        · rw [h] at hbc; exact Or.inr (hv _ hbc)
        · rw [h] at hbc; exact Or.inl (hu _ hbc)
    have hsub : G.nodes ⊆ [u, v] := by
      intro x hx
      simpa using hall x hx
    have := (hs.nodes_nodup.subperm hsub).length_le
    simp at this
    omega
  | _ :: _ :: _ :: _, _, _, _ => simp

/-- a connected planar simple graph with `n ≥ 3` nodes has at most `3 n - 6` edges -/
theorem planar_edges_le {G : NxGraph ℕ} {cw : ℕ → ℕ → ℕ} (hs : Spec.IsSimple G) (hc : G.isConnected)
    (hn : 3 ≤ G.nodes.length) (hE : G.edges ≠ []) (hp : Spec.IsPlanarEmbedding G cw) :
    G.edges.length + 6 ≤ 3 * G.nodes.length := by
  obtain ⟨F, -, hl⟩ := traceFaces_ok hE hp.rotation.mem hp.rotation.inj
  have he := hp.euler
  rw [hl.numFaces] at he
  have h1 : F.flatten.length = 2 * G.edges.length := by
    rw [hl.perm.length_eq, length_edgeset hs]
  have h2 : ∀ F' : List (List Dart), (∀ f ∈ F', 3 ≤ f.length) → 3 * F'.length ≤ F'.flatten.length := by
    intro F'
    induction F' with
    | nil => simp
    | cons f F' ih =>
      intro h
      have := ih (fun f hf => h f (by simp [hf]))
      have := h f (by simp)
      rw [List.flatten_cons, List.length_append, List.length_cons]
      omega
  have := h2 F fun f hf => three_le_face hs hc hn hp.rotation (hl.cyc f hf).walk fun d hd => hl.mem_edge hf hd
  omega

/-! ## Complete graphs -/

/-- the complete graph -/
def completeG (n : ℕ) : NxGraph ℕ :=
  { nodes := List.range n
    edges := (List.range n).flatMap fun i => ((List.range n).filter (i < ·)).map fun j => (i, j) }

theorem mem_completeG {n : ℕ} {e : ℕ × ℕ} : e ∈ (completeG n).edges ↔ e.1 < e.2 ∧ e.2 < n := by
  obtain ⟨i, j⟩ := e
  simp only [completeG, List.mem_flatMap, List.mem_range, List.mem_map, List.mem_filter, decide_eq_true_eq,
    Prod.mk.injEq]
  constructor
  · rintro ⟨a, ha, b, ⟨hb, hab⟩, rfl, rfl⟩; exact ⟨hab, hb⟩
  · rintro ⟨h1, h2⟩; exact ⟨i, by omega, j, ⟨h2, h1⟩, rfl, rfl⟩

theorem completeG_nodup (n : ℕ) : (completeG n).edges.Nodup := by
  unfold completeG
  rw [List.nodup_flatMap]
  refine ⟨fun i _ => (List.nodup_range.filter _).map (fun a b h => by simpa using h), ?_⟩
  refine List.nodup_range.imp ?_
  intro a b hab
  simp only [Function.onFun, List.disjoint_left, List.mem_map, not_exists, not_and]
  rintro e ⟨j, -, rfl⟩ k - h
  simp only [Prod.mk.injEq] at h
  exact hab h.1.symm

theorem completeG_simple (n : ℕ) : Spec.IsSimple (completeG n) := by
  refine ⟨List.nodup_range, completeG_nodup n, ?_, ?_, fun _ _ => rfl⟩
  · intro e he
    rw [mem_completeG] at he
    simp only [completeG, List.mem_range]
    omega
  · intro e he
    rw [mem_completeG] at he
    have : ∀ k < n, (completeG n).nodes.idxOf k = k := by
      intro k hk
      have := (List.nodup_range (n := n)).idxOf_getElem k (by simpa using hk)
      simpa [completeG] using this
    rw [this _ (by omega), this _ he.2]
    exact he.1

theorem completeG_connected (n : ℕ) : (completeG n).isConnected := by
  intro u hu v hv
  simp only [completeG, List.mem_range] at hu hv
  rcases lt_trichotomy u v with h | h | h
  · exact ReflTransGen.single (Or.inl (mem_completeG.2 ⟨h, hv⟩))
  · rw [h]
  · exact ReflTransGen.single (Or.inr (mem_completeG.2 ⟨h, hu⟩))

/-- stars at four nodes already have more edges than a planar graph can have -/
theorem completeG_edges {n : ℕ} (hn : 5 ≤ n) : 3 * n < (completeG n).edges.length + 6 := by
  have hsub : ((List.range 4).flatMap fun i => ((List.range n).filter (i < ·)).map fun j => (i, j)).Sublist (completeG n).edges := by
    unfold completeG
    apply List.Sublist.flatMap
    exact List.range_sublist.2 (by omega)
  have hlen : ∀ i < n, (((List.range n).filter (i < ·)).map fun j => (i, j)).length = n - 1 - i := by
    intro i hi
    rw [List.length_map]
    have h : (List.range n).filter (i < ·) = List.range' (i + 1) (n - 1 - i) := by
      have hr : List.range n = List.range (i + 1) ++ List.range' (i + 1) (n - 1 - i) := by
        have h := List.range'_append (s := 0) (m := i + 1) (n := n - 1 - i) (step := 1)
        rw [List.range_eq_range', List.range_eq_range', show n = i + 1 + (n - 1 - i) by omega, ← h]
        simp
      rw [hr, List.filter_append, List.filter_eq_nil_iff.2, List.filter_eq_self.2]
      · rfl
      · intro a ha; rw [List.mem_range'_1] at ha; simp; omega
      · intro a ha; rw [List.mem_range] at ha; simp; omega
    rw [h, List.length_range']
  have := hsub.length_le
  rw [show List.range 4 = [0, 1, 2, 3] from rfl] at this
  simp only [List.flatMap_cons, List.flatMap_nil, List.length_append, List.append_nil] at this
  rw [hlen 0 (by omega), hlen 1 (by omega), hlen 2 (by omega), hlen 3 (by omega)] at this
  omega

/-- the perfect matching `0-1, 2-3, …` -/
theorem completeG_matching (m : ℕ) : Spec.IsPerfectMatchingOf (completeG (2 * m))
    ((List.range m).map fun k => (2 * k, 2 * k + 1)).toFinset := by
  have hnd : ((List.range m).map fun k => (2 * k, 2 * k + 1)).Nodup :=
    List.nodup_range.map (fun a b h => by simp only [Prod.mk.injEq] at h; omega)
  rw [isPerfectMatchingOf_iff (completeG_simple _) hnd]
  · show List.Perm _ (List.range (2 * m))
    rw [List.perm_ext_iff_of_nodup _ List.nodup_range]
    · intro a
      simp only [List.mem_flatMap, List.mem_map, List.mem_range, List.mem_cons, List.not_mem_nil, or_false]
      constructor
      · rintro ⟨e, ⟨k, hk, rfl⟩, h | h⟩ <;> omega
      · intro h
        exact ⟨_, ⟨a / 2, by omega, rfl⟩, by omega⟩
    · rw [List.nodup_flatMap]
      refine ⟨?_, ?_⟩
      · intro e he
        obtain ⟨k, -, rfl⟩ := List.mem_map.1 he
        simp
      · rw [List.pairwise_map]
        refine List.nodup_range.imp ?_
        intro a b hab
        simp only [Function.onFun, List.disjoint_left, List.mem_cons, List.not_mem_nil, or_false]
        omega
  · intro e he
    obtain ⟨k, hk, rfl⟩ := List.mem_map.1 he
    rw [List.mem_range] at hk
    rw [mem_completeG]
    exact ⟨by omega, by omega⟩

/-! ## Two disjoint edges -/

/-- two disjoint edges -/
def twoEdges : NxGraph ℕ := { nodes := [0, 1, 2, 3], edges := [(0, 1), (2, 3)] }

theorem twoEdges_simple : Spec.IsSimple twoEdges := ⟨by decide, by decide, by decide, by decide, fun _ _ => rfl⟩

theorem twoEdges_hasEdge {u v : ℕ} : twoEdges.hasEdge u v ↔
    (u = 0 ∧ v = 1) ∨ (u = 1 ∧ v = 0) ∨ (u = 2 ∧ v = 3) ∨ (u = 3 ∧ v = 2) := by
  simp [NxGraph.hasEdge, twoEdges]
  omega

theorem twoEdges_plane : Spec.IsPlane twoEdges (fun _ u => u) := by
  have hr : Spec.IsRotation twoEdges (fun _ u => u) := isRotation_of (by decide) (by decide) (by decide)
  refine ⟨hr, ?_⟩
  rw [numFaces_of (F := [[(0, 1), (1, 0)], [(2, 3), (3, 2)]]) (by decide) hr (by rfl)]
  have h1 : Spec.touched twoEdges = {v | v ∈ twoEdges.nodes} := by
    refine Set.Subset.antisymm (touched_subset twoEdges_simple) fun v hv => ?_
    simp only [twoEdges, List.mem_cons, List.not_mem_nil, or_false, Set.mem_setOf_eq] at hv
    rcases hv with rfl | rfl | rfl | rfl
    · exact ⟨1, by decide⟩
    · exact ⟨0, by decide⟩
    · exact ⟨3, by decide⟩
    · exact ⟨2, by decide⟩
  have h2 : Spec.numComponents twoEdges = 2 := by
    have e1 : ReflTransGen twoEdges.hasEdge 1 0 := ReflTransGen.single (by decide)
    have e2 : ReflTransGen twoEdges.hasEdge 3 2 := ReflTransGen.single (by decide)
    have hset : {S | ∃ v ∈ Spec.touched twoEdges, S = Spec.component twoEdges v} =
        {Spec.component twoEdges 0, Spec.component twoEdges 2} := by
      ext S
      constructor
      · rintro ⟨v, hv, rfl⟩
        rw [h1] at hv
        simp only [twoEdges, List.mem_cons, List.not_mem_nil, or_false, Set.mem_setOf_eq] at hv
        rcases hv with rfl | rfl | rfl | rfl
        · exact Or.inl rfl
        · exact Or.inl (component_eq.2 e1)
        · exact Or.inr rfl
        · exact Or.inr (component_eq.2 e2)
      · rintro (rfl | rfl)
        · exact ⟨0, ⟨1, by decide⟩, rfl⟩
        · exact ⟨2, ⟨3, by decide⟩, rfl⟩
    rw [Spec.numComponents, hset, Set.ncard_pair]
    intro h
    have hx : ∀ x, ReflTransGen twoEdges.hasEdge 0 x → x < 2 := by
      intro x hx
      induction hx with
      | refl => omega
      | tail _ h ih => rw [twoEdges_hasEdge] at h; omega
    have := hx 2 (component_eq.1 h)
    omega
  rw [h1, h2, nodes_ncard twoEdges_simple]
  rfl

theorem twoEdges_components : Spec.numComponents twoEdges ≠ 1 := by
  intro h
  have := (numComponents_one_iff twoEdges_simple (by decide)).1 h 0 ⟨1, by decide⟩ 2 ⟨3, by decide⟩
  have hx : ∀ x, ReflTransGen twoEdges.hasEdge 0 x → x < 2 := by
    intro x hx
    induction hx with
    | refl => omega
    | tail _ h ih => rw [twoEdges_hasEdge] at h; omega
  have := hx 2 this
  omega

theorem twoEdges_some {nx : Nx} (hnx : Spec.NxContract nx) : (nx.checkPlanarity twoEdges).isSome :=
  hnx.total _ _ twoEdges_simple twoEdges_plane

theorem twoEdges_pfo {nx : Nx} (hnx : Spec.NxContract nx) : pfoAlgorithm nx twoEdges = .error .assertionError :=
  (pfo_outcome hnx twoEdges_simple (by decide) (twoEdges_some hnx)).1 fun h => twoEdges_components h.1

end FF
