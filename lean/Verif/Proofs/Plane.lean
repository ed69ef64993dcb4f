import Verif.Proofs.Embedding

/-!
# Plane graphs with several components; the contract of networkx for connected graphs
-/

namespace FF
open Relation

section
variable {G : NxGraph ℕ} {cw : ℕ → ℕ → ℕ}

theorem reach_symm {α : Type} {G : NxGraph α} {u v : α} (h : ReflTransGen G.hasEdge u v) : ReflTransGen G.hasEdge v u := by
  induction h with
  | refl => exact ReflTransGen.refl
  | tail _ h ih => exact ReflTransGen.head (Or.symm h) ih

theorem component_eq {u v : ℕ} : Spec.component G u = Spec.component G v ↔ ReflTransGen G.hasEdge u v := by
  constructor
  · intro h
    have : v ∈ Spec.component G v := ReflTransGen.refl
    rw [← h] at this
    exact this
  · intro h
    ext w
    exact ⟨fun h' => (reach_symm h).trans h', fun h' => h.trans h'⟩

theorem touched_subset (hs : Spec.IsSimple G) : Spec.touched G ⊆ {v | v ∈ G.nodes} := fun _ ⟨_, h⟩ => (hs.mem_nodes h).1

theorem touched_finite (hs : Spec.IsSimple G) : (Spec.touched G).Finite :=
  (List.finite_toSet G.nodes).subset (touched_subset hs)

theorem touched_of_reach {u v : ℕ} (hu : u ∈ Spec.touched G) (h : ReflTransGen G.hasEdge u v) : v ∈ Spec.touched G := by
  rcases ReflTransGen.cases_tail h with rfl | ⟨w, -, hw⟩
  · exact hu
  · exact ⟨w, Or.symm hw⟩

theorem touched_nonempty (hE : G.edges ≠ []) : (Spec.touched G).Nonempty := by
  obtain ⟨e, es, he⟩ := List.exists_cons_of_ne_nil hE
  exact ⟨e.1, e.2, Or.inl (by rw [he]; simp)⟩

theorem touched_conn (hs : Spec.IsSimple G) (hc : G.isConnected) (hE : G.edges ≠ []) : Spec.touched G = {v | v ∈ G.nodes} := by
  refine Set.Subset.antisymm (touched_subset hs) fun v hv => ?_
  obtain ⟨u, hu⟩ := touched_nonempty hE
  exact touched_of_reach hu (hc u (touched_subset hs hu) v hv)

theorem nodes_ncard (hs : Spec.IsSimple G) : Set.ncard {v | v ∈ G.nodes} = G.nodes.length := by
  rw [← List.toFinset_card_of_nodup hs.nodes_nodup, ← Set.ncard_coe_finset]
  congr 1
  ext v
  simp

/-- One component with edges: every two nodes with a neighbour are connected. -/
theorem numComponents_one_iff (hs : Spec.IsSimple G) (hE : G.edges ≠ []) :
    Spec.numComponents G = 1 ↔ ∀ u ∈ Spec.touched G, ∀ v ∈ Spec.touched G, ReflTransGen G.hasEdge u v := by
  rw [Spec.numComponents, Set.ncard_eq_one]
  constructor
  · rintro ⟨S, hS⟩ u hu v hv
    have h : ∀ w ∈ Spec.touched G, Spec.component G w = S := fun w hw => by
      have : Spec.component G w ∈ ({S} : Set (Set ℕ)) := by rw [← hS]; exact ⟨w, hw, rfl⟩
      exact this
    rw [← component_eq, h u hu, h v hv]
  · intro h
    obtain ⟨u, hu⟩ := touched_nonempty hE
    refine ⟨Spec.component G u, ?_⟩
    ext S
    constructor
    · rintro ⟨v, hv, rfl⟩
      exact component_eq.2 (h v hv u hu)
    · rintro rfl
      exact ⟨u, hu, rfl⟩

theorem numComponents_conn (hs : Spec.IsSimple G) (hc : G.isConnected) (hE : G.edges ≠ []) : Spec.numComponents G = 1 :=
  (numComponents_one_iff hs hE).2 fun u hu v hv => hc u (touched_subset hs hu) v (touched_subset hs hv)

theorem components_finite (hs : Spec.IsSimple G) : {S | ∃ v ∈ Spec.touched G, S = Spec.component G v}.Finite := by
  refine ((touched_finite hs).image (Spec.component G)).subset ?_
  rintro S ⟨v, hv, rfl⟩
  exact ⟨v, hv, rfl⟩

theorem numComponents_pos (hs : Spec.IsSimple G) (hE : G.edges ≠ []) : 0 < Spec.numComponents G := by
  obtain ⟨u, hu⟩ := touched_nonempty hE
  exact (Set.ncard_pos (components_finite hs)).2 ⟨_, u, hu, rfl⟩

theorem touched_nil (hE : G.edges = []) : Spec.touched G = ∅ := by
  ext v
  simp [Spec.touched, NxGraph.hasEdge, hE]

theorem numComponents_nil (hE : G.edges = []) : Spec.numComponents G = 0 := by
  rw [Spec.numComponents, touched_nil hE]
  simp

theorem plane_nil (hE : G.edges = []) (cw : ℕ → ℕ → ℕ) : Spec.IsPlane G cw := by
  have h : ∀ u v, ¬ G.hasEdge u v := fun u v => by simp [NxGraph.hasEdge, hE]
  refine ⟨⟨fun v u hh => absurd hh (h _ _), fun v u _ hh => absurd hh (h _ _), fun v u _ hh => absurd hh (h _ _)⟩, ?_⟩
  rw [touched_nil hE, numComponents_nil hE, Spec.numFaces, hE]
  have : {S | ∃ d : ℕ × ℕ, G.hasEdge d.1 d.2 ∧ S = Spec.faceOf cw d} = ∅ := by
    ext S
    simp [h]
  rw [this]
  simp

theorem plane_conn (hs : Spec.IsSimple G) (hc : G.isConnected) (hE : G.edges ≠ []) :
    Spec.IsPlane G cw ↔ Spec.IsPlanarEmbedding G cw := by
  constructor
  · rintro ⟨hr, he⟩
    rw [touched_conn hs hc hE, nodes_ncard hs, numComponents_conn hs hc hE] at he
    exact ⟨hr, he⟩
  · rintro ⟨hr, he⟩
    refine ⟨hr, ?_⟩
    rw [touched_conn hs hc hE, nodes_ncard hs, numComponents_conn hs hc hE]
    exact he

theorem forest_tree {T : List Dart} (hs : Spec.IsSimple G) (hc : G.isConnected) (hn : G.nodes ≠ [])
    (h : Spec.IsSpanningForest G T) : Spec.IsSpanningTree G T := by
  have hcon : ∀ u v, ReflTransGen G.hasEdge u v → ReflTransGen (fun a b => (a, b) ∈ T ∨ (b, a) ∈ T) u v := by
    intro u v huv
    induction huv with
    | refl => exact ReflTransGen.refl
    | tail _ h' ih => exact ih.trans (h.conn _ _ h')
  refine ⟨h.sub, ?_, fun u hu v hv => hcon u v (hc u hu v hv)⟩
  have hcard := h.card
  by_cases hE : G.edges = []
  · rw [touched_nil hE, numComponents_nil hE] at hcard
    rw [Set.ncard_empty] at hcard
    obtain ⟨r, l, hl⟩ := List.exists_cons_of_ne_nil hn
    have hnd := hs.nodes_nodup
    have : l = [] := by
      rw [List.eq_nil_iff_forall_not_mem]
      intro x hx
      have hr := hc r (by rw [hl]; simp) x (by rw [hl]; simp [hx])
      rcases ReflTransGen.cases_head hr with rfl | ⟨y, hy, -⟩
      · rw [hl] at hnd
        exact (List.nodup_cons.1 hnd).1 hx
      · simp [NxGraph.hasEdge, hE] at hy
    rw [hl, this]
    simp only [List.length_cons, List.length_nil]
    omega
  · rw [touched_conn hs hc hE, nodes_ncard hs, numComponents_conn hs hc hE] at hcard
    exact hcard

end

namespace Spec.NxContract
variable {nx : Nx}

theorem rotation (h : NxContract nx) : ∀ G cw, IsSimple G → nx.checkPlanarity G = some cw → IsRotation G cw :=
  fun G cw hs hp => (h.plane G cw hs hp).rotation

theorem planar (h : NxContract nx) : ∀ G cw, IsSimple G → G.isConnected → G.edges ≠ [] → nx.checkPlanarity G = some cw →
    IsPlanarEmbedding G cw := fun G cw hs hc hE hp => (plane_conn hs hc hE).1 (h.plane G cw hs hp)

theorem complete (h : NxContract nx) : ∀ G cw, IsSimple G → G.isConnected → G.edges ≠ [] → IsPlanarEmbedding G cw →
    (nx.checkPlanarity G).isSome := fun G cw hs hc hE hp => h.total G cw hs ((plane_conn hs hc hE).2 hp)

theorem edgeless (h : NxContract nx) : ∀ G, IsSimple G → G.edges = [] → (nx.checkPlanarity G).isSome :=
  fun G hs hE => h.total G (fun _ _ => 0) hs (plane_nil hE _)

theorem spanning (h : NxContract nx) : ∀ G, IsSimple G → G.isConnected → G.nodes ≠ [] →
    IsSpanningTree G (nx.maximumSpanningTree G) := fun G hs hc hn => forest_tree hs hc hn (h.forest G hs)

end Spec.NxContract
end FF
