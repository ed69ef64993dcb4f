import Verif.Proofs.NxExists

/-!
# Small graphs used as witnesses
-/

namespace FF
open Relation

theorem isConnected_of {α : Type} {G : NxGraph α} (r : α) (h : ∀ u ∈ G.nodes, ReflTransGen G.hasEdge u r) : G.isConnected := by
  have hsym : ∀ {u v}, ReflTransGen G.hasEdge u v → ReflTransGen G.hasEdge v u := by
    intro u v h
    induction h with
    | refl => exact ReflTransGen.refl
    | tail _ h ih => exact ReflTransGen.head (Or.symm h) ih
  intro u hu v hv
  exact (h u hu).trans (hsym (h v hv))

theorem numFaces_of {G : NxGraph ℕ} {cw : ℕ → ℕ → ℕ} {F : List (List Dart)} (hE : G.edges ≠ [])
    (hr : Spec.IsRotation G cw) (hF : traceFaces cw G = .ok F) : Spec.numFaces G cw = F.length := by
  obtain ⟨F', h1, h2⟩ := traceFaces_ok hE hr.mem hr.inj
  rw [hF] at h1
  injection h1 with h1
  rw [h1]
  exact h2.numFaces

/-- a rotation system of a graph can be checked on the list of neighbours -/
theorem isRotation_of {G : NxGraph ℕ} {cw : ℕ → ℕ → ℕ}
    (h1 : ∀ d ∈ G.edgeset, (d.1, cw d.1 d.2) ∈ G.edgeset)
    (h2 : ∀ d ∈ G.edgeset, ∀ d' ∈ G.edgeset, d.1 = d'.1 → cw d.1 d.2 = cw d.1 d'.2 → d.2 = d'.2)
    (h3 : ∀ d ∈ G.edgeset, ∀ d' ∈ G.edgeset, d.1 = d'.1 → ∃ k ∈ List.range G.edgeset.length, (cw d.1)^[k] d.2 = d'.2) :
    Spec.IsRotation G cw := by
  refine ⟨?_, ?_, ?_⟩
  · intro v u h
    exact mem_edgeset.1 (h1 (v, u) (mem_edgeset.2 h))
  · intro v u u' h h' hc
    exact h2 (v, u) (mem_edgeset.2 h) (v, u') (mem_edgeset.2 h') rfl hc
  · intro v u u' h h'
    obtain ⟨k, -, hk⟩ := h3 (v, u) (mem_edgeset.2 h) (v, u') (mem_edgeset.2 h') rfl
    exact ⟨k, hk⟩

/-- the square -/
def squareGraph : NxGraph ℕ := { nodes := [0, 1, 2, 3], edges := [(0, 1), (0, 3), (1, 2), (2, 3)] }

/-- its embedding -/
def squareCw (v u : ℕ) : ℕ := (2 * v + 4 - u) % 4

theorem squareGraph_simple : Spec.IsSimple squareGraph :=
  ⟨by decide, by decide, by decide, by decide, fun _ _ => rfl⟩

theorem squareGraph_numbered : Spec.IsNumbered squareGraph := rfl

theorem squareGraph_connected : squareGraph.isConnected := by
  apply isConnected_of 0
  intro u hu
  have e1 : squareGraph.hasEdge 1 0 := by decide
  have e2 : squareGraph.hasEdge 2 1 := by decide
  have e3 : squareGraph.hasEdge 3 0 := by decide
  simp only [squareGraph, List.mem_cons, List.not_mem_nil, or_false] at hu
  rcases hu with rfl | rfl | rfl | rfl
  · exact ReflTransGen.refl
  · exact ReflTransGen.single e1
  · exact (ReflTransGen.single e2).tail e1
  · exact ReflTransGen.single e3

theorem squareGraph_planar : Spec.IsPlanarEmbedding squareGraph squareCw := by
  have hr : Spec.IsRotation squareGraph squareCw := isRotation_of (by decide) (by decide) (by decide)
  refine ⟨hr, ?_⟩
  rw [numFaces_of (F := [[(0, 1), (1, 2), (2, 3), (3, 0)], [(0, 3), (3, 2), (2, 1), (1, 0)]]) (by decide) hr (by rfl)]
  rfl

end FF
