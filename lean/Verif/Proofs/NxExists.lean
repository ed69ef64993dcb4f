import Verif.Proofs.Plane
import Mathlib.GroupTheory.Perm.List

/-!
# The assumptions about networkx can be met
-/

namespace FF
open Verif.Kasteleyn Relation

/-- a spanning forest of every graph -/
theorem exists_forest {G : NxGraph ℕ} (hs : Spec.IsSimple G) : ∃ T : List Dart, Spec.IsSpanningForest G T := by
  classical
  have hsym : ∀ {u v}, ReflTransGen G.hasEdge u v → ReflTransGen G.hasEdge v u := by
    intro u v h
    induction h with
    | refl => exact ReflTransGen.refl
    | tail _ h ih => exact ReflTransGen.head (Or.symm h) ih
  set rep : ℕ → Option ℕ := fun v => G.nodes.find? fun w => ReflTransGen G.hasEdge v w with hrep
  have hrepc : ∀ {u v}, ReflTransGen G.hasEdge u v → rep u = rep v := by
    intro u v h
    simp only [hrep]
    congr 1
    funext w
    have : ReflTransGen G.hasEdge u w ↔ ReflTransGen G.hasEdge v w := ⟨fun h' => (hsym h).trans h', fun h' => h.trans h'⟩
    simp [this]
  set P : ℕ → Prop := fun x => x ∉ G.nodes ∨ rep x = some x with hP
  have hreach : ∀ x, ∃ r, P r ∧ ReflTransGen G.hasEdge x r := by
    intro x
    by_cases hx : x ∈ G.nodes
    · have : (rep x).isSome := by
        rw [List.find?_isSome]
        exact ⟨x, hx, by simpa using ReflTransGen.refl⟩
      obtain ⟨r, hr⟩ := Option.isSome_iff_exists.1 this
      have hxr : ReflTransGen G.hasEdge x r := by simpa using List.find?_some hr
      exact ⟨r, Or.inr (by rw [← hrepc hxr, hr]), hxr⟩
    · exact ⟨x, Or.inl hx, ReflTransGen.refl⟩
  obtain ⟨rk, hrk⟩ := rank_of_reach G.hasEdge P hreach
  have : ∀ x, ∃ y, ¬ P x → G.hasEdge x y ∧ rk y < rk x := by
    intro x
    by_cases hx : P x
    · exact ⟨x, fun h => absurd hx h⟩
    · obtain ⟨y, hy⟩ := hrk x hx
      exact ⟨y, fun _ => hy⟩
  choose par hpar using this
  set T : List Dart := (G.nodes.filter fun x => ¬ P x).map fun x => (x, par x) with hT
  have hTs : ∀ e ∈ T, G.hasEdge e.1 e.2 := by
    intro e he
    obtain ⟨x, hx, rfl⟩ := List.mem_map.1 he
    exact (hpar x (by simpa using (List.mem_filter.1 hx).2)).1
  set D : ℕ → ℕ → Prop := fun a b => (a, b) ∈ T ∨ (b, a) ∈ T with hD
  have hDsym : ∀ {u v}, ReflTransGen D u v → ReflTransGen D v u := by
    intro u v h
    induction h with
    | refl => exact ReflTransGen.refl
    | tail _ h ih => exact ReflTransGen.head (Or.symm h) ih
  have hDG : ∀ {u v}, ReflTransGen D u v → ReflTransGen G.hasEdge u v := by
    intro u v h
    induction h with
    | refl => exact ReflTransGen.refl
    | tail _ h ih =>
      refine ih.tail ?_
      rcases h with h | h
      · exact hTs _ h
      · exact Or.symm (hTs _ h)
  have hroot : ∀ k x, rk x = k → ∃ r, P r ∧ ReflTransGen D x r := by
    intro k
    induction k using Nat.strong_induction_on with
    | _ k ih =>
      intro x hx
      by_cases hPx : P x
      · exact ⟨x, hPx, ReflTransGen.refl⟩
      · obtain ⟨h1, h2⟩ := hpar x hPx
        obtain ⟨r, hr, hxr⟩ := ih (rk (par x)) (by omega) (par x) rfl
        refine ⟨r, hr, ReflTransGen.head (Or.inl ?_) hxr⟩
        rw [hT]
        refine List.mem_map.2 ⟨x, List.mem_filter.2 ⟨?_, by simpa using hPx⟩, rfl⟩
        by_contra hx
        exact hPx (Or.inl hx)
  have hconn : ∀ u v, u ∈ G.nodes → v ∈ G.nodes → ReflTransGen G.hasEdge u v → ReflTransGen D u v := by
    intro u v hu hv huv
    have key : ∀ x, x ∈ G.nodes → ∃ r, rep x = some r ∧ ReflTransGen D x r := by
      intro x hx
      obtain ⟨r, hr, hxr⟩ := hroot _ x rfl
      refine ⟨r, ?_, hxr⟩
      have hxr' := hDG hxr
      have hrn : r ∈ G.nodes := by
        rcases ReflTransGen.cases_tail hxr' with rfl | ⟨y, -, hy⟩
        · exact hx
        · exact (hs.mem_nodes hy).2
      rcases hr with h | h
      · exact absurd hrn h
      · rw [hrepc hxr', h]
    obtain ⟨r, h1, h2⟩ := key u hu
    obtain ⟨r', h1', h2'⟩ := key v hv
    rw [hrepc huv, h1'] at h1
    rw [← Option.some.inj h1] at h2
    exact h2.trans (hDsym h2')
  refine ⟨T, hTs, ?_, fun u v h => hconn u v (hs.mem_nodes h).1 (hs.mem_nodes h).2 (ReflTransGen.single h), ?_⟩
  · rw [hT, List.map_map]
    refine List.Nodup.map_on ?_ (hs.nodes_nodup.filter _)
    intro x hx y hy hxy
    have h1 := hpar x (by simpa using (List.mem_filter.1 hx).2)
    have h2 := hpar y (by simpa using (List.mem_filter.1 hy).2)
    simp only [Function.comp_apply, Sym2.eq_iff] at hxy
    rcases hxy with h | ⟨h3, h4⟩
    · exact h.1
    · rw [h4] at h1
      rw [← h3] at h2
      omega
  · have hfin := touched_finite hs
    have hsplit : Spec.touched G = (Spec.touched G ∩ {x | ¬ P x}) ∪ (Spec.touched G ∩ {x | P x}) := by
      ext x
      by_cases h : P x <;> simp [h]
    have hdis : Disjoint (Spec.touched G ∩ {x | ¬ P x}) (Spec.touched G ∩ {x | P x}) := by
      rw [Set.disjoint_left]
      rintro x ⟨-, h1⟩ ⟨-, h2⟩
      exact h1 h2
    rw [hsplit, Set.ncard_union_eq hdis (hfin.inter_of_left _) (hfin.inter_of_left _)]
    congr 1
    · rw [hT, List.length_map, ← List.toFinset_card_of_nodup (hs.nodes_nodup.filter _), ← Set.ncard_coe_finset]
      congr 1
      ext x
      simp only [List.coe_toFinset, List.mem_filter, Set.mem_ofPred_eq, Set.mem_inter_iff, decide_eq_true_eq]
      constructor
      · rintro ⟨h1, h2⟩
        exact ⟨⟨_, (hpar x h2).1⟩, h2⟩
      · rintro ⟨h1, h2⟩
        exact ⟨touched_subset hs h1, h2⟩
    · rw [Spec.numComponents]
      have himg : {S | ∃ v ∈ Spec.touched G, S = Spec.component G v} =
          Spec.component G '' (Spec.touched G ∩ {x | P x}) := by
        ext S
        constructor
        · rintro ⟨v, hv, rfl⟩
          obtain ⟨r, hr, hvr⟩ := hreach v
          exact ⟨r, ⟨touched_of_reach hv hvr, hr⟩, (component_eq.2 hvr).symm⟩
        · rintro ⟨v, ⟨hv, -⟩, rfl⟩
          exact ⟨v, hv, rfl⟩
      rw [himg, Set.ncard_image_of_injOn]
      rintro x ⟨hx, hPx⟩ y ⟨hy, hPy⟩ hxy
      have h := hrepc (component_eq.1 hxy)
      rcases hPx with h1 | h1
      · exact absurd (touched_subset hs hx) h1
      rcases hPy with h2 | h2
      · exact absurd (touched_subset hs hy) h2
      rw [h1, h2] at h
      exact Option.some.inj h

open Classical in
/-- a stand-in for networkx -/
noncomputable def someNx : Nx where
  checkPlanarity G := if h : ∃ cw, Spec.IsPlane G cw then some h.choose else none
  outerFace _ := []
  maximumSpanningTree G := if h : Spec.IsSimple G then (exists_forest h).choose else []
  setOrder l := l

theorem someNx_contract : Spec.NxContract someNx := by
  classical
  refine ⟨?_, ?_, ?_, ?_⟩
  · intro G cw hs h
    simp only [someNx] at h
    split_ifs at h with h2
    rw [← Option.some.inj h]
    exact h2.choose_spec
  · intro G cw hs h
    simp only [someNx]
    rw [dif_pos ⟨cw, h⟩]
    rfl
  · intro G hs
    simp only [someNx, dif_pos hs]
    exact (exists_forest hs).choose_spec
  · intro l; exact List.Perm.refl _

end FF
