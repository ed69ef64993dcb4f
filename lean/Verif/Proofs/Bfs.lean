import Verif.Proofs.Embedding
import Mathlib.Data.Fintype.Card

/-!
# Breadth first search
-/

namespace FF

variable {α : Type} [DecidableEq α] {G : NxGraph α}

theorem isDist_unique {u v : α} {k k' : ℕ} (h : Spec.isDist G u v k) (h' : Spec.isDist G u v k') : k = k' := by
  rcases lt_trichotomy k k' with hlt | rfl | hlt
  · exact absurd h.1 (h'.2 k hlt)
  · rfl
  · exact absurd h'.1 (h.2 k' hlt)

theorem reach_mem (hs : Spec.IsSimple G) {r : α} (hr : r ∈ G.nodes) : ∀ {k : ℕ} {v : α}, Spec.reach G k r v → v ∈ G.nodes
  | 0, _, h => by cases h; exact hr
  | _ + 1, _, ⟨_, _, h⟩ => (hs.mem_nodes h).2

theorem exists_isDist {r v : α} {k : ℕ} (h : Spec.reach G k r v) : ∃ j ≤ k, Spec.isDist G r v j := by
  classical
  have hex : ∃ j, Spec.reach G j r v := ⟨k, h⟩
  exact ⟨Nat.find hex, Nat.find_min' hex h, Nat.find_spec hex, fun j hj => Nat.find_min hex hj⟩

/-- all smaller distances occur on the way -/
theorem isDist_pred {r v : α} {k : ℕ} (h : Spec.isDist G r v (k + 1)) : ∃ w, Spec.isDist G r w k ∧ G.hasEdge w v := by
  obtain ⟨⟨w, hw, he⟩, hmin⟩ := h
  refine ⟨w, ⟨hw, ?_⟩, he⟩
  intro j hj hj'
  exact hmin (j + 1) (by omega) ⟨w, hj', he⟩

theorem isDist_below {r v : α} {k : ℕ} (h : Spec.isDist G r v k) : ∀ j ≤ k, ∃ w, Spec.isDist G r w j := by
  induction k generalizing v with
  | zero =>
    intro j hj
    obtain rfl : j = 0 := by omega
    exact ⟨v, h⟩
  | succ k ih =>
    intro j hj
    by_cases hjk : j = k + 1
    · exact ⟨v, hjk ▸ h⟩
    · obtain ⟨w, hw, -⟩ := isDist_pred h
      exact ih hw j (by omega)

theorem isDist_lt (hs : Spec.IsSimple G) {r v : α} (hr : r ∈ G.nodes) {k : ℕ} (h : Spec.isDist G r v k) :
    k < G.nodes.length := by
  classical
  have hb := isDist_below h
  choose w hw using fun j : Fin (k + 1) => hb j.1 (by omega)
  have hinj : Function.Injective w := by
    intro a b hab
    have ha := hw a
    rw [hab] at ha
    exact Fin.ext (isDist_unique ha (hw b))
  have hsub : (Finset.univ.image w) ⊆ G.nodes.toFinset := by
    intro x hx
    obtain ⟨j, -, rfl⟩ := Finset.mem_image.1 hx
    rw [List.mem_toFinset]
    exact reach_mem hs hr (hw j).1
  have h1 := Finset.card_le_card hsub
  rw [Finset.card_image_of_injective _ hinj, Finset.card_univ, Fintype.card_fin] at h1
  have h2 := List.toFinset_card_le G.nodes
  omega

theorem bfsLevels_mem (hs : Spec.IsSimple G) {r : α} : ∀ (fuel L : ℕ) (seen frontier : List α),
    (∀ v, v ∈ frontier ↔ Spec.isDist G r v L) → (∀ v, v ∈ seen ↔ ∃ k ≤ L, Spec.isDist G r v k) →
    ∀ x : α × ℕ, x ∈ bfsLevels G fuel L seen frontier ↔ L ≤ x.2 ∧ x.2 < L + fuel ∧ Spec.isDist G r x.1 x.2 := by
  intro fuel
  induction fuel with
  | zero => intro L seen frontier _ _ x; simp [bfsLevels]; omega
  | succ fuel ih =>
    intro L seen frontier hf hse x
    match frontier, hf with
    | [], hf =>
      simp only [bfsLevels, List.not_mem_nil, false_iff, not_and]
      intro h1 _ h
      obtain ⟨w, hw⟩ := isDist_below h L h1
      have := (hf w).2 hw
      simp at this
    | a :: as, hf =>
      rw [bfsLevels]
      simp only [List.mem_append, List.mem_map]
      have hnext : ∀ v, v ∈ G.nodes.filter (fun v => v ∉ seen ∧ ∃ u ∈ a :: as, G.hasEdge u v) ↔
          Spec.isDist G r v (L + 1) := by
        intro v
        simp only [List.mem_filter, decide_eq_true_eq]
        constructor
        · rintro ⟨-, hns, u, hu, he⟩
          refine ⟨⟨u, ((hf u).1 hu).1, he⟩, ?_⟩
          intro j hj hj'
          apply hns
          rw [hse]
          obtain ⟨i, hi, hd⟩ := exists_isDist hj'
          exact ⟨i, by omega, hd⟩
        · intro h
          obtain ⟨w, hw, he⟩ := isDist_pred h
          refine ⟨(hs.mem_nodes he).2, ?_, w, (hf w).2 hw, he⟩
          rw [hse]
          rintro ⟨k, hk, hd⟩
          have := isDist_unique hd h
          omega
      rw [ih (L + 1) _ _ hnext]
      · constructor
        · rintro (⟨v, hv, rfl⟩ | ⟨h1, h2, h3⟩)
          · exact ⟨le_refl _, by simp, (hf v).1 hv⟩
          · exact ⟨by omega, by omega, h3⟩
        · rintro ⟨h1, h2, h3⟩
          by_cases hx : x.2 = L
          · left
            exact ⟨x.1, (hf x.1).2 (hx ▸ h3), by rw [← hx]⟩
          · right
            exact ⟨by omega, by omega, h3⟩
      · intro v
        rw [List.mem_append, hse, hnext]
        constructor
        · rintro (⟨k, hk, h⟩ | h)
          · exact ⟨k, by omega, h⟩
          · exact ⟨L + 1, le_refl _, h⟩
        · rintro ⟨k, hk, h⟩
          by_cases hk' : k = L + 1
          · right; exact hk' ▸ h
          · left; exact ⟨k, by omega, h⟩

/-- networkx's breadth first search yields exactly the distances -/
theorem mem_sssp (hs : Spec.IsSimple G) {r : α} (hr : r ∈ G.nodes) (x : α × ℕ) :
    x ∈ singleSourceShortestPathLength G r ↔ Spec.isDist G r x.1 x.2 := by
  have h0 : ∀ v, v ∈ [r] ↔ Spec.isDist G r v 0 := by
    intro v
    rw [List.mem_singleton]
    constructor
    · rintro rfl; exact ⟨rfl, by simp⟩
    · rintro ⟨h, -⟩; exact h.symm
  unfold singleSourceShortestPathLength
  rw [bfsLevels_mem hs G.nodes.length 0 [r] [r] h0]
  · constructor
    · exact fun h => h.2.2
    · intro h
      exact ⟨Nat.zero_le _, by simpa using isDist_lt hs hr h, h⟩
  · intro v
    rw [h0]
    constructor
    · exact fun h => ⟨0, le_refl _, h⟩
    · rintro ⟨k, hk, h⟩
      obtain rfl : k = 0 := by omega
      exact h

theorem reach_of_path {u v : α} (h : Relation.ReflTransGen G.hasEdge u v) : ∃ k, Spec.reach G k u v := by
  induction h with
  | refl => exact ⟨0, rfl⟩
  | tail _ h ih =>
    obtain ⟨k, hk⟩ := ih
    exact ⟨k + 1, _, hk, h⟩

theorem maxNode_spec {l : List ℕ} (hl : l ≠ []) : ∃ d, maxNode l = .ok d ∧ d ∈ l ∧ ∀ x ∈ l, x ≤ d := by
  obtain ⟨x, xs, rfl⟩ := List.exists_cons_of_ne_nil hl
  have key : ∀ (l : List ℕ) (x : ℕ), l.foldl max x ∈ x :: l ∧ ∀ y ∈ x :: l, y ≤ l.foldl max x := by
    intro l
    induction l with
    | nil => simp
    | cons z l ih =>
      intro x
      rw [List.foldl_cons]
      obtain ⟨h1, h2⟩ := ih (max x z)
      refine ⟨?_, ?_⟩
      · rcases List.mem_cons.1 h1 with h | h
        · rw [h]
          rcases max_choice x z with h' | h' <;> rw [h'] <;> simp
        · simp [h]
      · intro y hy
        have hm := h2 (max x z) (by simp)
        simp only [List.mem_cons] at hy
        rcases hy with rfl | rfl | hy
        · omega
        · omega
        · exact h2 y (by simp [hy])
  exact ⟨_, rfl, (key xs x).1, (key xs x).2⟩

end FF
