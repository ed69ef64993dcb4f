import Verif.Proofs.Count

/-!
# The Pfaffian of the array returned by `pfo_algorithm`

The array is antisymmetric on the edges of the spanning tree and symmetric on all others, so that only the perfect
matchings inside the tree are counted.
-/

namespace FF
open Verif.Kasteleyn

variable {G : NxGraph ℕ} {cw : ℕ → ℕ → ℕ} {F : List (List Dart)} {T : List Dart}

theorem fkt_pf {n : ℕ} {Φ : Type} [Fintype Φ] [DecidableEq Φ] {E : Emb (Fin n) Φ} {e : Fin n → Fin n → ZMod 2}
    (A : Matrix (Fin n) (Fin n) ℝ) (hO : Even n → Odd' E e) (hA : ∀ u v, ¬ E.adj u v → A u v = 0) :
    ∃ x y, hf A = .ok x ∧ pf (fun u v => signed ℝ E e u v * A u v) = .ok y ∧ (y = x ∨ y = -x) := by
  rcases Nat.even_or_odd' n with ⟨m, rfl | rfl⟩
  · exact ⟨_, _, hf_ok A, pf_ok _, fkt (hO (by simp)) A hA⟩
  · exact ⟨0, 0, hf_odd (by omega) A, pf_odd (by omega) _, Or.inl rfl⟩

instance (T : List Dart) (u v : ℕ) : Decidable (inT T u v) := inferInstanceAs (Decidable (_ ∨ _))

/-- the spanning tree as a graph -/
def treeGraph (G : NxGraph ℕ) (T : List Dart) : NxGraph ℕ :=
  { nodes := G.nodes, edges := G.edges.filter fun e => inT T e.1 e.2 }

theorem mem_treeGraph {e : ℕ × ℕ} : e ∈ (treeGraph G T).edges ↔ e ∈ G.edges ∧ inT T e.1 e.2 := by
  simp [treeGraph]

theorem treeGraph_hasEdge {u v : ℕ} : (treeGraph G T).hasEdge u v ↔ G.hasEdge u v ∧ inT T u v := by
  have : inT T u v ↔ inT T v u := ⟨inT.symm, inT.symm⟩
  simp only [NxGraph.hasEdge, mem_treeGraph]
  tauto

theorem treeGraph_simple (h : Spec.IsSimple G) : Spec.IsSimple (treeGraph G T) :=
  ⟨h.nodes_nodup, h.edges_nodup.filter _, fun e he => h.mem e (mem_treeGraph.1 he).1,
    fun e he => h.ordered e (mem_treeGraph.1 he).1, fun _ _ => rfl⟩

theorem mem_matchings_treeGraph {M : Finset (ℕ × ℕ)} : M ∈ Spec.matchings (treeGraph G T) ↔
    M ∈ Spec.matchings G ∧ ∀ e ∈ M, inT T e.1 e.2 := by
  rw [mem_matchings, mem_matchings]
  constructor
  · rintro ⟨h1, h2⟩
    have h1' : ∀ e ∈ M, e ∈ G.edges ∧ inT T e.1 e.2 := fun e he => mem_treeGraph.1 (by simpa using h1 he)
    exact ⟨⟨fun e he => by simpa using (h1' e he).1, h2⟩, fun e he => (h1' e he).2⟩
  · rintro ⟨⟨h1, h2⟩, h3⟩
    refine ⟨fun e he => ?_, h2⟩
    rw [List.mem_toFinset, mem_treeGraph]
    exact ⟨by simpa using h1 he, h3 e he⟩

theorem hf_reorder {n : ℕ} (A : Matrix (Fin n) (Fin n) ℝ) (σ : Equiv.Perm (Fin n)) : hf (A.submatrix σ σ) = hf A := by
  rcases Nat.even_or_odd' n with ⟨m, rfl | rfl⟩
  · rw [hf_ok, hf_ok, hfVal, hfVal]
    congr 2
    exact Fintype.sum_equiv (Equiv.mulLeft σ) _ _ fun τ => rfl
  · rw [hf_odd (by omega), hf_odd (by omega)]

/-- the adjacency matrix by labels -/
def byLabel (G : NxGraph ℕ) : Matrix (Fin G.nodes.length) (Fin G.nodes.length) ℝ := fun u v => if G.hasEdge u.1 v.1 then G.weight u.1 v.1 else 0

theorem hf_byLabel {G : NxGraph ℕ} (hs : Spec.IsSimple G) (hl : ∀ v, v ∈ G.nodes ↔ v < G.nodes.length) :
    hf (byLabel G) = .ok (Spec.matchingWeight G) := by
  have hlt : ∀ i : Fin G.nodes.length, G.nodes.get i < G.nodes.length := fun i => (hl _).1 (List.get_mem _ _)
  have hinj : Function.Injective fun i => (⟨G.nodes.get i, hlt i⟩ : Fin G.nodes.length) := fun a b h =>
    List.nodup_iff_injective_get.1 hs.nodes_nodup (Fin.mk.inj h)
  let σ : Equiv.Perm (Fin G.nodes.length) := Equiv.ofBijective _ (Finite.injective_iff_bijective.1 hinj)
  rw [← hf_reorder _ σ, ← hf_adjacency hs (adjacency_symm hs)]
  rfl

theorem pf_pfo (c : Ctx G cw F) (hT : Spec.IsSpanningTree G T) {O} (h : PfoSpec G F T O) :
    ∃ y, pf O = .ok y ∧ (y = (Spec.matchings (treeGraph G T)).card ∨ y = -(Spec.matchings (treeGraph G T)).card) := by
  classical
  obtain ⟨x, y, hx, hy, hxy⟩ := fkt_pf (E := c.toEmb) (e := obit O) (byLabel (treeGraph G T)) (h.odd c hT) (by
    intro u v huv
    exact if_neg fun hh => huv (treeGraph_hasEdge.1 hh).1)
  have hs := treeGraph_simple (T := T) c.simple
  have hx' := (hf_byLabel hs c.labels).symm.trans hx
  rw [matchingWeight_unit (fun _ _ => rfl)] at hx'
  injection hx' with hx
  rw [← hx] at hxy
  refine ⟨y, ?_, hxy⟩
  rw [← pf_skew, ← hy]
  congr 1
  funext u v
  have ha : byLabel (treeGraph G T) u v = if (treeGraph G T).hasEdge u.1 v.1 then (1 : ℝ) else 0 := rfl
  show (1 / 2 : ℝ) * (O u v - O v u) = signed ℝ c.toEmb (obit O) u v * _
  rw [ha, signed]
  by_cases ht : inT T u.1 v.1
  · have hE : G.hasEdge u.1 v.1 := by
      rcases ht with ht | ht
      · exact hT.sub _ ht
      · exact (hT.sub _ ht).symm
    rw [if_pos (show c.toEmb.adj u v from hE), if_pos (treeGraph_hasEdge.2 ⟨hE, ht⟩), h.chi c hE]
    have hne : u ≠ v := by rintro rfl; exact c.simple.irrefl _ hE
    rcases lt_or_gt_of_ne hne with hlt | hlt
    · obtain ⟨h1, h2⟩ := h.tree u v hlt ht
      rw [if_pos hlt, h1, h2]
      show (1 / 2 : ℝ) * (1 - -1) = 1 * 1
      norm_num
    · obtain ⟨h1, h2⟩ := h.tree v u hlt ht.symm
      rw [if_neg (not_lt.2 hlt.le), h1, h2]
      show (1 / 2 : ℝ) * (-1 - 1) = -1 * 1
      norm_num
  · rw [h.symm u v ht, sub_self, if_neg (fun hh => ht (treeGraph_hasEdge.1 hh).2)]
    simp

/-- a tree has at most one perfect matching -/
theorem tree_matchings_le_one (c : Ctx G cw F) (hT : Spec.IsSpanningTree G T) :
    (Spec.matchings (treeGraph G T)).card ≤ 1 := by
  classical
  obtain ⟨R, hR⟩ := c.exists_rtree hT
  rw [Finset.card_le_one]
  intro M hM M' hM'
  rw [mem_matchings_treeGraph, mem_matchings] at hM hM'
  let I : Finset (ℕ × ℕ) → Fin G.nodes.length → Fin G.nodes.length → ZMod 2 := fun M u v =>
    if (u.1, v.1) ∈ M ∨ (v.1, u.1) ∈ M then 1 else 0
  have hI : ∀ M, Spec.IsPerfectMatchingOf G M → ∀ v, ∑ u, I M v u = 1 := by
    intro M hM v
    obtain ⟨e, ⟨he, hev⟩, hu⟩ := hM.2 v.1 (c.mem_nodes.2 v.2)
    have hE : e ∈ G.edges := by simpa using hM.1 he
    have hlt := c.lt_of_edge (u := e.1) (v := e.2) (Or.inl hE)
    have hlt' : e.1 ≠ e.2 := fun he => by have := c.simple.ordered e hE; rw [he] at this; omega
    obtain ⟨w, hw, hw'⟩ : ∃ w : Fin G.nodes.length, ((v.1, w.1) = e ∨ (w.1, v.1) = e) ∧ w.1 ≠ v.1 := by
      rcases hev with h | h
      · refine ⟨⟨e.2, hlt.2⟩, Or.inl ?_, ?_⟩
        · rw [← h]
        · show e.2 ≠ v.1; omega
      · refine ⟨⟨e.1, hlt.1⟩, Or.inr ?_, ?_⟩
        · rw [← h]
        · show e.1 ≠ v.1; omega
    rw [Finset.sum_eq_single w]
    · show (if _ then (1 : ZMod 2) else 0) = 1
      rw [if_pos]
      rcases hw with h | h
      · exact Or.inl (h ▸ he)
      · exact Or.inr (h ▸ he)
    · intro b _ hb
      show (if _ then (1 : ZMod 2) else 0) = 0
      rw [if_neg]
      rintro (h | h)
      · have := hu _ ⟨h, Or.inl rfl⟩
        apply hb
        apply Fin.ext
        rcases hw with h' | h' <;> rw [← h'] at this <;> simp only [Prod.mk.injEq] at this <;> omega
      · have := hu _ ⟨h, Or.inr rfl⟩
        apply hb
        apply Fin.ext
        rcases hw with h' | h' <;> rw [← h'] at this <;> simp only [Prod.mk.injEq] at this <;> omega
    · simp
  have hz := R.forest (fun u v => I M u v + I M' u v)
    (by
      intro u v
      have h : ∀ M, I M u v = I M v u := fun M => if_congr or_comm rfl rfl
      show I M u v + I M' u v = I M v u + I M' v u
      rw [h, h])
    (by
      intro u v h
      rw [hR]
      have hin : ∀ M : Finset (ℕ × ℕ), (∀ e ∈ M, inT T e.1 e.2) → ((u.1, v.1) ∈ M ∨ (v.1, u.1) ∈ M) → inT T u.1 v.1 := by
        rintro M hM (h | h)
        · exact hM _ h
        · exact (hM _ h).symm
      by_contra hcon
      apply h
      have h1 : I M u v = 0 := if_neg fun h => hcon (hin M hM.2 h)
      have h2 : I M' u v = 0 := if_neg fun h => hcon (hin M' hM'.2 h)
      simp only [h1, h2, add_zero])
    (by
      intro v
      rw [Finset.sum_add_distrib, hI M hM.1, hI M' hM'.1]
      rfl)
  have key : ∀ M M', Spec.IsPerfectMatchingOf G M → Spec.IsPerfectMatchingOf G M' → (∀ u v, I M u v + I M' u v = 0) →
      M ⊆ M' := by
    intro M M' hM hM' hz e he
    have hE : e ∈ G.edges := by simpa using hM.1 he
    have hlt := c.lt_of_edge (u := e.1) (v := e.2) (Or.inl hE)
    have h := hz ⟨e.1, hlt.1⟩ ⟨e.2, hlt.2⟩
    have h1 : I M ⟨e.1, hlt.1⟩ ⟨e.2, hlt.2⟩ = 1 := if_pos (Or.inl he)
    rw [h1] at h
    by_contra hcon
    have h2 : I M' ⟨e.1, hlt.1⟩ ⟨e.2, hlt.2⟩ = 0 := by
      refine if_neg ?_
      rintro (hh | hh)
      · exact hcon hh
      · have h3 : (e.2, e.1) ∈ G.edges := by simpa using hM'.1 hh
        have := c.simple.ordered _ hE
        have := c.simple.ordered _ h3
        simp only at this
        omega
    rw [h2] at h
    exact absurd h (by decide)
  exact Finset.Subset.antisymm (key M M' hM.1 hM'.1 hz)
    (key M' M hM'.1 hM.1 fun u v => by rw [add_comm]; exact hz u v)

end FF
