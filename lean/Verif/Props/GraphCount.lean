import Verif.Proofs.CountEx
import Verif.Proofs.PfPfo
import Verif.Proofs.OrderEx

/-!
# Properties C78-C81: counting perfect matchings with the Pfaffian orientation
-/

namespace FF.Props

variable {eigvals : {n : ℕ} → Matrix (Fin n) (Fin n) ℂ → Except PyErr (List ℂ)}

/-! ## C78 -/

/-- C78: for every connected planar graph with nodes `0, …, n-1` inserted in this order and at least one edge,
whatever embedding, spanning tree and iteration order are chosen, `count_perfect_matchings_planar` returns the sum
over all perfect matchings of the product of their weights, in absolute value and rounded to ten decimals. -/
theorem C78_fkt_weighted (hev : EigvalsContract eigvals)
    (hsucc : ∀ {n : ℕ} (A : Matrix (Fin n) (Fin n) ℂ), ∃ l, eigvals A = .ok l)
    {nx : Nx} (hnx : Spec.NxContract nx) {G : NxGraph ℕ} (hs : Spec.IsSimple G)
    (hn : Spec.IsNumbered G) (hc : G.isConnected) (hE : G.edges ≠ []) (hp : (nx.checkPlanarity G).isSome) :
    countPerfectMatchingsPlanar eigvals nx G = .ok (.real (npRound 10 |Spec.matchingWeight G|)) :=
  count_planar_ok hev hsucc hnx hs hn hc hE hp

/-- C78: in particular for a graph without weights it returns the number of perfect matchings. -/
theorem C78_fkt (hev : EigvalsContract eigvals)
    (hsucc : ∀ {n : ℕ} (A : Matrix (Fin n) (Fin n) ℂ), ∃ l, eigvals A = .ok l)
    {nx : Nx} (hnx : Spec.NxContract nx) {G : NxGraph ℕ} (hs : Spec.IsSimple G)
    (hn : Spec.IsNumbered G) (hc : G.isConnected) (hE : G.edges ≠ []) (hp : (nx.checkPlanarity G).isSome)
    (hw : ∀ e ∈ G.edges, G.weight e.1 e.2 = 1) :
    countPerfectMatchingsPlanar eigvals nx G = .ok (.real (Spec.matchings G).card) := by
  rw [count_planar_ok hev hsucc hnx hs hn hc hE hp, matchingWeight_unit hw, Nat.abs_cast]
  have := npRound_int 10 (Spec.matchings G).card
  have h : npRound 10 ((Spec.matchings G).card : ℝ) = (Spec.matchings G).card := by exact_mod_cast this
  rw [h]

/-- C78: the hypothesis "planar" is met exactly by the graphs that have an embedding satisfying Euler's formula. -/
theorem C78_planar_iff {nx : Nx} (hnx : Spec.NxContract nx) {G : NxGraph ℕ} (hs : Spec.IsSimple G) (hc : G.isConnected)
    (hE : G.edges ≠ []) : (nx.checkPlanarity G).isSome ↔ ∃ cw, Spec.IsPlanarEmbedding G cw := by
  constructor
  · intro h
    obtain ⟨cw, hcw⟩ := Option.isSome_iff_exists.1 h
    exact ⟨cw, hnx.planar G cw hs hc hE hcw⟩
  · rintro ⟨cw, hcw⟩
    exact hnx.complete G cw hs hc hE hcw

/-- an eigenvalue routine meeting its contract -/
noncomputable def someEigvals {n : ℕ} (A : Matrix (Fin n) (Fin n) ℂ) : Except PyErr (List ℂ) := .ok A.charpoly.roots.toList

theorem someEigvals_contract : EigvalsContract someEigvals :=
  ⟨fun A l h => by cases h; exact Multiset.coe_toList _, fun A e h => by cases h⟩

theorem square_matchings : (Spec.matchings squareGraph).card = 2 := by
  rw [← brute_length squareGraph_simple (by decide)]
  rfl

example : countPerfectMatchingsPlanar someEigvals someNx squareGraph = .ok (.real 2) := by
  have := C78_fkt someEigvals_contract (fun A => ⟨_, rfl⟩) someNx_contract squareGraph_simple squareGraph_numbered
    squareGraph_connected (by decide)
    (someNx_contract.complete _ _ squareGraph_simple squareGraph_connected (by decide) squareGraph_planar)
    (fun _ _ => rfl)
  rw [this, square_matchings]
  norm_num

/-! ## C79

The full statement, "`count_perfect_matchings` returns the number of perfect matchings of every graph", is false: the
four theorems after the positive one give counterexamples, each of them for every behaviour of networkx meeting the
contract. -/

/-- C79, the part that holds: connected planar graphs with nodes `0, …, n-1` inserted in this order and at least one
edge, and graphs with at most 15 nodes that are not planar. Missing: everything else. -/
theorem C79_count_partial (hev : EigvalsContract eigvals)
    (hsucc : ∀ {n : ℕ} (A : Matrix (Fin n) (Fin n) ℂ), ∃ l, eigvals A = .ok l)
    {nx : Nx} (hnx : Spec.NxContract nx) {G : NxGraph ℕ} (hs : Spec.IsSimple G)
    (hw : ∀ e ∈ G.edges, G.weight e.1 e.2 = 1)
    (h : ((nx.checkPlanarity G).isSome ∧ Spec.IsNumbered G ∧ G.isConnected ∧ G.edges ≠ []) ∨
      (nx.checkPlanarity G = none ∧ G.nodes.length ≤ 15)) :
    countPerfectMatchings eigvals nx G = .ok (.real (Spec.matchings G).card) := by
  unfold countPerfectMatchings
  rcases h with ⟨hp, hn, hc, hE⟩ | ⟨hp, hn⟩
  · rw [if_pos hp]
    exact C78_fkt hev hsucc hnx hs hn hc hE hp hw
  · rw [if_neg (by rw [hp]; simp), brute_length hs hn]

/-- C79 fails for the graph without nodes: it has one (empty) perfect matching, the code returns 0. -/
theorem C79_empty_graph {nx : Nx} (hnx : Spec.NxContract nx) :
    countPerfectMatchings eigvals nx { nodes := [], edges := [] } = .ok (.real 0) ∧
    (Spec.matchings ({ nodes := [], edges := [] } : NxGraph ℕ)).card = 1 := by
  have hs : Spec.IsSimple ({ nodes := [], edges := [] } : NxGraph ℕ) :=
    ⟨by simp, by simp, by simp, by simp, fun _ _ => rfl⟩
  obtain ⟨cw, hcw⟩ := Option.isSome_iff_exists.1 (hnx.edgeless _ hs rfl)
  constructor
  · unfold countPerfectMatchings countPerfectMatchingsPlanar
    rw [if_pos (by rw [hcw]; rfl), if_neg (by rw [hcw]; simp)]
    rfl
  · rw [← brute_length hs (by simp)]
    rfl

/-- C79 fails for every non-empty graph without edges: it has no perfect matching, the code raises ValueError. -/
theorem C79_edgeless {nx : Nx} (hnx : Spec.NxContract nx) {G : NxGraph ℕ} (hs : Spec.IsSimple G) (hE : G.edges = [])
    (hn : G.nodes ≠ []) :
    countPerfectMatchings eigvals nx G = .error .valueError ∧ (Spec.matchings G).card = 0 := by
  obtain ⟨cw, hcw⟩ := Option.isSome_iff_exists.1 (hnx.edgeless _ hs hE)
  have hl : G.nodes.length ≠ 0 := fun h => hn (List.length_eq_zero_iff.1 h)
  constructor
  · have hf : faces nx G (some cw) = .error .valueError := by
      unfold faces
      have : minDart G.edgeset = none := by
        rw [minDart_eq_none]
        simp [NxGraph.edgeset, hE]
      rw [this]
    unfold countPerfectMatchings countPerfectMatchingsPlanar
    rw [if_pos (by rw [hcw]; rfl), if_neg (by rw [hcw]; simp), if_neg hl]
    have hA : adjacencyMatrix G = .ok G.adjacency := by rw [adjacencyMatrix, if_neg hl]
    have hp : pfoAlgorithm nx G = .error .valueError := by
      unfold pfoAlgorithm
      simp only [bind, Except.bind, hA, hcw, hf]
    simp only [bind, Except.bind, hA, hp, pure, Except.pure]
  · rw [Finset.card_eq_zero, Finset.eq_empty_iff_forall_notMem]
    intro M hM
    rw [mem_matchings] at hM
    obtain ⟨v, vs, hv⟩ := List.exists_cons_of_ne_nil hn
    obtain ⟨e, ⟨he, -⟩, -⟩ := hM.2 v (by rw [hv]; simp)
    have := hM.1 he
    rw [hE] at this
    simp at this

/-- C79, exactly, on planar graphs with nodes `0, …, n-1` inserted in this order and at least one edge: the number of
perfect matchings is returned if all edges are in one component (there may be isolated nodes), otherwise AssertionError is
raised. -/
theorem C79_components (hev : EigvalsContract eigvals)
    (hsucc : ∀ {n : ℕ} (A : Matrix (Fin n) (Fin n) ℂ), ∃ l, eigvals A = .ok l)
    {nx : Nx} (hnx : Spec.NxContract nx) {G : NxGraph ℕ} (hs : Spec.IsSimple G) (hn : Spec.IsNumbered G)
    (hw : ∀ e ∈ G.edges, G.weight e.1 e.2 = 1) (hE : G.edges ≠ []) (hp : (nx.checkPlanarity G).isSome) :
    countPerfectMatchings eigvals nx G =
      if Spec.numComponents G = 1 then .ok (.real (Spec.matchings G).card) else .error .assertionError := by
  unfold countPerfectMatchings
  rw [if_pos hp, count_outcome hev hsucc hnx hs hn hE hp, matchingWeight_unit hw, Nat.abs_cast]
  have := npRound_int 10 (Spec.matchings G).card
  have h : npRound 10 ((Spec.matchings G).card : ℝ) = (Spec.matchings G).card := by exact_mod_cast this
  rw [h]

/-- C79, the weighted count on the same graphs. -/
theorem C79_components_weighted (hev : EigvalsContract eigvals)
    (hsucc : ∀ {n : ℕ} (A : Matrix (Fin n) (Fin n) ℂ), ∃ l, eigvals A = .ok l)
    {nx : Nx} (hnx : Spec.NxContract nx) {G : NxGraph ℕ} (hs : Spec.IsSimple G) (hn : Spec.IsNumbered G)
    (hE : G.edges ≠ []) (hp : (nx.checkPlanarity G).isSome) :
    countPerfectMatchings eigvals nx G =
      if Spec.numComponents G = 1 then .ok (.real (npRound 10 |Spec.matchingWeight G|)) else .error .assertionError := by
  unfold countPerfectMatchings
  rw [if_pos hp, count_outcome hev hsucc hnx hs hn hE hp]

/-- C79, on graphs without planar embedding, whatever the labels: the number of perfect matchings up to 15 nodes, 0 above. -/
theorem C79_nonplanar {nx : Nx} {G : NxGraph ℕ} (hs : Spec.IsSimple G) (hp : nx.checkPlanarity G = none) :
    countPerfectMatchings eigvals nx G = .ok (.real (if G.nodes.length ≤ 15 then ((Spec.matchings G).card : ℝ) else 0)) := by
  unfold countPerfectMatchings
  rw [if_neg (by rw [hp]; simp)]
  split_ifs with h
  · rw [brute_length hs h]
  · have hb : findPerfectMatchingsBrute G = [] := by
      unfold findPerfectMatchingsBrute
      simp only
      split_ifs <;> first | rfl | omega
    rw [hb]
    simp

/-- C79: exactly when the returned value is right, for graphs with nodes `0, …, n-1` inserted in this order and without
weights. -/
theorem C79_iff (hev : EigvalsContract eigvals)
    (hsucc : ∀ {n : ℕ} (A : Matrix (Fin n) (Fin n) ℂ), ∃ l, eigvals A = .ok l)
    {nx : Nx} (hnx : Spec.NxContract nx) {G : NxGraph ℕ} (hs : Spec.IsSimple G) (hn : Spec.IsNumbered G)
    (hw : ∀ e ∈ G.edges, G.weight e.1 e.2 = 1) :
    countPerfectMatchings eigvals nx G = .ok (.real (Spec.matchings G).card) ↔
      ((∃ cw, Spec.IsPlane G cw) ∧ Spec.numComponents G = 1) ∨
      ((¬ ∃ cw, Spec.IsPlane G cw) ∧ (G.nodes.length ≤ 15 ∨ Spec.matchings G = ∅)) := by
  have hpl : (∃ cw, Spec.IsPlane G cw) ↔ (nx.checkPlanarity G).isSome := by
    constructor
    · rintro ⟨cw, h⟩
      exact hnx.total G cw hs h
    · intro h
      obtain ⟨cw, hcw⟩ := Option.isSome_iff_exists.1 h
      exact ⟨cw, hnx.plane G cw hs hcw⟩
  rw [hpl]
  by_cases hp : (nx.checkPlanarity G).isSome
  · simp only [hp, true_and, not_true_eq_false, false_and, or_false]
    by_cases hE : G.edges = []
    · rw [numComponents_nil hE]
      simp only [zero_ne_one, iff_false]
      by_cases hz : G.nodes = []
      · have h1 : countPerfectMatchings eigvals nx G = .ok (.real 0) := by
          obtain ⟨cw, hcw⟩ := Option.isSome_iff_exists.1 hp
          unfold countPerfectMatchings countPerfectMatchingsPlanar
          rw [if_pos hp, if_neg (by rw [hcw]; simp), if_pos (by rw [hz]; rfl)]
          rfl
        have h2 : (Spec.matchings G).card = 1 := by
          have : findPerfectMatchingsBrute G = [[]] := by
            unfold findPerfectMatchingsBrute
            rw [hz, hE]
            rfl
          rw [← brute_length hs (by rw [hz]; simp), this]
          rfl
        rw [h1, h2]
        simp
      · rw [(C79_edgeless (eigvals := eigvals) hnx hs hE hz).1]
        simp
    · rw [C79_components hev hsucc hnx hs hn hw hE hp]
      split_ifs with h <;> simp [h]
  · have hp' : nx.checkPlanarity G = none := by simpa using hp
    simp only [hp, false_and, false_or, not_false_eq_true, true_and]
    rw [C79_nonplanar hs hp']
    split_ifs with h
    · simp [h]
    · simp only [h, false_or, Except.ok.injEq, CleanRes.real.injEq, ← Finset.card_eq_zero, not_false_eq_true, true_and,
        false_and]
      exact_mod_cast eq_comm

/-- an edge and an isolated node: one component with edges, not connected, no perfect matching -/
def edgeAndNode : NxGraph ℕ := { nodes := [0, 1, 2], edges := [(0, 1)] }

theorem edgeAndNode_plane : Spec.IsPlane edgeAndNode (fun _ u => u) ∧ Spec.numComponents edgeAndNode = 1 := by
  have hs : Spec.IsSimple edgeAndNode := ⟨by decide, by decide, by decide, by decide, fun _ _ => rfl⟩
  have hr : Spec.IsRotation edgeAndNode (fun _ u => u) := isRotation_of (by decide) (by decide) (by decide)
  have hE : ∀ u v, edgeAndNode.hasEdge u v ↔ (u = 0 ∧ v = 1) ∨ (u = 1 ∧ v = 0) := by
    intro u v
    simp [NxGraph.hasEdge, edgeAndNode]
    omega
  have ht : Spec.touched edgeAndNode = {0, 1} := by
    ext v
    simp only [Spec.touched, hE, Set.mem_setOf_eq, Set.mem_insert_iff, Set.mem_singleton_iff]
    constructor
    · rintro ⟨u, h⟩; omega
    · rintro (rfl | rfl)
      · exact ⟨1, by simp⟩
      · exact ⟨0, by simp⟩
  have h1 : Spec.numComponents edgeAndNode = 1 := by
    rw [numComponents_one_iff hs (by decide), ht]
    rintro u (rfl | rfl) v (rfl | rfl)
    · exact Relation.ReflTransGen.refl
    · exact Relation.ReflTransGen.single ((hE _ _).2 (by simp))
    · exact Relation.ReflTransGen.single ((hE _ _).2 (by simp))
    · exact Relation.ReflTransGen.refl
  refine ⟨⟨hr, ?_⟩, h1⟩
  rw [numFaces_of (F := [[(0, 1), (1, 0)]]) (by decide) hr (by rfl), ht, h1, Set.ncard_pair (by decide)]
  rfl

example : countPerfectMatchings someEigvals someNx edgeAndNode = .ok (.real 0) := by
  have hs : Spec.IsSimple edgeAndNode := ⟨by decide, by decide, by decide, by decide, fun _ _ => rfl⟩
  rw [C79_components someEigvals_contract (fun A => ⟨_, rfl⟩) someNx_contract hs rfl (fun _ _ => rfl) (by decide)
    (someNx_contract.total _ _ hs edgeAndNode_plane.1), if_pos edgeAndNode_plane.2, ← brute_length hs (by decide)]
  have : findPerfectMatchingsBrute edgeAndNode = [] := rfl
  rw [this]
  simp

/-- C79 fails for all complete graphs with an even number of more than 15 nodes: they have perfect matchings, the
code returns 0. -/
theorem C79_large {nx : Nx} (hnx : Spec.NxContract nx) (m : ℕ) (hm : 8 ≤ m) :
    countPerfectMatchings eigvals nx (completeG (2 * m)) = .ok (.real 0) ∧
    0 < (Spec.matchings (completeG (2 * m))).card := by
  have hl : (completeG (2 * m)).nodes.length = 2 * m := List.length_range
  constructor
  · have hE := completeG_edges (n := 2 * m) (by omega)
    have hp : nx.checkPlanarity (completeG (2 * m)) = none := by
      by_contra hcon
      obtain ⟨cw, hcw⟩ := Option.ne_none_iff_exists'.1 hcon
      have hne : (completeG (2 * m)).edges ≠ [] := by
        intro h
        rw [h] at hE
        simp at hE
        omega
      have := planar_edges_le (completeG_simple _) (completeG_connected _) (by omega) hne
        (hnx.planar _ cw (completeG_simple _) (completeG_connected _) hne hcw)
      omega
    unfold countPerfectMatchings
    rw [if_neg (by rw [hp]; simp)]
    have hb : findPerfectMatchingsBrute (completeG (2 * m)) = [] := by
      unfold findPerfectMatchingsBrute
      rw [if_neg (by rw [hl]; omega), if_pos (by rw [hl]; omega)]
    rw [hb]
    simp
  · exact Finset.card_pos.2 ⟨_, mem_matchings.2 (completeG_matching m)⟩

/-- C79 fails for two disjoint edges: they have one perfect matching, the code raises AssertionError. -/
theorem C79_disconnected {nx : Nx} (hnx : Spec.NxContract nx) :
    countPerfectMatchings eigvals nx twoEdges = .error .assertionError ∧ (Spec.matchings twoEdges).card = 1 := by
  have hp := twoEdges_some hnx
  obtain ⟨cw, hcw⟩ := Option.isSome_iff_exists.1 hp
  constructor
  · unfold countPerfectMatchings countPerfectMatchingsPlanar
    rw [if_pos hp, if_neg (by rw [hcw]; simp), if_neg (by decide)]
    have hA : adjacencyMatrix twoEdges = .ok twoEdges.adjacency := by rw [adjacencyMatrix, if_neg (by decide)]
    simp only [bind, Except.bind, hA, twoEdges_pfo hnx, pure, Except.pure]
  · rw [← brute_length twoEdges_simple (by decide)]
    rfl

/-- C79, weights: "the number of weighted matchings" is what is returned for planar graphs, but for other graphs the
weights are ignored. -/
theorem C79_weights_ignored {nx : Nx} {G : NxGraph ℕ} (hs : Spec.IsSimple G) (hp : nx.checkPlanarity G = none)
    (hn : G.nodes.length ≤ 15) :
    countPerfectMatchings eigvals nx G = .ok (.real (Spec.matchings G).card) := by
  unfold countPerfectMatchings
  rw [if_neg (by rw [hp]; simp), brute_length hs hn]

/-- a graph without planar embedding on which the second case of `C79_count_partial` is met -/
example : Spec.IsSimple (completeG 6) ∧ someNx.checkPlanarity (completeG 6) = none ∧ (completeG 6).nodes.length ≤ 15 := by
  refine ⟨completeG_simple 6, ?_, by decide⟩
  by_contra hcon
  obtain ⟨cw, hcw⟩ := Option.ne_none_iff_exists'.1 hcon
  have := planar_edges_le (completeG_simple 6) (completeG_connected 6) (by decide) (by decide)
    (someNx_contract.planar _ cw (completeG_simple 6) (completeG_connected 6) (by decide) hcw)
  revert this
  decide

/-! ## C80

The documentation (docs/tutorials.rst, docs/examples.rst) takes the array returned by `pfo_algorithm` for
skew-symmetric and its Pfaffian for the number of perfect matchings. Neither holds: on edges outside of the spanning
tree `complete_face` writes the same sign at `(u, v)` and `(v, u)`. -/

open Classical in
/-- C80, what holds instead, for nodes with the labels `0, …, n-1` inserted in any order on which `pfo_algorithm` succeeds:
`pf(pfo_algorithm(G))` is, up to sign, the number of perfect matchings all of whose edges lie in the spanning tree; this
number is 0 or 1. -/
theorem C80_any_order {nx : Nx} (hnx : Spec.NxContract nx) {G : NxGraph ℕ} (hs : Spec.IsSimple G)
    (hl : ∀ v, v ∈ G.nodes ↔ v < G.nodes.length) (hc : G.isConnected) (hE : G.edges ≠ [])
    (hp : (nx.checkPlanarity G).isSome) (hup : ∀ e ∈ G.edges, ¬ (e ∈ nx.maximumSpanningTree G ∨
      (e.2, e.1) ∈ nx.maximumSpanningTree G) → e.1 < e.2) :
    ∃ O y, pfoAlgorithm nx G = .ok O ∧ pf O = .ok y ∧
      |y| = ((Spec.matchings G).filter fun M => ∀ e ∈ M, e ∈ nx.maximumSpanningTree G ∨
        (e.2, e.1) ∈ nx.maximumSpanningTree G).card ∧ (y = 0 ∨ y = 1 ∨ y = -1) := by
  obtain ⟨cw, hcw⟩ := Option.isSome_iff_exists.1 hp
  obtain ⟨F, hF, -, c⟩ := ctx_of hnx hs hl hc hE hcw
  have hpos := c.pos
  have hT := hnx.spanning G hs hc (by intro h; rw [h] at hpos; simp at hpos)
  obtain ⟨O, hO, hspec⟩ := pfoAlgorithm_ok c nx hT (fun e he => hup e (Ctx.mem_edgesNotInT.1 he).1 (Ctx.mem_edgesNotInT.1 he).2) hnx.setOrder (by rw [hcw]; exact hF)
  obtain ⟨y, hy, hyy⟩ := pf_pfo c hT hspec
  have hM : (Spec.matchings G).filter (fun M => ∀ e ∈ M, e ∈ nx.maximumSpanningTree G ∨
        (e.2, e.1) ∈ nx.maximumSpanningTree G) = Spec.matchings (treeGraph G (nx.maximumSpanningTree G)) := by
    ext M
    rw [Finset.mem_filter, mem_matchings_treeGraph]
    rfl
  refine ⟨O, y, hO, hy, ?_, ?_⟩
  · rw [hM]
    rcases hyy with h | h <;> rw [h]
    · exact Nat.abs_cast _
    · rw [abs_neg]; exact Nat.abs_cast _
  · have h1 := tree_matchings_le_one c hT
    interval_cases hk : (Spec.matchings (treeGraph G (nx.maximumSpanningTree G))).card
    · left; rcases hyy with h | h <;> rw [h] <;> norm_num
    · right; rcases hyy with h | h <;> rw [h] <;> norm_num

open Classical in
/-- C80, the same for nodes `0, …, n-1` inserted in this order. -/
theorem C80_pf_pfo {nx : Nx} (hnx : Spec.NxContract nx) {G : NxGraph ℕ} (hs : Spec.IsSimple G)
    (hn : Spec.IsNumbered G) (hc : G.isConnected) (hE : G.edges ≠ []) (hp : (nx.checkPlanarity G).isSome) :
    ∃ O y, pfoAlgorithm nx G = .ok O ∧ pf O = .ok y ∧
      |y| = ((Spec.matchings G).filter fun M => ∀ e ∈ M, e ∈ nx.maximumSpanningTree G ∨
        (e.2, e.1) ∈ nx.maximumSpanningTree G).card ∧ (y = 0 ∨ y = 1 ∨ y = -1) :=
  C80_any_order hnx hs hn.labels hc hE hp fun e he ht => numbered_up hs hn _ e (Ctx.mem_edgesNotInT.2 ⟨he, ht⟩)

/-- C80, exactly when the documented statement holds: if all perfect matchings of the graph lie in the spanning tree (so
that there is at most one). -/
theorem C80_iff {nx : Nx} (hnx : Spec.NxContract nx) {G : NxGraph ℕ} (hs : Spec.IsSimple G)
    (hl : ∀ v, v ∈ G.nodes ↔ v < G.nodes.length) (hc : G.isConnected) (hE : G.edges ≠ [])
    (hp : (nx.checkPlanarity G).isSome) (hup : ∀ e ∈ G.edges, ¬ (e ∈ nx.maximumSpanningTree G ∨
      (e.2, e.1) ∈ nx.maximumSpanningTree G) → e.1 < e.2) :
    ∃ O y, pfoAlgorithm nx G = .ok O ∧ pf O = .ok y ∧ (|y| = (Spec.matchings G).card ↔
      ∀ M ∈ Spec.matchings G, ∀ e ∈ M, e ∈ nx.maximumSpanningTree G ∨ (e.2, e.1) ∈ nx.maximumSpanningTree G) := by
  classical
  obtain ⟨O, y, hO, hy, h, -⟩ := C80_any_order hnx hs hl hc hE hp hup
  refine ⟨O, y, hO, hy, ?_⟩
  rw [h, Nat.cast_inj, Finset.card_filter_eq_iff]

/-- the hypotheses of `C80_any_order` are met by a path inserted as 1, 2, 0, 3 -/
example : shuffledPath.nodes = [1, 2, 0, 3] ∧ ∃ O y, pfoAlgorithm someNx shuffledPath = .ok O ∧ pf O = .ok y ∧
    |y| = (Spec.matchings shuffledPath).card := by
  have hT := someNx_contract.spanning _ shuffledPath_simple shuffledPath_connected (by decide)
  have hin : ∀ e ∈ shuffledPath.edges, e ∈ someNx.maximumSpanningTree shuffledPath ∨ (e.2, e.1) ∈ someNx.maximumSpanningTree shuffledPath := by
    intro e he
    by_contra hcon
    have := Ctx.mem_edgesNotInT.2 ⟨he, hcon⟩
    rw [shuffledPath_tree hT] at this
    exact absurd this (by simp)
  obtain ⟨O, y, hO, hy, h⟩ := C80_iff someNx_contract shuffledPath_simple (by simp [shuffledPath]; omega) shuffledPath_connected (by decide)
    (someNx_contract.complete _ _ shuffledPath_simple shuffledPath_connected (by decide) shuffledPath_planar)
    fun e he ht => absurd (hin e he) ht
  refine ⟨rfl, O, y, hO, hy, h.2 fun M hM e he => hin e ?_⟩
  rw [mem_matchings] at hM
  simpa using hM.1 he

/-- C80 fails: for every connected planar graph (nodes `0, …, n-1` in order) with at least two perfect matchings, the
Pfaffian is not the number of perfect matchings, for any choice of embedding and spanning tree. -/
theorem C80_fails {nx : Nx} (hnx : Spec.NxContract nx) {G : NxGraph ℕ} (hs : Spec.IsSimple G)
    (hn : Spec.IsNumbered G) (hc : G.isConnected) (hE : G.edges ≠ []) (hp : (nx.checkPlanarity G).isSome)
    (h2 : 2 ≤ (Spec.matchings G).card) :
    ∃ O y, pfoAlgorithm nx G = .ok O ∧ pf O = .ok y ∧ |y| < (Spec.matchings G).card := by
  obtain ⟨O, y, hO, hy, -, h⟩ := C80_pf_pfo hnx hs hn hc hE hp
  refine ⟨O, y, hO, hy, ?_⟩
  have h2' : (2 : ℝ) ≤ (Spec.matchings G).card := by exact_mod_cast h2
  rcases h with rfl | rfl | rfl
  · rw [abs_zero]; linarith
  · rw [abs_one]; linarith
  · rw [abs_neg, abs_one]; linarith

/-- C80, the part that holds: for trees the Pfaffian is the number of perfect matchings, up to sign. Missing: graphs
with a cycle, where the statement fails. -/
theorem C80_tree_partial {nx : Nx} (hnx : Spec.NxContract nx) {G : NxGraph ℕ} (hs : Spec.IsSimple G)
    (hn : Spec.IsNumbered G) (hc : G.isTree) (hE : G.edges ≠ []) (hp : (nx.checkPlanarity G).isSome) :
    ∃ O y, pfoAlgorithm nx G = .ok O ∧ pf O = .ok y ∧ |y| = (Spec.matchings G).card := by
  classical
  obtain ⟨O, y, hO, hy, h, -⟩ := C80_pf_pfo hnx hs hn hc.2 hE hp
  refine ⟨O, y, hO, hy, ?_⟩
  rw [h, Finset.filter_true_of_mem]
  intro M hM e he
  rw [mem_matchings] at hM
  have heE : e ∈ G.edges := by simpa using hM.1 he
  -- the spanning tree has as many edges as the graph
  obtain ⟨cw, hcw⟩ := Option.isSome_iff_exists.1 hp
  obtain ⟨F, -, -, c⟩ := ctx_of hnx hs hn.labels hc.2 hE hcw
  have hpos := c.pos
  have hT := hnx.spanning G hs hc.2 (by intro h; rw [h] at hpos; simp at hpos)
  obtain ⟨R, hR⟩ := c.exists_rtree hT
  by_contra hcon
  push Not at hcon
  have hle : (Finset.univ.erase R.r).card ≤ ((G.edges.erase e).map fun d => s(d.1, d.2)).toFinset.card := by
    refine Finset.card_le_card_of_injOn (fun v => s(v.1, (R.par v).1)) ?_ ?_
    · intro v hv
      have hvr : v ≠ R.r := by simpa using hv
      have hadj : G.hasEdge v.1 (R.par v).1 := R.adj hvr
      have hin := (hR v (R.par v)).1 (Or.inl ⟨hvr, rfl⟩)
      simp only [List.coe_toFinset, Set.mem_ofPred_eq, List.mem_map]
      rcases hadj with h | h
      · refine ⟨_, (List.mem_erase_of_ne ?_).2 h, rfl⟩
        rintro rfl
        exact hin.elim hcon.1 hcon.2
      · refine ⟨_, (List.mem_erase_of_ne ?_).2 h, Sym2.eq_swap⟩
        rintro rfl
        exact hin.elim hcon.2 hcon.1
    · intro v hv w hw hvw
      have hvr : v ≠ R.r := by simpa using hv
      have hwr : w ≠ R.r := by simpa using hw
      simp only [Sym2.eq_iff] at hvw
      rcases hvw with h | h
      · exact Fin.ext h.1
      · have h1 : v = R.par w := Fin.ext h.1
        have h2 : R.par v = w := Fin.ext h.2
        have h3 := R.rk_lt hvr
        have h4 := R.rk_lt hwr
        rw [h2] at h3
        rw [← h1] at h4
        omega
  have h2 : ((G.edges.erase e).map fun d => s(d.1, d.2)).toFinset.card ≤ G.edges.length - 1 := by
    refine (List.toFinset_card_le _).trans ?_
    rw [List.length_map, List.length_erase_of_mem heE]
  rw [Finset.card_erase_of_mem (Finset.mem_univ _), Finset.card_univ, Fintype.card_fin] at hle
  have h5 := hc.1
  have h6 : 0 < G.edges.length := List.length_pos_of_mem heE
  omega

example : 2 ≤ (Spec.matchings squareGraph).card := by rw [square_matchings]

/-- the hypotheses of `C80_tree_partial` are met by a path -/
example : Spec.IsSimple pathGraph ∧ Spec.IsNumbered pathGraph ∧ pathGraph.isTree ∧ pathGraph.edges ≠ [] ∧
    (someNx.checkPlanarity pathGraph).isSome :=
  ⟨pathGraph_simple, rfl, ⟨rfl, pathGraph_connected⟩, by decide,
    someNx_contract.complete _ _ pathGraph_simple pathGraph_connected (by decide) pathGraph_planar⟩

/-! ## C81

Property C81, "`pfo_algorithm` succeeds whatever the order in which nodes were inserted", is false. -/

/-- C81, the part that holds: nodes `0, …, n-1` inserted in this order. Missing: all other orders. -/
theorem C81_pfo_partial {nx : Nx} (hnx : Spec.NxContract nx) {G : NxGraph ℕ} (hs : Spec.IsSimple G)
    (hn : Spec.IsNumbered G) (hc : G.isConnected) (hE : G.edges ≠ []) (hp : (nx.checkPlanarity G).isSome) :
    ∃ O, pfoAlgorithm nx G = .ok O := by
  obtain ⟨O, y, h, -⟩ := C80_pf_pfo hnx hs hn hc hE hp
  exact ⟨O, h⟩

/-- C81 fails: on every connected planar graph with a cycle whose nodes were inserted in such an order that all edges
are reported from the larger to the smaller node, `pfo_algorithm` raises AssertionError. -/
theorem C81_descending {nx : Nx} (hnx : Spec.NxContract nx) {G : NxGraph ℕ} (hs : Spec.IsSimple G) (hc : G.isConnected)
    (hE : G.edges ≠ []) (hp : (nx.checkPlanarity G).isSome) (hd : ∀ e ∈ G.edges, e.2 < e.1)
    (hcyc : G.nodes.length ≤ G.edges.length) : pfoAlgorithm nx G = .error .assertionError :=
  pfo_descending hnx hs hc hE hp hd hcyc

/-- C81: a graph with edges but without planar embedding is rejected with TypeError. -/
theorem C81_nonplanar {nx : Nx} {G : NxGraph ℕ} (hs : Spec.IsSimple G) (hE : G.edges ≠ []) (hp : nx.checkPlanarity G = none) :
    pfoAlgorithm nx G = .error .typeError := by
  obtain ⟨e, es, he⟩ := List.exists_cons_of_ne_nil hE
  have hl : G.nodes.length ≠ 0 := by
    have := List.length_pos_of_mem (hs.mem e (by rw [he]; simp)).1
    omega
  have hf : faces nx G none = .ok none := by
    unfold faces
    rcases hm : minDart G.edgeset with _ | m
    · rw [minDart_eq_none] at hm
      have : (e.1, e.2) ∈ G.edgeset := mem_edgeset.2 (Or.inl (by rw [he]; simp))
      rw [hm] at this
      simp at this
    · rw [hp]
      rfl
  unfold pfoAlgorithm
  simp only [bind, Except.bind, adjacencyMatrix, if_neg hl, hp, hf]
  rfl

/-- C81, exactly: `pfo_algorithm` succeeds if and only if the graph has an edge and is planar, all its edges are in one
component, every edge outside of the spanning forest chosen by networkx is reported from its smaller to its larger node,
and all nodes with an edge are smaller than the number of nodes. -/
theorem C81_iff {nx : Nx} (hnx : Spec.NxContract nx) {G : NxGraph ℕ} (hs : Spec.IsSimple G) :
    (∃ O, pfoAlgorithm nx G = .ok O) ↔
      (∃ cw, Spec.IsPlane G cw) ∧ Spec.numComponents G = 1 ∧
      (∀ e ∈ G.edges, ¬ (e ∈ nx.maximumSpanningTree G ∨ (e.2, e.1) ∈ nx.maximumSpanningTree G) → e.1 < e.2) ∧
      ∀ e ∈ G.edges, e.1 < G.nodes.length ∧ e.2 < G.nodes.length := by
  rw [asc_iff]
  constructor
  · rintro ⟨O, hO⟩
    by_cases hE : G.edges = []
    · exfalso
      by_cases hz : G.nodes.length = 0
      · unfold pfoAlgorithm at hO
        simp only [bind, Except.bind, adjacencyMatrix, if_pos hz] at hO
        cases hO
      · have hf : ∀ emb, faces nx G emb = .error .valueError := by
          intro emb
          unfold faces
          have : minDart G.edgeset = none := by
            rw [minDart_eq_none]
            simp [NxGraph.edgeset, hE]
          rw [this]
        unfold pfoAlgorithm at hO
        simp only [bind, Except.bind, adjacencyMatrix, if_neg hz, hf] at hO
        cases hO
    · by_cases hp : (nx.checkPlanarity G).isSome
      · obtain ⟨cw, hcw⟩ := Option.isSome_iff_exists.1 hp
        obtain ⟨h1, h2, -⟩ := pfo_outcome hnx hs hE hp
        have hA : Spec.numComponents G = 1 ∧ ∀ e ∈ edgesNotInT G (nx.maximumSpanningTree G), e.1 < e.2 := by
          by_contra h
          rw [h1 h] at hO
          cases hO
        refine ⟨⟨cw, hnx.plane G cw hs hcw⟩, hA.1, hA.2, ?_⟩
        by_contra h
        push Not at h
        obtain ⟨e, he, hb⟩ := h
        rw [h2 hA.1 hA.2 ⟨e, he, by by_cases h : e.1 < G.nodes.length; exact Or.inr (hb h); exact Or.inl (by omega)⟩] at hO
        cases hO
      · rw [C81_nonplanar hs hE (by simpa using hp)] at hO
        cases hO
  · rintro ⟨⟨cw, hcw⟩, hC, h1, h2⟩
    have hE : G.edges ≠ [] := fun h => by
      rw [numComponents_nil h] at hC
      exact absurd hC (by norm_num)
    exact (pfo_outcome hnx hs hE (hnx.total G cw hs hcw)).2.2 hC h1 h2

/-- C81: which exception is raised otherwise, for planar graphs with an edge: AssertionError, or IndexError if it is the
last condition of `C81_iff` only that fails. -/
theorem C81_errors {nx : Nx} (hnx : Spec.NxContract nx) {G : NxGraph ℕ} (hs : Spec.IsSimple G) (hE : G.edges ≠ [])
    (hp : (nx.checkPlanarity G).isSome) :
    (¬ (Spec.numComponents G = 1 ∧
        ∀ e ∈ G.edges, ¬ (e ∈ nx.maximumSpanningTree G ∨ (e.2, e.1) ∈ nx.maximumSpanningTree G) → e.1 < e.2) →
      pfoAlgorithm nx G = .error .assertionError) ∧
    (Spec.numComponents G = 1 →
      (∀ e ∈ G.edges, ¬ (e ∈ nx.maximumSpanningTree G ∨ (e.2, e.1) ∈ nx.maximumSpanningTree G) → e.1 < e.2) →
      (∃ e ∈ G.edges, G.nodes.length ≤ e.1 ∨ G.nodes.length ≤ e.2) → pfoAlgorithm nx G = .error .indexError) := by
  obtain ⟨h1, h2, -⟩ := pfo_outcome hnx hs hE hp
  constructor
  · intro h
    refine h1 fun h' => h ⟨h'.1, fun e he hn => h'.2 e (Ctx.mem_edgesNotInT.2 ⟨he, hn⟩)⟩
  · intro hC h
    exact h2 hC fun e he => h e (Ctx.mem_edgesNotInT.1 he).1 (Ctx.mem_edgesNotInT.1 he).2

/-- an edge whose nodes are called 5 and 7: the only failing condition is the last one -/
def farEdge : NxGraph ℕ := { nodes := [5, 7], edges := [(5, 7)] }

/-- C81: a single edge between nodes called 5 and 7 is rejected with IndexError. -/
theorem C81_labels {nx : Nx} (hnx : Spec.NxContract nx) : pfoAlgorithm nx farEdge = .error .indexError := by
  have hs : Spec.IsSimple farEdge := ⟨by decide, by decide, by decide, by decide, fun _ _ => rfl⟩
  have hr : Spec.IsRotation farEdge (fun _ u => u) := isRotation_of (by decide) (by decide) (by decide)
  have hc : farEdge.isConnected := by
    apply isConnected_of 5
    intro u hu
    simp only [farEdge, List.mem_cons, List.not_mem_nil, or_false] at hu
    rcases hu with rfl | rfl
    · exact Relation.ReflTransGen.refl
    · exact Relation.ReflTransGen.single (by decide)
  have hpl : Spec.IsPlanarEmbedding farEdge (fun _ u => u) := by
    refine ⟨hr, ?_⟩
    rw [numFaces_of (F := [[(5, 7), (7, 5)]]) (by decide) hr (by rfl)]
    rfl
  refine (C81_errors hnx hs (by decide) (hnx.complete _ _ hs hc (by decide) hpl)).2 (numComponents_conn hs hc (by decide)) ?_
    ⟨(5, 7), by decide, Or.inl (by decide)⟩
  intro e he _
  simp only [farEdge, List.mem_singleton] at he
  subst he
  decide

/-- C81, the value: whenever `pfo_algorithm` succeeds, `count_perfect_matchings_planar` returns the absolute value of the
weighted number of those perfect matchings all of whose edges join two nodes whose positions in the order of insertion,
read as labels, are also adjacent, rounded to ten decimals. If `pfo_algorithm` fails on a planar graph with an edge, it
fails with the same exception. -/
theorem C81_count (hev : EigvalsContract eigvals)
    (hsucc : ∀ {n : ℕ} (A : Matrix (Fin n) (Fin n) ℂ), ∃ l, eigvals A = .ok l)
    {nx : Nx} (hnx : Spec.NxContract nx) {G : NxGraph ℕ} (hs : Spec.IsSimple G) :
    ((∃ O, pfoAlgorithm nx G = .ok O) → countPerfectMatchingsPlanar eigvals nx G =
      .ok (.real (npRound 10 |∑ M ∈ Spec.countedMatchings G, ∏ e ∈ M, G.weight e.1 e.2|))) ∧
    (G.edges ≠ [] → (nx.checkPlanarity G).isSome → ∀ err, pfoAlgorithm nx G = .error err →
      countPerfectMatchingsPlanar eigvals nx G = .error err) := by
  refine ⟨fun h => ?_, fun hE hp err h => count_error hs hE hp h⟩
  obtain ⟨⟨cw, hcw⟩, hC, hup, hb⟩ := (C81_iff hnx hs).1 h
  have hE : G.edges ≠ [] := fun h => by
    rw [numComponents_nil h] at hC
    exact absurd hC (by norm_num)
  exact count_outcome_all hev hsucc hnx hs hE (hnx.total G cw hs hcw) hC (asc_iff.1 hup) hb

/-- C81: without weights the value is the number of these perfect matchings; so it is never too large, and it is right if
and only if all perfect matchings are of this kind. -/
theorem C81_count_unit (hev : EigvalsContract eigvals)
    (hsucc : ∀ {n : ℕ} (A : Matrix (Fin n) (Fin n) ℂ), ∃ l, eigvals A = .ok l)
    {nx : Nx} (hnx : Spec.NxContract nx) {G : NxGraph ℕ} (hs : Spec.IsSimple G)
    (hw : ∀ e ∈ G.edges, G.weight e.1 e.2 = 1) (h : ∃ O, pfoAlgorithm nx G = .ok O) :
    countPerfectMatchingsPlanar eigvals nx G = .ok (.real (Spec.countedMatchings G).card) ∧
    (Spec.countedMatchings G).card ≤ (Spec.matchings G).card ∧
    (countPerfectMatchingsPlanar eigvals nx G = .ok (.real (Spec.matchings G).card) ↔
      ∀ M ∈ Spec.matchings G, ∀ e ∈ M, G.hasEdge (G.nodes.idxOf e.1) (G.nodes.idxOf e.2)) := by
  classical
  have hsub : Spec.countedMatchings G ⊆ Spec.matchings G := Finset.filter_subset _ _
  have h1 : countPerfectMatchingsPlanar eigvals nx G = .ok (.real (Spec.countedMatchings G).card) := by
    rw [(C81_count hev hsucc hnx hs).1 h]
    have h2 : ∑ M ∈ Spec.countedMatchings G, ∏ e ∈ M, G.weight e.1 e.2 = (Spec.countedMatchings G).card := by
      rw [Finset.card_eq_sum_ones]
      push_cast
      refine Finset.sum_congr rfl fun M hM => Finset.prod_eq_one fun e he => hw e ?_
      simpa using (mem_matchings.1 (hsub hM)).1 he
    have h3 : npRound 10 ((Spec.countedMatchings G).card : ℝ) = (Spec.countedMatchings G).card := by
      exact_mod_cast npRound_int 10 (Spec.countedMatchings G).card
    rw [h2, Nat.abs_cast, h3]
  refine ⟨h1, Finset.card_le_card hsub, ?_⟩
  rw [h1]
  simp only [Except.ok.injEq, CleanRes.real.injEq, Nat.cast_inj]
  constructor
  · intro hc M hM
    rw [← Finset.eq_of_subset_of_card_le hsub hc.ge, Spec.countedMatchings, Finset.mem_filter] at hM
    exact hM.2
  · intro hall
    rw [Spec.countedMatchings, Finset.filter_true_of_mem hall]

/-- C79: exactly when the returned value is right, for every simple graph without weights, whatever its labels and the
order of insertion. -/
theorem C79_exact (hev : EigvalsContract eigvals)
    (hsucc : ∀ {n : ℕ} (A : Matrix (Fin n) (Fin n) ℂ), ∃ l, eigvals A = .ok l)
    {nx : Nx} (hnx : Spec.NxContract nx) {G : NxGraph ℕ} (hs : Spec.IsSimple G)
    (hw : ∀ e ∈ G.edges, G.weight e.1 e.2 = 1) :
    countPerfectMatchings eigvals nx G = .ok (.real (Spec.matchings G).card) ↔
      ((∃ cw, Spec.IsPlane G cw) ∧ Spec.numComponents G = 1 ∧
        (∀ e ∈ G.edges, ¬ (e ∈ nx.maximumSpanningTree G ∨ (e.2, e.1) ∈ nx.maximumSpanningTree G) → e.1 < e.2) ∧
        (∀ e ∈ G.edges, e.1 < G.nodes.length ∧ e.2 < G.nodes.length) ∧
        ∀ M ∈ Spec.matchings G, ∀ e ∈ M, G.hasEdge (G.nodes.idxOf e.1) (G.nodes.idxOf e.2)) ∨
      ((¬ ∃ cw, Spec.IsPlane G cw) ∧ (G.nodes.length ≤ 15 ∨ Spec.matchings G = ∅)) := by
  have hpl : (∃ cw, Spec.IsPlane G cw) ↔ (nx.checkPlanarity G).isSome := by
    constructor
    · rintro ⟨cw, h⟩
      exact hnx.total G cw hs h
    · intro h
      obtain ⟨cw, hcw⟩ := Option.isSome_iff_exists.1 h
      exact ⟨cw, hnx.plane G cw hs hcw⟩
  by_cases hp : (nx.checkPlanarity G).isSome
  · have hpl' := hpl.2 hp
    simp only [hpl', not_true_eq_false, false_and, or_false, true_and]
    by_cases hE : G.edges = []
    · rw [numComponents_nil hE]
      simp only [zero_ne_one, false_and, iff_false]
      by_cases hz : G.nodes = []
      · obtain ⟨ns, es, w⟩ := G
        subst hz hE
        have hn : Spec.IsNumbered (⟨[], [], w⟩ : NxGraph ℕ) := rfl
        rw [C79_iff hev hsucc hnx hs hn (by simp)]
        simp [hpl', numComponents_nil]
      · rw [(C79_edgeless (eigvals := eigvals) hnx hs hE hz).1]
        simp
    · have hcount : countPerfectMatchings eigvals nx G = countPerfectMatchingsPlanar eigvals nx G := by
        unfold countPerfectMatchings
        rw [if_pos hp]
      rw [hcount]
      constructor
      · intro h
        have hO : ∃ O, pfoAlgorithm nx G = .ok O := by
          rcases hx : pfoAlgorithm nx G with err | O
          · rw [(C81_count hev hsucc hnx hs).2 hE hp err hx] at h
            cases h
          · exact ⟨O, rfl⟩
        obtain ⟨-, h1, h2, h3⟩ := (C81_iff hnx hs).1 hO
        exact ⟨h1, h2, h3, (C81_count_unit hev hsucc hnx hs hw hO).2.2.1 h⟩
      · rintro ⟨h1, h2, h3, h4⟩
        exact (C81_count_unit hev hsucc hnx hs hw ((C81_iff hnx hs).2 ⟨hpl', h1, h2, h3⟩)).2.2.2 h4
  · have hp' : nx.checkPlanarity G = none := by simpa using hp
    have hpl' : ¬ ∃ cw, Spec.IsPlane G cw := fun h => hp (hpl.1 h)
    simp only [hpl', not_false_eq_true, false_and, false_or, true_and]
    rw [C79_nonplanar hs hp']
    split_ifs with h
    · simp [h]
    · simp only [h, false_or, Except.ok.injEq, CleanRes.real.injEq, ← Finset.card_eq_zero]
      exact_mod_cast eq_comm

/-- the path inserted in the order `1, 2, 0, 3` meets the hypotheses of `C81_count_unit` -/
example : Spec.IsSimple shuffledPath ∧ (∀ e ∈ shuffledPath.edges, shuffledPath.weight e.1 e.2 = 1) ∧
    ∃ O, pfoAlgorithm someNx shuffledPath = .ok O := by
  obtain ⟨O, hO, -⟩ := shuffledPath_pfo someNx_contract
  exact ⟨shuffledPath_simple, fun _ _ => rfl, O, hO⟩

/-- C81: on graphs without edges `pfo_algorithm` raises NetworkXError if there are no nodes and ValueError otherwise. -/
theorem C81_edgeless {nx : Nx} {G : NxGraph ℕ} (hE : G.edges = []) :
    pfoAlgorithm nx G = .error (if G.nodes = [] then .networkXError else .valueError) := by
  unfold pfoAlgorithm
  by_cases hz : G.nodes = []
  · simp only [bind, Except.bind, adjacencyMatrix, hz, List.length_nil, if_true]
  · have hf : ∀ emb, faces nx G emb = .error .valueError := fun emb => by
      unfold faces
      rw [minDart_eq_none.2 (by simp [NxGraph.edgeset, hE])]
    simp only [bind, Except.bind, adjacencyMatrix, if_neg (mt List.length_eq_zero_iff.1 hz), hf, if_neg hz]

example : ∃ G H : NxGraph ℕ, G.edges = [] ∧ G.nodes = [] ∧ H.edges = [] ∧ H.nodes = [0, 1] :=
  ⟨{ nodes := [], edges := [] }, { nodes := [0, 1], edges := [] }, rfl, rfl, rfl, rfl⟩

/-- C81: the same triangle is accepted or rejected depending on the order in which its nodes were inserted. -/
theorem C81_triangle {nx : Nx} (hnx : Spec.NxContract nx) :
    (∀ u v, upTriangle.hasEdge u v ↔ downTriangle.hasEdge u v) ∧ upTriangle.nodes.Perm downTriangle.nodes ∧
    (∃ O, pfoAlgorithm nx upTriangle = .ok O) ∧ pfoAlgorithm nx downTriangle = .error .assertionError := by
  refine ⟨?_, by decide, ?_, ?_⟩
  · intro u v
    simp [NxGraph.hasEdge, upTriangle, downTriangle]
    omega
  · exact C81_pfo_partial hnx upTriangle_simple upTriangle_numbered upTriangle_connected (by decide)
      (hnx.complete _ _ upTriangle_simple upTriangle_connected (by decide) upTriangle_planar)
  · exact C81_descending hnx downTriangle_simple downTriangle_connected (by decide)
      (hnx.complete _ _ downTriangle_simple downTriangle_connected (by decide) downTriangle_planar) (by decide) (by decide)

/-- C81: for a path inserted in the order `1, 2, 0, 3` the count is silently wrong: one perfect matching, but the code
returns 0. -/
theorem C81_wrong_count (hev : EigvalsContract eigvals)
    (hsucc : ∀ {n : ℕ} (A : Matrix (Fin n) (Fin n) ℂ), ∃ l, eigvals A = .ok l)
    {nx : Nx} (hnx : Spec.NxContract nx) :
    countPerfectMatchingsPlanar eigvals nx shuffledPath = .ok (.real 0) ∧ (Spec.matchings shuffledPath).card = 1 := by
  refine ⟨shuffledPath_count hev hsucc hnx, ?_⟩
  rw [← brute_length shuffledPath_simple (by decide)]
  rfl

example : EigvalsContract someEigvals ∧ (∀ {n : ℕ} (A : Matrix (Fin n) (Fin n) ℂ), ∃ l, someEigvals A = .ok l) ∧
    Spec.NxContract someNx := ⟨someEigvals_contract, fun _ => ⟨_, rfl⟩, someNx_contract⟩

end FF.Props
