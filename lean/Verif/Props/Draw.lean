import Verif.Proofs.Draw
import Verif.Props.Graph
import Verif.Props.GraphCount
import Verif.Props.GraphMisc
import Mathlib.Combinatorics.Enumerative.DoubleCounting

/-!
# Properties C107-C109: drawings and messages

`Spec.arrows`, `Spec.figures`, `Spec.printed` and `Spec.titleAfter` (Spec/Draw.lean) read off what a user sees from the
list of actions.
-/

namespace FF.Props

/-! ## C107 -/

theorem arrows_append (a b : List Event) : Spec.arrows (a ++ b) = Spec.arrows a ++ Spec.arrows b := List.filterMap_append

theorem arrows_map (l : List Dart) : Spec.arrows (l.map fun d => .arrow d.1 d.2) = l := by
  induction l with
  | nil => rfl
  | cons a l ih => rw [List.map_cons, Spec.arrows, List.filterMap_cons]; simp only; rw [← Spec.arrows, ih]

theorem arrows_title (t : Option String) : Spec.arrows (titleEvents t) = [] := by
  rcases t with _ | s
  · rfl
  · by_cases h : s = "" <;> simp [titleEvents, h, Option.filter, Spec.arrows]

theorem arrows_print (l : List String) : Spec.arrows (l.map .print) = [] := by
  rw [Spec.arrows, List.filterMap_map, List.filterMap_eq_nil_iff]
  intro a _
  rfl

theorem titles_print (l : List String) : Spec.titles (l.map .print) = [] := by
  rw [Spec.titles, List.filterMap_map, List.filterMap_eq_nil_iff]
  intro a _
  rfl

theorem arrowOf_iff {n : ℕ} (O : Matrix (Fin n) (Fin n) ℝ) {e : Dart} (he : e.1 ≠ e.2) (d : Dart) :
    arrowOf O e = some d ↔ (d = e ∨ d = (e.2, e.1)) ∧ Spec.along O d < 0 := by
  classical
  have key : ∀ L R : ℕ, L < R → ((if Spec.entry O L R < 0 then some (L, R)
      else if Spec.entry O L R > 0 then some (R, L) else none) = some d ↔
      (d = (L, R) ∨ d = (R, L)) ∧ Spec.along O d < 0) := by
    intro L R h
    have hL : Spec.along O (L, R) = Spec.entry O L R := if_pos h
    have hR : Spec.along O (R, L) = - Spec.entry O L R := if_neg (by simp only; omega)
    constructor
    · split_ifs with h1 h2
      · intro h3
        rw [Option.some.injEq] at h3
        rw [← h3, hL]
        exact ⟨Or.inl rfl, h1⟩
      · intro h3
        rw [Option.some.injEq] at h3
        rw [← h3, hR]
        exact ⟨Or.inr rfl, by linarith⟩
      · intro h3; simp at h3
    · rintro ⟨rfl | rfl, h3⟩
      · rw [hL] at h3; rw [if_pos h3]
      · rw [hR] at h3; rw [if_neg (by linarith), if_pos (by linarith)]
  obtain ⟨u, v⟩ := e
  have he : u ≠ v := he
  simp only [arrowOf, upper_eq_entry]
  rcases lt_or_gt_of_ne he with h | h
  · simp only [if_pos h, min_eq_left h.le, max_eq_right h.le]
    exact key u v h
  · have h' : ¬ u < v := by omega
    simp only [if_neg h', min_eq_right h.le, max_eq_left h.le]
    rw [or_comm]
    exact key v u h

theorem no_reversed {G : NxGraph ℕ} (hs : Spec.IsSimple G) {e : Dart} (he : e ∈ G.edges) : (e.2, e.1) ∉ G.edges := by
  intro h
  have h1 := hs.ordered _ he
  have h2 := hs.ordered _ h
  simp only at h2
  omega

theorem ne_of_edge {G : NxGraph ℕ} (hs : Spec.IsSimple G) {e : Dart} (he : e ∈ G.edges) : e.1 ≠ e.2 := by
  intro h
  have h1 := hs.ordered _ he
  rw [h] at h1
  omega

theorem arrows_nodup {n : ℕ} {G : NxGraph ℕ} (hs : Spec.IsSimple G) (O : Matrix (Fin n) (Fin n) ℝ) :
    (G.edges.filterMap (arrowOf O)).Nodup := by
  rw [List.Nodup, List.pairwise_filterMap]
  refine hs.edges_nodup.imp_of_mem ?_
  intro a b ha hb hab d hd d' hd' hdd
  subst hdd
  rw [arrowOf_iff O (ne_of_edge hs ha)] at hd
  rw [arrowOf_iff O (ne_of_edge hs hb)] at hd'
  rcases hd.1 with rfl | rfl <;> rcases hd'.1 with h | h
  · exact hab h
  · apply no_reversed hs hb
    rw [← h]; exact ha
  · apply no_reversed hs ha
    rw [h]; exact hb
  · rw [Prod.mk.injEq] at h
    exact hab (Prod.ext h.2 h.1)

/-- C107: on a planar graph `plot_planar_embedding` draws all nodes, their labels and all edges in grey, sets the title, and
shows one figure. With an orientation that has an entry for every node, there is one arrow for every edge whose entry
is not zero, and no other arrow: from `u` to `v` if the sign of `(u, v)` is negative. Nothing is printed. -/
theorem C107_plot {nx : Nx} {G : NxGraph ℕ} (hs : Spec.IsSimple G) (hp : (nx.checkPlanarity G).isSome) {n : ℕ}
    (pfo : Option (Matrix (Fin n) (Fin n) ℝ)) (hb : ∀ O ∈ pfo, ∀ v ∈ G.nodes, v < n) (title : Option String) :
    (plotPlanarEmbedding nx G pfo title).result = .ok () ∧
    [Event.nodes G.nodes, .edges G.edges "gray", .labels G.nodes] <+: (plotPlanarEmbedding nx G pfo title).events ∧
    Spec.figures (plotPlanarEmbedding nx G pfo title).events = 1 ∧
    (plotPlanarEmbedding nx G pfo title).events.getLast? = some .show ∧
    Spec.printed (plotPlanarEmbedding nx G pfo title).events = [] ∧
    (Spec.arrows (plotPlanarEmbedding nx G pfo title).events).Nodup ∧
    (∀ u v, (u, v) ∈ Spec.arrows (plotPlanarEmbedding nx G pfo title).events ↔
      G.hasEdge u v ∧ ∃ O ∈ pfo, Spec.along O (u, v) < 0) ∧
    Spec.titleAfter (plotPlanarEmbedding nx G pfo title).events =
      if title = none ∨ title = some "" then pfo.map fun _ => "Planar Embedding with Oriented Faces" else title := by
  rcases pfo with _ | O
  · have hP := plotOk_none (m := n) (n := n) hp title
    rw [plot_none hp] at hP ⊢
    refine ⟨rfl, ?_, hP.figures, List.getLast?_concat .., hP.printed, ?_, ?_, ?_⟩
    · rw [List.append_assoc]; exact List.prefix_append _ _
    · simp only [arrows_append, arrows_title]; exact List.nodup_nil
    · simp only [arrows_append, arrows_title]
      simp [Spec.arrows]
    · simp only [Spec.titleAfter, titles_append, titles_title]
      rcases title with _ | s
      · rfl
      · by_cases h : s = "" <;> simp [h, Option.filter, Spec.titles]
  · have hbe : ∀ e ∈ G.edges, e.1 < n ∧ e.2 < n := fun e he =>
      ⟨hb O rfl _ (hs.mem e he).1, hb O rfl _ (hs.mem e he).2⟩
    have hP := plotOk_some hp O hbe title
    rw [plot_some hp O hbe] at hP ⊢
    have harr : Spec.arrows ([.nodes G.nodes, .edges G.edges "gray", .labels G.nodes,
        .title "Planar Embedding with Oriented Faces"] ++ ((G.edges.filterMap (arrowOf O)).map fun d => .arrow d.1 d.2) ++
        titleEvents title ++ [.show]) = G.edges.filterMap (arrowOf O) := by
      simp only [arrows_append, arrows_title, arrows_map]
      simp [Spec.arrows]
    refine ⟨rfl, ?_, hP.figures, List.getLast?_concat .., hP.printed, ?_, ?_, ?_⟩
    · rw [List.append_assoc, List.append_assoc]
      exact ⟨_, rfl⟩
    · rw [harr]; exact arrows_nodup hs O
    · intro u v
      rw [harr, List.mem_filterMap]
      constructor
      · rintro ⟨e, he, h⟩
        rw [arrowOf_iff O (ne_of_edge hs he)] at h
        refine ⟨?_, O, rfl, h.2⟩
        rcases h.1 with h1 | h1
        · exact Or.inl (by rw [h1]; exact he)
        · rw [Prod.mk.injEq] at h1
          exact Or.inr (by rw [h1.1, h1.2]; exact he)
      · rintro ⟨h1 | h1, O', hO', h2⟩
        · refine ⟨_, h1, ?_⟩
          obtain rfl : O = O' := by simpa using hO'
          rw [arrowOf_iff O (ne_of_edge hs h1)]
          exact ⟨Or.inl rfl, h2⟩
        · refine ⟨_, h1, ?_⟩
          obtain rfl : O = O' := by simpa using hO'
          rw [arrowOf_iff O (ne_of_edge hs h1)]
          exact ⟨Or.inr rfl, h2⟩
    · simp only [Spec.titleAfter, titles_append, titles_title, titles_arrows]
      rcases title with _ | s
      · rfl
      · by_cases h : s = "" <;> simp [h, Option.filter, Spec.titles]

/-- C107, whatever the order in which the nodes were inserted: if every edge outside of the spanning tree is reported from
its smaller to its larger node, the drawing of the Pfaffian orientation has exactly one arrow on every edge, and every face except the last one -
every face, if the number of nodes is even - has an odd number of arrows along its walk. -/
theorem C107_any_order {nx : Nx} (hnx : Spec.NxContract nx) {G : NxGraph ℕ} (hs : Spec.IsSimple G)
    (hl : ∀ v, v ∈ G.nodes ↔ v < G.nodes.length) (hc : G.isConnected) (hE : G.edges ≠ [])
    (hp : (nx.checkPlanarity G).isSome)
    (hup : ∀ e ∈ G.edges, ¬ (e ∈ nx.maximumSpanningTree G ∨ (e.2, e.1) ∈ nx.maximumSpanningTree G) → e.1 < e.2)
    (title : Option String) :
    ∃ F O, faces nx G none = .ok (some F) ∧ pfoAlgorithm nx G = .ok O ∧
      (plotPlanarEmbedding nx G (some O) title).result = .ok () ∧
      (∀ u v, G.hasEdge u v → ((u, v) ∈ Spec.arrows (plotPlanarEmbedding nx G (some O) title).events ↔
        (v, u) ∉ Spec.arrows (plotPlanarEmbedding nx G (some O) title).events)) ∧
      ∀ (i : ℕ) (hi : i < F.length), i + 1 < F.length ∨ Even G.nodes.length →
        Odd (F[i].filter fun d => d ∈ Spec.arrows (plotPlanarEmbedding nx G (some O) title).events).length := by
  classical
  obtain ⟨F, O, hF, hO, h1, h2, h3⟩ := C77_any_order hnx hs hl hc hE hp hup
  have hb : ∀ v ∈ G.nodes, v < G.nodes.length := fun v hv => (hl v).1 hv
  obtain ⟨hr, -, -, -, -, -, ha, -⟩ := C107_plot hs hp (some O) (fun _ _ => hb) title
  have hlt : ∀ u v, G.hasEdge u v → u < G.nodes.length ∧ v < G.nodes.length := by
    rintro u v (h | h)
    · exact ⟨hb _ (hs.mem _ h).1, hb _ (hs.mem _ h).2⟩
    · exact ⟨hb _ (hs.mem _ h).2, hb _ (hs.mem _ h).1⟩
  have hal : ∀ u v, G.hasEdge u v → Spec.along O (u, v) = 1 ∨ Spec.along O (u, v) = -1 := by
    intro u v huv
    obtain ⟨hu, hv⟩ := hlt u v huv
    rw [Spec.along]
    split_ifs with hh
    · rw [Spec.entry, dif_pos ⟨hu, hv⟩]; exact h1 ⟨u, hu⟩ ⟨v, hv⟩ huv
    · rw [Spec.entry, dif_pos ⟨hv, hu⟩]
      rcases h1 ⟨v, hv⟩ ⟨u, hu⟩ (NxGraph.hasEdge_symm huv) with h | h
      · right; rw [h]
      · left; rw [h]; norm_num
  have hanti : ∀ u v, G.hasEdge u v → Spec.along O (v, u) = - Spec.along O (u, v) := by
    intro u v huv
    have hne : u ≠ v := by rintro rfl; exact hs.irrefl _ huv
    simp only [Spec.along]
    rcases lt_or_gt_of_ne hne with h | h
    · rw [if_neg (show ¬ v < u by omega), if_pos h]
    · rw [if_pos (show v < u from h), if_neg (show ¬ u < v by omega), neg_neg]
  have hmem : ∀ d : Dart, G.hasEdge d.1 d.2 → (d ∈ Spec.arrows (plotPlanarEmbedding nx G (some O) title).events ↔
      Spec.along O d = -1) := by
    intro d hd
    rw [show d = (d.1, d.2) from rfl, ha]
    constructor
    · rintro ⟨-, O', hO', h⟩
      obtain rfl : O = O' := by simpa using hO'
      rcases hal _ _ hd with h' | h'
      · rw [h'] at h; norm_num at h
      · exact h'
    · intro h
      exact ⟨hd, O, rfl, by rw [h]; norm_num⟩
  obtain ⟨cw, hcw⟩ := Option.isSome_iff_exists.1 hp
  obtain ⟨F', hF', hF'', c⟩ := ctx_of hnx hs hl hc hE hcw
  obtain rfl : F' = F := by
    rw [hF''] at hF
    simpa using hF
  refine ⟨F', O, hF, hO, hr, ?_, ?_⟩
  · intro u v huv
    rw [hmem (u, v) huv, hmem (v, u) (NxGraph.hasEdge_symm huv), hanti u v huv]
    rcases hal u v huv with h | h <;> rw [h] <;> norm_num
  · intro i hi hor
    have hpr := h3 i hi hor
    have hfe : ∀ d ∈ F'[i], G.hasEdge d.1 d.2 := fun d hd => c.faces.mem_edge (List.getElem_mem hi) hd
    have key : ∀ l : List Dart, (∀ d ∈ l, G.hasEdge d.1 d.2) → (l.map (Spec.along O)).prod =
        (-1) ^ (l.filter fun d => d ∈ Spec.arrows (plotPlanarEmbedding nx G (some O) title).events).length := by
      intro l
      induction l with
      | nil => intro _; rfl
      | cons d l ih =>
        intro h
        rw [List.map_cons, List.prod_cons, ih fun x hx => h x (by simp [hx]), List.filter_cons]
        have hd := h d (by simp)
        by_cases hm : d ∈ Spec.arrows (plotPlanarEmbedding nx G (some O) title).events
        · rw [if_pos (by simpa using hm), (hmem d hd).1 hm, List.length_cons, pow_succ]; ring
        · have : Spec.along O d = 1 := (hal d.1 d.2 hd).resolve_right fun h => hm ((hmem d hd).2 h)
          rw [if_neg (by simpa using hm), this, one_mul]
    rw [key _ hfe] at hpr
    by_contra hodd
    rw [Nat.not_odd_iff_even] at hodd
    rw [hodd.neg_one_pow] at hpr
    norm_num at hpr

/-- C107: the drawing of the Pfaffian orientation has exactly one arrow on every edge, and every face except the last one -
every face, if the number of nodes is even - has an odd number of arrows along its walk. -/
theorem C107_pfo {nx : Nx} (hnx : Spec.NxContract nx) {G : NxGraph ℕ} (hs : Spec.IsSimple G)
    (hn : Spec.IsNumbered G) (hc : G.isConnected) (hE : G.edges ≠ []) (hp : (nx.checkPlanarity G).isSome)
    (title : Option String) :
    ∃ F O, faces nx G none = .ok (some F) ∧ pfoAlgorithm nx G = .ok O ∧
      (plotPlanarEmbedding nx G (some O) title).result = .ok () ∧
      (∀ u v, G.hasEdge u v → ((u, v) ∈ Spec.arrows (plotPlanarEmbedding nx G (some O) title).events ↔
        (v, u) ∉ Spec.arrows (plotPlanarEmbedding nx G (some O) title).events)) ∧
      ∀ (i : ℕ) (hi : i < F.length), i + 1 < F.length ∨ Even G.nodes.length →
        Odd (F[i].filter fun d => d ∈ Spec.arrows (plotPlanarEmbedding nx G (some O) title).events).length :=
  C107_any_order hnx hs hn.labels hc hE hp (fun _ he _ => (numbered_lt hs hn he).1) title

/-- C107: a graph without planar embedding is rejected with `NetworkXException` and nothing is drawn; an orientation
that lacks an entry for an edge is rejected with IndexError and no figure is shown. -/
theorem C107_errors {nx : Nx} {G : NxGraph ℕ} {n : ℕ} (title : Option String) :
    (nx.checkPlanarity G = none → G.nodes ≠ [] → ∀ pfo : Option (Matrix (Fin n) (Fin n) ℝ),
      plotPlanarEmbedding nx G pfo title = ⟨[], .error .networkXError⟩) ∧
    ((nx.checkPlanarity G).isSome → (∃ e ∈ G.edges, n ≤ e.1 ∨ n ≤ e.2) → ∀ O : Matrix (Fin n) (Fin n) ℝ,
      (plotPlanarEmbedding nx G (some O) title).result = .error .indexError ∧
      Spec.figures (plotPlanarEmbedding nx G (some O) title).events = 0) := by
  refine ⟨fun h1 h2 pfo => plot_nonplanar h1 h2 pfo title, fun h1 h2 O => ?_⟩
  obtain ⟨a, ha⟩ := plot_index h1 O (by
    obtain ⟨e, he, h⟩ := h2
    exact ⟨e, he, by omega⟩) title
  rw [ha]
  refine ⟨rfl, ?_⟩
  rw [figures_append, figures_arrows]
  rfl

/-- the square with its Pfaffian orientation -/
example : ∃ nx, Spec.NxContract nx ∧ Spec.IsSimple squareGraph ∧ Spec.IsNumbered squareGraph ∧ squareGraph.isConnected ∧
    squareGraph.edges ≠ [] ∧ (nx.checkPlanarity squareGraph).isSome ∧ ∀ v ∈ squareGraph.nodes, v < 4 :=
  ⟨someNx, someNx_contract, squareGraph_simple, squareGraph_numbered, squareGraph_connected, by decide,
    someNx_contract.complete _ _ squareGraph_simple squareGraph_connected (by decide) squareGraph_planar, by decide⟩

/-- a graph and an array that is too small -/
example : ∃ nx, Spec.NxContract nx ∧ (nx.checkPlanarity squareGraph).isSome ∧ ∃ e ∈ squareGraph.edges, 3 ≤ e.1 ∨ 3 ≤ e.2 :=
  ⟨someNx, someNx_contract,
    someNx_contract.complete _ _ squareGraph_simple squareGraph_connected (by decide) squareGraph_planar, by decide⟩

/-- the square has positive weights -/
example : ∀ u v, squareGraph.hasEdge u v → 0 < squareGraph.weight u v := fun _ _ _ => by norm_num [squareGraph]

/-! ## C108 -/

/-- C108: on every graph, the value or exception of `pfo_algorithm` does not depend on its messages, and if the call with
`verbose=True` returns, it returns what the call without it returns. -/
theorem C108_value (nx : Nx) (G : NxGraph ℕ) :
    (pfoAlgorithmOut nx G false).result = pfoAlgorithm nx G ∧
    ∀ O, (pfoAlgorithmOut nx G true).result = .ok O → pfoAlgorithm nx G = .ok O :=
  ⟨pfoOut_result nx G, pfoOut_verbose nx G⟩

open Classical in
/-- C108, whatever the order in which the nodes `0, …, n-1` were inserted: if every edge outside of the spanning tree is
reported from its smaller to its larger node, `pfo_algorithm` prints one line and shows no figure; the line is
"Incomplete pfo" if the entries of the adjacency matrix at pairs of positions that are not adjacent labels have a positive
sum, and "Complete pfo" otherwise. With `verbose=True` it returns the same orientation, also prints the number of faces and
the first five of them, shows three figures more than there are faces, and the last one of these is the drawing of the
orientation, with the title "Constructed PFO". -/
theorem C108_any_order {nx : Nx} (hnx : Spec.NxContract nx) {G : NxGraph ℕ} (hs : Spec.IsSimple G)
    (hl : ∀ v, v ∈ G.nodes ↔ v < G.nodes.length) (hc : G.isConnected) (hE : G.edges ≠ [])
    (hp : (nx.checkPlanarity G).isSome)
    (hup : ∀ e ∈ G.edges, ¬ (e ∈ nx.maximumSpanningTree G ∨ (e.2, e.1) ∈ nx.maximumSpanningTree G) → e.1 < e.2) :
    ∃ F O line, faces nx G none = .ok (some F) ∧ pfoAlgorithm nx G = .ok O ∧
      (line = if (∑ i : Fin G.nodes.length, ∑ j : Fin G.nodes.length,
        if G.hasEdge i j then 0 else 99 * G.adjacency i j) > 1e-16 then "Incomplete pfo" else "Complete pfo") ∧
      pfoAlgorithmOut nx G false = ⟨[.print line], .ok O⟩ ∧
      (pfoAlgorithmOut nx G true).result = .ok O ∧
      Spec.printed (pfoAlgorithmOut nx G true).events = [toString F.length] ++
        ((F.take 5).zipIdx.map fun f => "F[" ++ toString f.2 ++ "] " ++ Spec.faceText f.1) ++ [line] ∧
      Spec.figures (pfoAlgorithmOut nx G true).events = F.length + 3 ∧
      (plotPlanarEmbedding nx G (some O) (some "Constructed PFO")).events <:+ (pfoAlgorithmOut nx G true).events := by
  obtain ⟨cw, hcw⟩ := Option.isSome_iff_exists.1 hp
  obtain ⟨F, hF, hF', c⟩ := ctx_of hnx hs hl hc hE hcw
  have hpos := c.pos
  have hT := hnx.spanning G hs hc (by intro h; rw [h] at hpos; simp at hpos)
  have hFF : faces nx G (nx.checkPlanarity G) = .ok (some F) := by rw [hcw]; exact hF
  obtain ⟨es, O, hO, -, -, he, -⟩ := pfoOut_ok hnx c hT (asc_iff.1 hup) hp hFF false
  obtain ⟨es', O', hO', hpr, hfi, -⟩ := pfoOut_ok hnx c hT (asc_iff.1 hup) hp hFF true
  have h1 : pfoAlgorithm nx G = .ok O := by rw [← pfoOut_result, hO]
  have h2 : pfoAlgorithm nx G = .ok O' := pfoOut_verbose nx G O' (by rw [hO'])
  obtain rfl : O = O' := by rw [h1] at h2; exact Except.ok.inj h2
  have hP := plotOk_some hp O (fun e he => c.lt_of_edge (Or.inl he)) (some "Constructed PFO")
  simp only [if_true] at hO' hpr hfi
  refine ⟨F, O, lastLine G, hF', h1, rfl, ?_, by rw [hO'], ?_, ?_, ?_⟩
  · rw [hO, he rfl]; rfl
  · rw [hO']
    simp only [printed_append, hpr, hP.printed, faceLines]
    simp [Spec.printed]
  · rw [hO']
    simp only [figures_append, hfi, hP.figures]
    simp [Spec.figures]
  · rw [hO']
    exact List.suffix_append _ _

/-- C108: on connected planar graphs with nodes `0, …, n-1`, `pfo_algorithm` prints "Complete pfo" and nothing else and shows
no figure; with `verbose=True` it returns the same orientation, also prints the number of faces and the first five of them,
shows three figures more than there are faces, and the last one of these is the drawing of the orientation, with the
title "Constructed PFO". -/
theorem C108_messages {nx : Nx} (hnx : Spec.NxContract nx) {G : NxGraph ℕ} (hs : Spec.IsSimple G)
    (hn : Spec.IsNumbered G) (hc : G.isConnected) (hE : G.edges ≠ []) (hp : (nx.checkPlanarity G).isSome) :
    ∃ F O, faces nx G none = .ok (some F) ∧ pfoAlgorithm nx G = .ok O ∧
      pfoAlgorithmOut nx G false = ⟨[.print "Complete pfo"], .ok O⟩ ∧
      (pfoAlgorithmOut nx G true).result = .ok O ∧
      Spec.printed (pfoAlgorithmOut nx G true).events = [toString F.length] ++
        ((F.take 5).zipIdx.map fun f => "F[" ++ toString f.2 ++ "] " ++ Spec.faceText f.1) ++ ["Complete pfo"] ∧
      Spec.figures (pfoAlgorithmOut nx G true).events = F.length + 3 ∧
      (plotPlanarEmbedding nx G (some O) (some "Constructed PFO")).events <:+ (pfoAlgorithmOut nx G true).events := by
  classical
  obtain ⟨F, O, line, h1, h2, h3, h⟩ := C108_any_order hnx hs hn.labels hc hE hp
    (fun _ he _ => (numbered_lt hs hn he).1)
  have h4 : line = "Complete pfo" := h3.trans (lastLine_numbered hn)
  rw [h4] at h
  exact ⟨F, O, h1, h2, h⟩

/-- C108: on connected planar graphs with nodes `0, …, n-1` and positive weights, `pfo_algorithm(G, verbose=True)` shows the following
figures, in this order: the spanning tree, titled "T", with an arrow from the smaller to the larger node on every edge of the tree and
no other arrows; the dual tree, titled "H", with one node per face and no arrows; the edges of the spanning tree again, now with the
arrows reversed, under the default title; one figure titled "Face i: …" for every face but the last one, in some order; and the
returned orientation, titled "Constructed PFO", with an arrow from `u` to `v` where the sign of `(u, v)` is negative. -/
theorem C108_figures {nx : Nx} (hnx : Spec.NxContract nx) {G : NxGraph ℕ} (hs : Spec.IsSimple G)
    (hn : Spec.IsNumbered G) (hc : G.isConnected) (hE : G.edges ≠ []) (hp : (nx.checkPlanarity G).isSome)
    (hw : ∀ u v, G.hasEdge u v → 0 < G.weight u v) :
    ∃ (F : List (List Dart)) (O : _) (f1 f2 f3 : List Event) (fs : List (List Event)) (last : List Event) (order : List ℕ),
      faces nx G none = .ok (some F) ∧ pfoAlgorithm nx G = .ok O ∧
      Spec.shown (pfoAlgorithmOut nx G true).events = [f1, f2, f3] ++ fs ++ [last] ∧
      Spec.titleAfter f1 = some "T" ∧
      (∀ u v, (u, v) ∈ Spec.arrows f1 ↔ u < v ∧ ((u, v) ∈ nx.maximumSpanningTree G ∨ (v, u) ∈ nx.maximumSpanningTree G)) ∧
      Spec.titleAfter f2 = some "H" ∧ Event.nodes (List.range F.length) ∈ f2 ∧ Spec.arrows f2 = [] ∧
      Spec.titleAfter f3 = some "Planar Embedding with Oriented Faces" ∧
      (∀ u v, (u, v) ∈ Spec.arrows f3 ↔ v < u ∧ ((u, v) ∈ nx.maximumSpanningTree G ∨ (v, u) ∈ nx.maximumSpanningTree G)) ∧
      order.Perm (List.range (F.length - 1)) ∧
      fs.map Spec.titleAfter = order.map (fun i => some ("Face " ++ toString i ++ ": " ++ Spec.faceText (F.getD i []))) ∧
      Spec.titleAfter last = some "Constructed PFO" ∧
      ∀ u v, (u, v) ∈ Spec.arrows last ↔ G.hasEdge u v ∧ Spec.along O (u, v) < 0 := by
  classical
  obtain ⟨cw, hcw⟩ := Option.isSome_iff_exists.1 hp
  obtain ⟨F, hF, hF', c⟩ := ctx_of hnx hs hn.labels hc hE hcw
  have hpos := c.pos
  have hT := hnx.spanning G hs hc (by intro h; rw [h] at hpos; simp at hpos)
  have hFF : faces nx G (nx.checkPlanarity G) = .ok (some F) := by rw [hcw]; exact hF
  obtain ⟨es, O, hO, -, -, -, h⟩ := pfoOut_ok hnx c hT (asc_iff.1 fun _ he _ => (numbered_lt hs hn he).1) hp hFF true
  obtain ⟨H, f1, f2, f3, fs, order, hH, hHp, hHs, h1, h2, h3, h4, h5, h6⟩ := h rfl
  have h7 : pfoAlgorithm nx G = .ok O := pfoOut_verbose nx G O (by rw [hO])
  have hb : ∀ (A : Matrix (Fin G.nodes.length) (Fin G.nodes.length) ℝ), ∀ O ∈ some A, ∀ v ∈ G.nodes, v < G.nodes.length :=
    fun _ _ _ v hv => (hn.labels v).1 hv
  have p1 := C107_plot hs hp _ (hb fun i j => -10 * treeArray G (nx.maximumSpanningTree G) i j) (some "T")
  have p2 := C107_plot hHs hHp (n := 0) none (by simp) (some "H")
  have p3 := C107_plot hs hp _ (hb (npReal (treeArr (nx.maximumSpanningTree G) fun i j =>
          (G.adjacency i j : ℂ) * (99 * Complex.I)))) none
  have p4 := C107_plot hs hp _ (hb O) (some "Constructed PFO")
  obtain ⟨T, hTd⟩ : ∃ T, T = nx.maximumSpanningTree G := ⟨_, rfl⟩
  rw [← hTd] at hT h1 h3 p1 p3 ⊢
  obtain ⟨M, hM⟩ : ∃ M : Matrix (Fin G.nodes.length) (Fin G.nodes.length) ℝ, M = fun i j => -10 * treeArray G T i j := ⟨_, rfl⟩
  rw [← hM] at h1 p1
  have hsub : ∀ {u v}, ((u, v) ∈ T ∨ (v, u) ∈ T) → G.hasEdge u v ∧ u ≠ v ∧ u < G.nodes.length ∧ v < G.nodes.length := fun {u v} h => by
    have he : G.hasEdge u v := h.elim (fun h => hT.sub _ h) fun h => NxGraph.hasEdge_symm (hT.sub _ h)
    refine ⟨he, ?_, ?_⟩
    · rintro rfl; exact hs.irrefl _ he
    · rcases he with he | he
      · have := numbered_lt hs hn he; exact ⟨this.2.1, this.2.2⟩
      · have := numbered_lt hs hn he; exact ⟨this.2.2, this.2.1⟩
  have en : ∀ (A : Matrix (Fin G.nodes.length) (Fin G.nodes.length) ℝ) {u v : ℕ} (hu : u < G.nodes.length) (hv : v < G.nodes.length),
      Spec.entry A u v = A ⟨u, hu⟩ ⟨v, hv⟩ := fun A u v hu hv => dif_pos ⟨hu, hv⟩
  have al1 : ∀ (A : Matrix (Fin G.nodes.length) (Fin G.nodes.length) ℝ) {u v : ℕ}, u < v → Spec.along A (u, v) = Spec.entry A u v :=
    fun A u v h => if_pos h
  have al2 : ∀ (A : Matrix (Fin G.nodes.length) (Fin G.nodes.length) ℝ) {u v : ℕ}, v < u → Spec.along A (u, v) = -Spec.entry A v u :=
    fun A u v h => if_neg (not_lt.2 h.le)
  have e1 : ∀ u v, u < v → v < G.nodes.length → Spec.entry M u v =
      if (u, v) ∈ T ∨ (v, u) ∈ T then -10 * G.weight u v else 0 := fun u v huv hv => by
    rw [en _ (huv.trans hv) hv, hM]
    unfold treeArray NxGraph.adjacency
    simp only [numbered_get hn]
    by_cases h : (u, v) ∈ T ∨ (v, u) ∈ T
    · rw [if_pos h, if_pos (show NxGraph.hasEdge { G with edges := T } u v from h)]
    · rw [if_neg h, if_neg (show ¬ NxGraph.hasEdge { G with edges := T } u v from h), mul_zero]
  have e3 : ∀ u v, u < v → v < G.nodes.length → Spec.entry (npReal (treeArr T fun i j => (G.adjacency i j : ℂ) * (99 * Complex.I))) u v =
      if (u, v) ∈ T ∨ (v, u) ∈ T then 1 else 0 := fun u v huv hv => by
    rw [en _ (huv.trans hv) hv, npReal]
    unfold treeArr
    by_cases h : (u, v) ∈ T ∨ (v, u) ∈ T
    · rw [if_pos h, if_pos (show inT T u v from h), if_pos (show (⟨u, huv.trans hv⟩ : Fin G.nodes.length) < ⟨v, hv⟩ from huv), Complex.one_re]
    · rw [if_neg h, if_neg (show ¬ inT T u v from h)]; simp
  refine ⟨F, O, f1, f2, _, fs, _, order, hF', h7, h6, ?_, ?_, ?_, ?_, ?_, ?_, ?_, h4, h5, ?_, ?_⟩
  · rw [h1, p1.2.2.2.2.2.2.2]; rfl
  · intro u v
    rw [h1, p1.2.2.2.2.2.2.1]
    constructor
    · rintro ⟨he, O', hO', hlt⟩
      obtain rfl := Option.some.inj hO'
      rcases lt_or_gt_of_ne (show u ≠ v by rintro rfl; exact hs.irrefl _ he) with huv | hvu
      · rw [al1 _ huv, e1 u v huv (by rcases he with he | he; exacts [(numbered_lt hs hn he).2.2, (numbered_lt hs hn he).2.1])] at hlt
        split_ifs at hlt with h
        · exact ⟨huv, h⟩
        · exact absurd hlt (lt_irrefl _)
      · rw [al2 _ hvu, e1 v u hvu (by rcases he with he | he; exacts [(numbered_lt hs hn he).2.1, (numbered_lt hs hn he).2.2])] at hlt
        split_ifs at hlt with h
        · have := hw v u (hsub h).1
          linarith
        · simp at hlt
    · rintro ⟨huv, h⟩
      obtain ⟨a, -, -, b⟩ := hsub h
      refine ⟨a, _, rfl, ?_⟩
      rw [al1 _ huv, e1 u v huv b, if_pos h]
      have := hw u v a
      linarith
  · rw [h2]; exact p2.2.2.2.2.2.2.2
  · rw [h2, ← hH.nodes]
    exact p2.2.1.subset (by simp)
  · rw [h2]
    refine List.eq_nil_iff_forall_not_mem.2 fun d hd => ?_
    obtain ⟨-, O', hO', -⟩ := (p2.2.2.2.2.2.2.1 d.1 d.2).1 hd
    cases hO'
  · rw [h3, Spec.titleAfter, titles_append, titles_print, List.nil_append]
    exact p3.2.2.2.2.2.2.2
  · intro u v
    rw [h3, arrows_append, arrows_print, List.nil_append, p3.2.2.2.2.2.2.1]
    constructor
    · rintro ⟨he, O', hO', hlt⟩
      obtain rfl := Option.some.inj hO'
      rcases lt_or_gt_of_ne (show u ≠ v by rintro rfl; exact hs.irrefl _ he) with huv | hvu
      · rw [al1 _ huv, e3 u v huv (by rcases he with he | he; exacts [(numbered_lt hs hn he).2.2, (numbered_lt hs hn he).2.1])] at hlt
        split_ifs at hlt <;> norm_num at hlt
      · rw [al2 _ hvu, e3 v u hvu (by rcases he with he | he; exacts [(numbered_lt hs hn he).2.1, (numbered_lt hs hn he).2.2])] at hlt
        split_ifs at hlt with h
        · exact ⟨hvu, h.symm⟩
        · simp at hlt
    · rintro ⟨hvu, h⟩
      obtain ⟨a, -, b, -⟩ := hsub h
      refine ⟨a, _, rfl, ?_⟩
      rw [al2 _ hvu, e3 v u hvu b, if_pos h.symm]
      norm_num
  · rw [← List.singleton_append, Spec.titleAfter, titles_append]
    exact p4.2.2.2.2.2.2.2
  · intro u v
    rw [← List.singleton_append, arrows_append]
    refine (p4.2.2.2.2.2.2.1 u v).trans ⟨fun ⟨a, O', hO', b⟩ => ⟨a, by rw [Option.some.inj hO']; exact b⟩, fun ⟨a, b⟩ => ⟨a, O, rfl, b⟩⟩

open Classical in
/-- C108: `complete_face` prints one line, which names the edges of the walk, if no edge of it is left to be assigned (its entry above
the diagonal has a real part of at most `1e-8`), one line that names the edges left if there are several, and nothing if there is
exactly one. -/
theorem C108_complete_face {n : ℕ} (o : Matrix (Fin n) (Fin n) ℂ) (l left : List (ℕ × ℕ)) (hb : ∀ d ∈ l, d.1 < n ∧ d.2 < n)
    (hl : left = l.filter fun d => |(Spec.entry o (min d.1 d.2) (max d.1 d.2)).re| ≤ 1e-8) :
    (completeFaceOut o l).result = completeFace o l ∧
    (completeFaceOut o l).events =
      if left = [] then [.print ("no unassigned edges among: " ++ Spec.faceText l)]
      else if 1 < left.length then [.print ("more than one unassigned edge: " ++ Spec.faceText left)] else [] := by
  refine ⟨completeFaceOut_result o l, ?_⟩
  obtain ⟨r, hr⟩ := completeFace_total o l hb
  have hf : (l.filter fun e => isOpen o e) = left := by
    rw [hl]
    refine List.filter_congr fun d _ => ?_
    rw [decide_eq_decide, isOpen, isclose]
    simp [upper, Spec.entry]
  rw [completeFaceOut, scanFace_ok o l hb, hr, hf]
  simp only [showDarts_eq]
  rcases left with _ | ⟨a, _ | ⟨b, left⟩⟩
  · rfl
  · rfl
  · rfl

/-- a triangle with one, and with two edges left to be assigned -/
example : (∀ d ∈ [(0, 1), (1, 2), ((2 : ℕ), (0 : ℕ))], d.1 < 3 ∧ d.2 < 3) ∧
    Spec.entry (fun i j : Fin 3 => if i.1 + j.1 = 3 then 99 * Complex.I else 1) 1 2 = 99 * Complex.I := by
  refine ⟨by decide, by simp [Spec.entry]⟩

/-- C108: if the dual graph is not a tree, `pfo_algorithm` prints its numbers of nodes and edges and raises AssertionError. -/
theorem C108_rejected {nx : Nx} {G : NxGraph ℕ} {F : List (List Dart)} {H : NxGraph ℕ} (hn : G.nodes ≠ [])
    (hF : faces nx G (nx.checkPlanarity G) = .ok (some F)) (hH : H = dualGraphH nx G F (nx.maximumSpanningTree G)) (ht : ¬ H.isTree) :
    pfoAlgorithmOut nx G false = ⟨[.print ("Graph with " ++ toString H.nodes.length ++ " nodes and " ++ toString H.edges.length ++ " edges")],
      .error .assertionError⟩ := by
  have hA : adjacencyMatrix G = .ok G.adjacency := by rw [adjacencyMatrix, if_neg (by simpa using hn)]
  rw [pfoAlgorithmOut, hA, hF, when_false, out_bind_ok]
  simp only [quiet, out_bind_ok, pfoFromFaces]
  rw [← hH, when_false, out_bind_ok, if_pos ht]
  rfl

/-- C108: on every connected planar graph with a cycle all of whose edges are reported from the larger to the smaller node (the
graphs of `C81_descending`), this line reports one node per face and no edges. -/
theorem C108_descending {nx : Nx} (hnx : Spec.NxContract nx) {G : NxGraph ℕ} (hs : Spec.IsSimple G) (hc : G.isConnected)
    (hE : G.edges ≠ []) (hp : (nx.checkPlanarity G).isSome) (hd : ∀ e ∈ G.edges, e.2 < e.1)
    (hcyc : G.nodes.length ≤ G.edges.length) : ∃ F, faces nx G none = .ok (some F) ∧
      pfoAlgorithmOut nx G false = ⟨[.print ("Graph with " ++ toString F.length ++ " nodes and 0 edges")], .error .assertionError⟩ := by
  obtain ⟨cw, hcw⟩ := Option.isSome_iff_exists.1 hp
  have hpl := hnx.planar G cw hs hc hE hcw
  obtain ⟨F, hF, hF', hl⟩ := faces_ok nx hE hpl.rotation.mem hpl.rotation.inj
  have hn : G.nodes ≠ [] := by
    obtain ⟨e, es, he⟩ := List.exists_cons_of_ne_nil hE
    have := (hs.mem e (by rw [he]; simp)).1
    intro h
    rw [h] at this
    simp at this
  have hlen := (moveOuter_perm (nx.outerFace cw) F).length_eq
  have he := hpl.euler
  rw [hl.numFaces] at he
  have hD := dual_descending nx hnx.setOrder (F := moveOuter (nx.outerFace cw) F) (T := nx.maximumSpanningTree G) (G := G)
    fun e he => hd e (List.mem_of_mem_filter he)
  refine ⟨moveOuter (nx.outerFace cw) F, ?_, ?_⟩
  · rw [← hF']
    unfold faces
    rw [show (none <|> nx.checkPlanarity G) = some cw from hcw, show (some cw <|> nx.checkPlanarity G) = some cw from rfl]
  · rw [C108_rejected hn (by rw [hcw]; exact hF') hD.symm (by
      rintro ⟨h, -⟩
      simp at h
      omega)]
    have e : " nodes and 0 edges" = " nodes and " ++ toString 0 ++ " edges" := by decide
    rw [List.length_range, List.length_nil, e]
    simp only [String.append_assoc]

/-- the triangle whose edges are all reported downwards -/
example (nx : Nx) (hnx : Spec.NxContract nx) : Spec.IsSimple downTriangle ∧ downTriangle.edges ≠ [] ∧ (∀ e ∈ downTriangle.edges, e.2 < e.1) ∧
    downTriangle.nodes.length ≤ downTriangle.edges.length ∧ downTriangle.isConnected ∧ (nx.checkPlanarity downTriangle).isSome :=
  ⟨downTriangle_simple, by decide, by decide, by decide, downTriangle_connected,
    hnx.complete _ _ downTriangle_simple downTriangle_connected (by decide) downTriangle_planar⟩

/-- the line of `C108_any_order` without weights -/
theorem lastLine_unit {G : NxGraph ℕ} (hs : Spec.IsSimple G) (hw : ∀ u v, G.hasEdge u v → G.weight u v = 1) :
    lastLine G = "Complete pfo" ↔ ∀ e ∈ G.edges, G.hasEdge (G.nodes.idxOf e.1) (G.nodes.idxOf e.2) := by
  classical
  have hidx : ∀ i : Fin G.nodes.length, G.nodes.idxOf (G.nodes.get i) = i.1 := fun i => hs.nodes_nodup.idxOf_getElem i.1 i.2
  have hadj : ∀ i j : Fin G.nodes.length, (G.adjacency i j = 0 ∧ ¬ G.hasEdge (G.nodes.get i) (G.nodes.get j)) ∨
      (G.adjacency i j = 1 ∧ G.hasEdge (G.nodes.get i) (G.nodes.get j)) := by
    intro i j
    unfold NxGraph.adjacency
    by_cases h : G.hasEdge (G.nodes.get i) (G.nodes.get j)
    · exact Or.inr ⟨by rw [if_pos h, hw _ _ h], h⟩
    · exact Or.inl ⟨if_neg h, h⟩
  have hnn : ∀ i j : Fin G.nodes.length, 0 ≤ (if G.hasEdge i.1 j.1 then 0 else 99 * G.adjacency i j : ℝ) := by
    intro i j
    split_ifs
    · exact le_rfl
    · rcases hadj i j with h | h <;> rw [h.1] <;> norm_num
  constructor
  · intro h e he
    by_contra hcon
    obtain ⟨i, hi, hie⟩ := List.getElem_of_mem (hs.mem e he).1
    obtain ⟨j, hj, hje⟩ := List.getElem_of_mem (hs.mem e he).2
    have hi' := hidx ⟨i, hi⟩
    have hj' := hidx ⟨j, hj⟩
    simp only [List.get_eq_getElem, hie, hje] at hi' hj'
    rw [hi', hj'] at hcon
    have hA : G.adjacency ⟨i, hi⟩ ⟨j, hj⟩ = 1 := by
      refine ((hadj ⟨i, hi⟩ ⟨j, hj⟩).resolve_left fun h => h.2 ?_).1
      simp only [List.get_eq_getElem, hie, hje]
      exact Or.inl he
    have h99 : (99 : ℝ) ≤ leftover G := by
      unfold leftover
      refine le_trans ?_ (Finset.single_le_sum (fun i _ => Finset.sum_nonneg fun j _ => hnn i j) (Finset.mem_univ ⟨i, hi⟩))
      refine le_trans ?_ (Finset.single_le_sum (fun j _ => hnn ⟨i, hi⟩ j) (Finset.mem_univ ⟨j, hj⟩))
      rw [if_neg hcon, hA]
      norm_num
    rw [lastLine, if_pos (by linarith)] at h
    exact absurd h (by decide)
  · intro h
    have h0 : leftover G = 0 := by
      unfold leftover
      refine Finset.sum_eq_zero fun i _ => Finset.sum_eq_zero fun j _ => ?_
      split_ifs with hij
      · rfl
      · rcases hadj i j with h' | h'
        · rw [h'.1, mul_zero]
        · exfalso
          apply hij
          rw [← hidx i, ← hidx j]
          rcases h'.2 with h'' | h''
          · exact h _ h''
          · exact NxGraph.hasEdge_symm (h _ h'')
    rw [lastLine, h0, if_neg (by norm_num)]

/-- C108, without weights: "Complete pfo" is printed if and only if every edge joins two nodes whose positions in the order of
insertion, read as labels, are also adjacent. If it is printed, the number of perfect matchings computed with the returned
orientation is right. -/
theorem C108_complete {eigvals : {n : ℕ} → Matrix (Fin n) (Fin n) ℂ → Except PyErr (List ℂ)} (hev : EigvalsContract eigvals)
    (hsucc : ∀ {n : ℕ} (A : Matrix (Fin n) (Fin n) ℂ), ∃ l, eigvals A = .ok l)
    {nx : Nx} (hnx : Spec.NxContract nx) {G : NxGraph ℕ} (hs : Spec.IsSimple G)
    (hl : ∀ v, v ∈ G.nodes ↔ v < G.nodes.length) (hc : G.isConnected) (hE : G.edges ≠ [])
    (hp : (nx.checkPlanarity G).isSome)
    (hup : ∀ e ∈ G.edges, ¬ (e ∈ nx.maximumSpanningTree G ∨ (e.2, e.1) ∈ nx.maximumSpanningTree G) → e.1 < e.2)
    (hw : ∀ u v, G.hasEdge u v → G.weight u v = 1) :
    (Spec.printed (pfoAlgorithmOut nx G false).events = ["Complete pfo"] ∨
      Spec.printed (pfoAlgorithmOut nx G false).events = ["Incomplete pfo"]) ∧
    (Spec.printed (pfoAlgorithmOut nx G false).events = ["Complete pfo"] ↔
      ∀ e ∈ G.edges, G.hasEdge (G.nodes.idxOf e.1) (G.nodes.idxOf e.2)) ∧
    (Spec.printed (pfoAlgorithmOut nx G false).events = ["Complete pfo"] →
      countPerfectMatchingsPlanar eigvals nx G = .ok (.real (Spec.matchings G).card)) := by
  classical
  obtain ⟨F, O, line, -, h2, h3, h4, -⟩ := C108_any_order hnx hs hl hc hE hp hup
  have hline : line = lastLine G := h3
  have hiff : Spec.printed (pfoAlgorithmOut nx G false).events = ["Complete pfo"] ↔
      ∀ e ∈ G.edges, G.hasEdge (G.nodes.idxOf e.1) (G.nodes.idxOf e.2) := by
    rw [← lastLine_unit hs hw, ← hline, h4]
    simp [Spec.printed]
  refine ⟨?_, hiff, fun h => ?_⟩
  · rw [h4, h3]
    split_ifs
    · right; rfl
    · left; rfl
  · rw [hiff] at h
    refine (C81_count_unit hev hsucc hnx hs (fun e he => hw _ _ (Or.inl he)) ⟨O, h2⟩).2.2.2 fun M hM e he => h e ?_
    simpa using (mem_matchings.1 hM).1 he

/-- the path inserted in the order `1, 2, 0, 3`: "Incomplete pfo" is printed -/
example (nx : Nx) (hnx : Spec.NxContract nx) : Spec.printed (pfoAlgorithmOut nx shuffledPath false).events = ["Incomplete pfo"] := by
  have h := C108_complete someEigvals_contract (fun _ => ⟨_, rfl⟩) hnx shuffledPath_simple (by
      intro v
      simp [shuffledPath]
      omega) shuffledPath_connected (by decide)
    (hnx.complete _ _ shuffledPath_simple shuffledPath_connected (by decide) shuffledPath_planar)
    (asc_iff.2 (by
      rw [shuffledPath_tree (hnx.spanning _ shuffledPath_simple shuffledPath_connected (by decide))]
      simp)) (fun _ _ _ => rfl)
  refine h.1.resolve_left fun hcon => ?_
  have := h.2.1.1 hcon (1, 0) (by decide)
  revert this
  decide

/-! ## C109 -/

/-- a graph with a perfect matching has an even number of nodes -/
theorem matching_even {G : NxGraph ℕ} (hs : Spec.IsSimple G) {M : Finset (ℕ × ℕ)} (hM : Spec.IsPerfectMatchingOf G M) :
    Even G.nodes.length := by
  classical
  have h := Finset.sum_card_bipartiteAbove_eq_sum_card_bipartiteBelow (s := G.nodes.toFinset) (t := M)
    fun (v : ℕ) (e : ℕ × ℕ) => e.1 = v ∨ e.2 = v
  have h1 : ∀ v ∈ G.nodes.toFinset, (M.bipartiteAbove (fun (v : ℕ) (e : ℕ × ℕ) => e.1 = v ∨ e.2 = v) v).card = 1 := by
    intro v hv
    obtain ⟨e, he, hu⟩ := hM.2 v (by simpa using hv)
    rw [Finset.card_eq_one]
    refine ⟨e, ?_⟩
    ext x
    simp only [Finset.bipartiteAbove, Finset.mem_filter, Finset.mem_singleton]
    exact ⟨fun hx => hu x hx, fun hx => hx ▸ he⟩
  have h2 : ∀ e ∈ M, (G.nodes.toFinset.bipartiteBelow (fun (v : ℕ) (e : ℕ × ℕ) => e.1 = v ∨ e.2 = v) e).card = 2 := by
    intro e he
    have heE : e ∈ G.edges := by simpa using hM.1 he
    rw [Finset.card_eq_two]
    refine ⟨e.1, e.2, ne_of_edge hs heE, ?_⟩
    ext v
    simp only [Finset.bipartiteBelow, Finset.mem_filter, Finset.mem_insert, Finset.mem_singleton, List.mem_toFinset]
    constructor
    · rintro ⟨-, h | h⟩
      · exact Or.inl h.symm
      · exact Or.inr h.symm
    · rintro (rfl | rfl)
      · exact ⟨(hs.mem e heE).1, Or.inl rfl⟩
      · exact ⟨(hs.mem e heE).2, Or.inr rfl⟩
  rw [Finset.sum_congr rfl h1, Finset.sum_congr rfl h2, Finset.sum_const, Finset.sum_const, List.toFinset_card_of_nodup
    hs.nodes_nodup] at h
  simp only [smul_eq_mul, mul_one] at h
  exact ⟨M.card, by omega⟩

theorem dtEigenOut_result {n : ℕ} {eigvals : {n : ℕ} → Matrix (Fin n) (Fin n) ℂ → Except PyErr (List ℂ)}
    (A : Matrix (Fin n) (Fin n) ℂ) : (dtEigenOut eigvals A).result = dtEigen eigvals A := by
  rw [dtEigenOut, when]
  split_ifs <;> rfl

variable {eigvals : {n : ℕ} → Matrix (Fin n) (Fin n) ℂ → Except PyErr (List ℂ)}

/-- C109: the value or exception of the counting functions does not depend on their messages. -/
theorem C109_value (nx : Nx) (G : NxGraph ℕ) :
    (findPerfectMatchingsBruteOut G).result = .ok (findPerfectMatchingsBrute G) ∧
    (countPerfectMatchingsPlanarOut eigvals nx G).result = countPerfectMatchingsPlanar eigvals nx G ∧
    (countPerfectMatchingsOut eigvals nx G).result = countPerfectMatchings eigvals nx G := by
  have h1 : (findPerfectMatchingsBruteOut G).result = .ok (findPerfectMatchingsBrute G) := by
    rw [findPerfectMatchingsBruteOut, when]
    split_ifs <;> rfl
  have h2 : (countPerfectMatchingsPlanarOut eigvals nx G).result = countPerfectMatchingsPlanar eigvals nx G := by
    unfold countPerfectMatchingsPlanarOut countPerfectMatchingsPlanar
    by_cases ha : (nx.checkPlanarity G).isNone
    · rw [if_pos ha, if_pos ha]; rfl
    · by_cases hb : G.nodes.length = 0
      · rw [if_neg ha, if_neg ha, if_pos hb, if_pos hb]; rfl
      · rw [if_neg ha, if_neg ha, if_neg hb, if_neg hb]
        simp only [out_result_bind, pfoOut_result, dtEigenOut_result]
        rfl
  refine ⟨h1, h2, ?_⟩
  rw [countPerfectMatchingsOut, countPerfectMatchings]
  split_ifs
  · exact h2
  · rw [out_result_bind, h1]; rfl

/-- C109: `find_perfect_matchings_brute` warns exactly on the graphs with an even number of nodes above 15, on which it
does not search. -/
theorem C109_brute (G : NxGraph ℕ) :
    Spec.printed (findPerfectMatchingsBruteOut G).events =
      if Even G.nodes.length ∧ 15 < G.nodes.length then ["Warning brute force approach too expensive"] else [] := by
  have he : (G.nodes.length % 2 = 0 ∧ G.nodes.length > 15) ↔ (Even G.nodes.length ∧ 15 < G.nodes.length) := by
    rw [Nat.even_iff]
  rw [findPerfectMatchingsBruteOut, when]
  by_cases h : Even G.nodes.length ∧ 15 < G.nodes.length
  · rw [if_pos h, if_pos (he.2 h)]; rfl
  · rw [if_neg h, if_neg (fun h' => h (he.1 h'))]; rfl

/-- C109: on graphs without planar embedding, `count_perfect_matchings` prints the warning exactly if there are more than
15 nodes, an even number of them, and nothing else; the returned number is the number of perfect matchings if the warning is
not printed, and 0 if it is. -/
theorem C109_warning {nx : Nx} {G : NxGraph ℕ} (hs : Spec.IsSimple G) (hp : nx.checkPlanarity G = none) :
    Spec.printed (countPerfectMatchingsOut eigvals nx G).events =
      (if Even G.nodes.length ∧ 15 < G.nodes.length then ["Warning brute force approach too expensive"] else []) ∧
    (countPerfectMatchingsOut eigvals nx G).result =
      .ok (.real (if Spec.printed (countPerfectMatchingsOut eigvals nx G).events = [] then ((Spec.matchings G).card : ℝ) else 0)) := by
  have he : (countPerfectMatchingsOut eigvals nx G).events = (findPerfectMatchingsBruteOut G).events := by
    rw [countPerfectMatchingsOut, if_neg (by rw [hp]; simp), out_eta (C109_value (eigvals := eigvals) nx G).1, out_bind_ok]
    simp
  have hpr := he ▸ C109_brute G
  refine ⟨hpr, ?_⟩
  rw [(C109_value nx G).2.2, hpr, C79_nonplanar hs hp]
  by_cases hev : Even G.nodes.length
  · by_cases h15 : 15 < G.nodes.length
    · simp [hev, h15]
    · simp [hev, h15, show G.nodes.length ≤ 15 by omega]
  · have hM : Spec.matchings G = ∅ := by
      rw [Finset.eq_empty_iff_forall_notMem]
      intro M hM
      rw [mem_matchings] at hM
      exact hev (matching_even hs hM)
    simp [hev, hM]

/-- C109: on planar connected graphs with nodes `0, …, n-1` and an edge, the only message of `count_perfect_matchings` is
"Complete pfo". -/
theorem C109_planar (hsucc : ∀ {n : ℕ} (A : Matrix (Fin n) (Fin n) ℂ), ∃ l, eigvals A = .ok l)
    {nx : Nx} (hnx : Spec.NxContract nx) {G : NxGraph ℕ} (hs : Spec.IsSimple G)
    (hn : Spec.IsNumbered G) (hc : G.isConnected) (hE : G.edges ≠ []) (hp : (nx.checkPlanarity G).isSome) :
    (countPerfectMatchingsOut eigvals nx G).events = [.print "Complete pfo"] := by
  obtain ⟨F, O, -, -, hO, -⟩ := C108_messages hnx hs hn hc hE hp
  have hl : G.nodes.length ≠ 0 := by
    obtain ⟨e, es, he⟩ := List.exists_cons_of_ne_nil hE
    have := List.length_pos_of_mem (hs.mem e (by rw [he]; simp)).1
    omega
  have hA : adjacencyMatrix G = .ok G.adjacency := by rw [adjacencyMatrix, if_neg hl]
  have hp' : ¬ (nx.checkPlanarity G).isNone := by rw [Option.isNone_iff_eq_none]; intro h; rw [h] at hp; simp at hp
  obtain ⟨l, hl'⟩ := hsucc ((pfoMatrix O G.adjacency).map (fun x : ℝ => (x : ℂ)))
  rw [countPerfectMatchingsOut, if_pos hp, countPerfectMatchingsPlanarOut, if_neg hp', if_neg hl, hA, hO]
  have hd : dtEigenOut eigvals ((pfoMatrix O G.adjacency).map (fun x : ℝ => (x : ℂ))) =
      quiet (dtEigen eigvals ((pfoMatrix O G.adjacency).map (fun x : ℝ => (x : ℂ)))) := by
    rw [dtEigenOut, hl', when, if_neg (by simp)]
    rfl
  have hq : ∀ {α β : Type} (x : Except PyErr α) (f : α → Out β), (∀ a, (f a).events = []) → (quiet x >>= f).events = [] := by
    intro α β x f hf
    cases x with
    | error e => rfl
    | ok a => simp only [quiet]; rw [out_bind_ok]; simpa using hf a
  simp only [quiet] at hd ⊢
  rw [out_bind_ok, out_bind_ok, hd]
  simp only [List.nil_append]
  erw [hq (dtEigen eigvals ((pfoMatrix O G.adjacency).map (fun x : ℝ => (x : ℂ)))) _ (fun a => hq _ _ fun b => rfl)]
  rfl

/-- C109: for every graph with nodes `0, …, n-1` and without weights, if `count_perfect_matchings` returns a wrong
number, then the graph is empty or the warning was printed. -/
theorem C109_wrong_only_if_warned (hev : EigvalsContract eigvals)
    (hsucc : ∀ {n : ℕ} (A : Matrix (Fin n) (Fin n) ℂ), ∃ l, eigvals A = .ok l)
    {nx : Nx} (hnx : Spec.NxContract nx) {G : NxGraph ℕ} (hs : Spec.IsSimple G) (hn : Spec.IsNumbered G)
    (hw : ∀ e ∈ G.edges, G.weight e.1 e.2 = 1) {r : CleanRes}
    (hr : (countPerfectMatchingsOut eigvals nx G).result = .ok r) (hne : r ≠ .real (Spec.matchings G).card) :
    G.nodes = [] ∨
      "Warning brute force approach too expensive" ∈ Spec.printed (countPerfectMatchingsOut eigvals nx G).events := by
  rcases hp : nx.checkPlanarity G with _ | cw
  · right
    obtain ⟨h1, h2⟩ := C109_warning (eigvals := eigvals) hs hp
    rw [h2] at hr
    by_cases h : Spec.printed (countPerfectMatchingsOut eigvals nx G).events = []
    · rw [if_pos h] at hr
      exact absurd (Except.ok.inj hr).symm hne
    · rw [h1] at h ⊢
      split_ifs at h ⊢ with hc
      · simp
      · exact absurd rfl h
  · rw [(C109_value nx G).2.2] at hr
    by_cases hE : G.edges = []
    · left
      by_contra hN
      rw [(C79_edgeless hnx hs hE hN).1] at hr
      cases hr
    · exfalso
      rw [C79_components hev hsucc hnx hs hn hw hE (by rw [hp]; rfl)] at hr
      split_ifs at hr
      exact hne (Except.ok.inj hr).symm

/-- a graph on which the warning is printed and the returned number is wrong -/
example : ∃ nx, Spec.NxContract nx ∧ Spec.IsSimple (completeG 16) ∧ nx.checkPlanarity (completeG 16) = none ∧
    Even (completeG 16).nodes.length ∧ 15 < (completeG 16).nodes.length ∧ Spec.IsNumbered (completeG 16) ∧
    0 < (Spec.matchings (completeG 16)).card := by
  refine ⟨someNx, someNx_contract, completeG_simple 16, ?_, by decide, by decide, by rfl,
    (C79_large (eigvals := fun _ => .error .linAlgError) someNx_contract 8 (by omega)).2⟩
  by_contra hcon
  obtain ⟨cw, hcw⟩ := Option.ne_none_iff_exists'.1 hcon
  have hE := completeG_edges (n := 16) (by omega)
  have hne : (completeG 16).edges ≠ [] := by
    intro h
    rw [h] at hE
    simp at hE
  have hb := planar_edges_le (completeG_simple 16) (completeG_connected 16) (by decide) hne
    (someNx_contract.planar _ _ (completeG_simple 16) (completeG_connected 16) hne hcw)
  have hl : (completeG 16).nodes.length = 16 := List.length_range
  omega

/-! ## C84, the drawing -/

/-- C84: the drawing shows all nodes with labels, all edges in grey with their weights, the matching in red, the title or
"Graph A with Edge Weights", in one figure; a matching with a node that is not in the graph raises KeyError, and no figure
is shown. -/
theorem C84_drawing {n : ℕ} (A : Matrix (Fin n) (Fin n) ℝ) (matching : Option (List (ℕ × ℕ))) (title : Option String) :
    ((∀ M ∈ matching, ∀ e ∈ M, e.1 < n ∧ e.2 < n) →
      plotGraphWithEdgeWeightsOut A matching title =
        ⟨[.nodes (List.range n), .labels (List.range n),
          .edges ((plotGraphWithEdgeWeights A).edges.map fun e => (e.1, e.2.1)) "grey",
          .edgeLabels (plotGraphWithEdgeWeights A).edges] ++ (matching.toList.map fun M => .edges M "red") ++
          [.title (title.getD "Graph A with Edge Weights"), .show], .ok (plotGraphWithEdgeWeights A)⟩) ∧
    ((∃ M ∈ matching, ∃ e ∈ M, n ≤ e.1 ∨ n ≤ e.2) →
      (plotGraphWithEdgeWeightsOut A matching title).result = .error .keyError ∧
      Spec.figures (plotGraphWithEdgeWeightsOut A matching title).events = 0) := by
  have hN : (plotGraphWithEdgeWeights A).nodes = List.range n := rfl
  constructor
  · intro h
    rw [plotGraphWithEdgeWeightsOut]
    rcases matching with _ | M
    · rfl
    · have hd : drawMatching (plotGraphWithEdgeWeights A) (some M) = ⟨[.edges M "red"], .ok ()⟩ := by
        rw [drawMatching, if_pos]
        · rfl
        · intro e he
          rw [hN, List.mem_range, List.mem_range]
          exact h M rfl e he
      simp only [hd]
      rfl
  · rintro ⟨M, hM, e, he, hb⟩
    obtain rfl : matching = some M := hM
    have hd : drawMatching (plotGraphWithEdgeWeights A) (some M) = ⟨[], .error .keyError⟩ := by
      rw [drawMatching, if_neg]
      · rfl
      · intro hh
        have := hh e he
        rw [hN, List.mem_range, List.mem_range] at this
        omega
    rw [plotGraphWithEdgeWeightsOut]
    simp only [hd]
    exact ⟨rfl, rfl⟩

example : (∀ M ∈ some [((0 : ℕ), (1 : ℕ))], ∀ e ∈ M, e.1 < 2 ∧ e.2 < 2) ∧
    ∃ M ∈ some [((0 : ℕ), (2 : ℕ))], ∃ e ∈ M, 2 ≤ e.1 ∨ 2 ≤ e.2 := by
  refine ⟨?_, _, rfl, (0, 2), by simp, by simp⟩
  intro M hM e he
  obtain rfl : [(0, 1)] = M := Option.some.inj hM
  simp only [List.mem_singleton] at he
  subst he
  decide

end FF.Props
