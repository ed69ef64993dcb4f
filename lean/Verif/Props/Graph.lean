import Verif.Proofs.DualTree
import Verif.Proofs.Count
import Verif.Proofs.GraphEx
import Verif.Proofs.OrderEx

/-!
# Properties C73-C77: enumeration of matchings, faces, the dual tree and the Pfaffian orientation
-/

namespace FF.Props

open Verif.Kasteleyn

/-! ## C73 -/

/-- C73: for every simple graph with at most 15 nodes the enumeration lists every perfect matching exactly once
and nothing else. -/
theorem C73_brute {α : Type} [DecidableEq α] {G : NxGraph α} (hG : Spec.IsSimple G) (hn : G.nodes.length ≤ 15) :
    (∀ c ∈ findPerfectMatchingsBrute G, c.Nodup) ∧
    ((findPerfectMatchingsBrute G).map List.toFinset).Nodup ∧
    ∀ M, M ∈ (findPerfectMatchingsBrute G).map List.toFinset ↔ Spec.IsPerfectMatchingOf G M :=
  ⟨(brute_spec hG hn).2.1, (brute_spec hG hn).1, (brute_spec hG hn).2.2⟩

/-- C73: its length is the hafnian of the adjacency matrix of the unweighted graph. -/
theorem C73_brute_hf {α : Type} [DecidableEq α] {G : NxGraph α} (hG : Spec.IsSimple G) (hn : G.nodes.length ≤ 15)
    (hw : ∀ e ∈ G.edges, G.weight e.1 e.2 = 1) :
    hf G.adjacency = .ok ((findPerfectMatchingsBrute G).length : ℝ) := by
  rw [hf_adjacency hG (adjacency_symm hG), matchingWeight_unit hw, brute_length hG hn]

/-- C73: with weights, the hafnian of the adjacency matrix is the sum of the weights of the matchings found. -/
theorem C73_brute_weighted {α : Type} [DecidableEq α] {G : NxGraph α} (hG : Spec.IsSimple G)
    (hn : G.nodes.length ≤ 15) :
    hf G.adjacency = .ok (((findPerfectMatchingsBrute G).map fun c => (c.map fun e => G.weight e.1 e.2).prod).sum) := by
  classical
  rw [hf_adjacency hG (adjacency_symm hG)]
  obtain ⟨h1, h2, h3⟩ := brute_spec hG hn
  congr 1
  have hM : Spec.matchings G = ((findPerfectMatchingsBrute G).map List.toFinset).toFinset := by
    ext M
    rw [mem_matchings, List.mem_toFinset, h3]
  unfold Spec.matchingWeight
  rw [hM, List.sum_toFinset _ h1, List.map_map]
  congr 1
  apply List.map_congr_left
  intro c hc
  simp only [Function.comp_apply]
  rw [List.prod_toFinset _ (h2 c hc)]

example : Spec.IsSimple squareGraph ∧ squareGraph.nodes.length ≤ 15 ∧
    findPerfectMatchingsBrute squareGraph = [[(0, 1), (2, 3)], [(0, 3), (1, 2)]] :=
  ⟨squareGraph_simple, by decide, by rfl⟩

/-! ## C74 -/

/-- C74: for every graph with at least one edge and every rotation system, `faces` returns closed walks following
the clockwise rule; together they contain every directed edge exactly once, so that there is one walk per face. -/
theorem C74_faces (nx : Nx) {G : NxGraph ℕ} {cw : ℕ → ℕ → ℕ} (hE : G.edges ≠ []) (hr : Spec.IsRotation G cw) :
    ∃ F, faces nx G (some cw) = .ok (some F) ∧ (∀ f ∈ F, Spec.IsFaceWalk cw f) ∧ F.flatten.Nodup ∧
      (∀ d : ℕ × ℕ, d ∈ F.flatten ↔ G.hasEdge d.1 d.2) ∧ F.length = Spec.numFaces G cw := by
  obtain ⟨F, -, h2, h3⟩ := faces_ok nx hE hr.mem hr.inj
  have h4 := h3.of_perm (moveOuter_perm (nx.outerFace cw) F)
  refine ⟨_, h2, fun f hf => (h4.cyc f hf).walk, h4.nodup, fun d => ?_, h4.numFaces.symm⟩
  rw [h4.perm.mem_iff, mem_edgeset]

/-- C74: looking for the outer face only permutes the list of faces, and if a face has exactly the nodes of the
outer face chosen by networkx, then the last face of the result has. -/
theorem C74_outer (nx : Nx) {G : NxGraph ℕ} {cw : ℕ → ℕ → ℕ} (hE : G.edges ≠ []) (hr : Spec.IsRotation G cw)
    (ho : (nx.outerFace cw).Nodup) :
    ∃ F0 F, traceFaces cw G = .ok F0 ∧ faces nx G (some cw) = .ok (some F) ∧ F.Perm F0 ∧
      ((∃ f ∈ F0, ∀ v, v ∈ nx.outerFace cw ↔ ∃ d ∈ f, d.1 = v ∨ d.2 = v) →
        ∃ f, F.getLast? = some f ∧ ∀ v, v ∈ nx.outerFace cw ↔ ∃ d ∈ f, d.1 = v ∨ d.2 = v) := by
  obtain ⟨F, h1, h2, h3⟩ := faces_ok nx hE hr.mem hr.inj
  refine ⟨F, _, h1, h2, moveOuter_perm _ _, ?_⟩
  have key : ∀ f : List Dart, ((nx.outerFace cw).mergeSort (· ≤ ·) = faceVerts f ↔
      ∀ v, v ∈ nx.outerFace cw ↔ ∃ d ∈ f, d.1 = v ∨ d.2 = v) := by
    intro f
    have hv : ∀ v, v ∈ (f.flatMap fun e => [e.1, e.2]).dedup ↔ ∃ d ∈ f, d.1 = v ∨ d.2 = v := by
      intro v
      simp only [List.mem_dedup, List.mem_flatMap, List.mem_cons, List.not_mem_nil, or_false]
      constructor <;> rintro ⟨d, hd, h⟩ <;> exact ⟨d, hd, h.imp Eq.symm Eq.symm⟩
    constructor
    · intro h v
      rw [← hv, ← List.mem_mergeSort (le := fun a b => decide (a ≤ b)), h, faceVerts, List.mem_mergeSort]
    · intro h
      have hp : (nx.outerFace cw).Perm (f.flatMap fun e => [e.1, e.2]).dedup := by
        rw [List.perm_ext_iff_of_nodup ho (List.nodup_dedup _)]
        intro v
        rw [h, hv]
      unfold faceVerts
      have hs : ∀ l : List ℕ, (l.mergeSort (fun a b => decide (a ≤ b))).Pairwise (· ≤ ·) := by
        intro l
        have := List.pairwise_mergeSort (le := fun a b : ℕ => decide (a ≤ b)) (by simp; omega) (by simp; omega) l
        simpa using this
      exact List.Perm.eq_of_pairwise (fun a b _ _ h1 h2 => le_antisymm h1 h2) (hs _) (hs _)
        ((List.mergeSort_perm _ _).trans (hp.trans (List.mergeSort_perm _ _).symm))
  rintro ⟨f, hf, hfv⟩
  unfold moveOuter
  have hsome : (F.find? fun f => (nx.outerFace cw).mergeSort (· ≤ ·) = faceVerts f).isSome := by
    rw [List.find?_isSome]
    exact ⟨f, hf, by simpa using (key f).2 hfv⟩
  obtain ⟨g, hg⟩ := Option.isSome_iff_exists.1 hsome
  rw [hg]
  refine ⟨g, by simp, (key g).1 ?_⟩
  simpa using List.find?_some hg

/-- C74: without an edge, `min` of the empty set raises ValueError; without an embedding given, `faces` asks
networkx for one and returns `0` if the graph is not planar. -/
theorem C74_other (nx : Nx) (G : NxGraph ℕ) :
    (∀ emb, G.edges = [] → faces nx G emb = .error .valueError) ∧
    (G.edges ≠ [] → nx.checkPlanarity G = none → faces nx G none = .ok none) ∧
    (∀ cw, nx.checkPlanarity G = some cw → faces nx G none = faces nx G (some cw)) := by
  refine ⟨?_, ?_, ?_⟩
  · intro emb h
    unfold faces
    have : minDart G.edgeset = none := by
      rw [minDart_eq_none]
      simp [NxGraph.edgeset, h]
    rw [this]
  · intro hE h
    unfold faces
    have hne : G.edgeset ≠ [] := by
      obtain ⟨e, es, he⟩ := List.exists_cons_of_ne_nil hE
      intro h
      have : (e.1, e.2) ∈ G.edgeset := mem_edgeset.2 (Or.inl (by rw [he]; simp))
      rw [h] at this
      simp at this
    obtain ⟨m, hm⟩ := minDart_isSome hne
    have ho : (none <|> nx.checkPlanarity G) = none := h
    rw [hm, ho]
  · intro cw h
    unfold faces
    have h1 : (none <|> nx.checkPlanarity G) = some cw := h
    have h2 : (some cw <|> nx.checkPlanarity G) = some cw := rfl
    rw [h1, h2]

example : squareGraph.edges ≠ [] ∧ Spec.IsRotation squareGraph squareCw :=
  ⟨by decide, squareGraph_planar.rotation⟩

/-! ## C75 -/

theorem upper_eq_entry {K : Type} [Zero K] {n : ℕ} (o : Matrix (Fin n) (Fin n) K) (d : ℕ × ℕ) :
    upper o d = if d.1 < d.2 then Spec.entry o d.1 d.2 else Spec.entry o d.2 d.1 := by
  unfold upper Spec.entry
  rcases lt_or_ge d.1 d.2 with h | h
  · simp only [if_pos h, min_eq_left h.le, max_eq_right h.le]
  · simp only [if_neg (not_lt.2 h), min_eq_right h, max_eq_left h]

theorem dsign_eq_along {n : ℕ} (o : Matrix (Fin n) (Fin n) ℂ) {d : ℕ × ℕ} (h : d.1 ≠ d.2) :
    dsign o d = Spec.along o d := by
  unfold dsign Spec.along
  rw [upper_eq_entry, prefixSign]
  rcases lt_or_gt_of_ne h with h | h
  · have h' : ¬ d.1 > d.2 := by omega
    rw [if_pos h, if_pos h, if_neg h', mul_one]
  · have h' : ¬ d.1 < d.2 := by omega
    rw [if_neg h', if_neg h', if_pos h]; ring

/-- C75: if exactly one edge of the walk is unassigned (its entry has real part zero) and all others carry a sign,
`complete_face` changes the two entries of this edge and no others, gives it a sign, and the product of the signs
along the walk becomes `-1`. -/
theorem C75_complete_face {n : ℕ} (o : Matrix (Fin n) (Fin n) ℂ) (a b : List (ℕ × ℕ)) (e : ℕ × ℕ)
    (hb : ∀ d ∈ a ++ e :: b, d.1 < n ∧ d.2 < n ∧ d.1 ≠ d.2) (he : (Spec.along o e).re = 0)
    (hs : ∀ d ∈ a ++ b, Spec.along o d = 1 ∨ Spec.along o d = -1) :
    ∃ o', completeFace o (a ++ e :: b) = .ok (o', true) ∧ ((a ++ e :: b).map (Spec.along o')).prod = -1 ∧
      (Spec.along o' e = 1 ∨ Spec.along o' e = -1) ∧
      ∀ i j : Fin n, ¬ ((i.1 = e.1 ∧ j.1 = e.2) ∨ (i.1 = e.2 ∧ j.1 = e.1)) → o' i j = o i j := by
  classical
  have hre : ∀ d : ℕ × ℕ, d.1 ≠ d.2 → ((upper o d).re = 0 ↔ (Spec.along o d).re = 0) := by
    intro d hd
    rw [← dsign_eq_along o hd, dsign]
    rcases prefixSign_or d with h | h <;> rw [h] <;> simp
  have hu : ∀ d : ℕ × ℕ, d.1 ≠ d.2 → (Spec.along o d = 1 ∨ Spec.along o d = -1) → (upper o d = 1 ∨ upper o d = -1) := by
    intro d hd h
    rw [← dsign_eq_along o hd, dsign] at h
    rcases prefixSign_or d with h' | h' <;> rw [h'] at h
    · simpa using h
    · rcases h with h | h
      · right; linear_combination -h
      · left; linear_combination -h
  have hopen : isOpen o e := isclose_re_zero ((hre e (hb e (by simp)).2.2).2 he)
  have hcl : ∀ d ∈ a ++ b, ¬ isOpen o d := by
    intro d hd
    refine isclose_re_one (hu d (hb d ?_).2.2 (hs d hd))
    simp only [List.mem_append, List.mem_cons] at hd ⊢
    tauto
  have hfil : ((a ++ e :: b).filter fun d => isOpen o d) = [e] := by
    rw [List.filter_append, List.filter_cons_of_pos (by simpa using hopen),
      List.filter_eq_nil_iff.2 (fun d hd => by simpa using hcl d (by simp [hd])),
      List.filter_eq_nil_iff.2 (fun d hd => by simpa using hcl d (by simp [hd]))]
    rfl
  obtain ⟨x, hx, hcf, hp⟩ := completeFace_ok o (a ++ e :: b) e (fun d hd => ⟨(hb d hd).1, (hb d hd).2.1⟩) hfil (by
    intro d hd ho
    have hde : d ≠ e := by rintro rfl; exact ho hopen
    have hd' : d ∈ a ++ b := by
      simp only [List.mem_append, List.mem_cons] at hd ⊢
      tauto
    exact hu d (hb d hd).2.2 (hs d hd'))
  have heb := hb e (by simp)
  refine ⟨_, hcf, ?_, ?_, ?_⟩
  · rw [← hp]
    congr 1
    apply List.map_congr_left
    intro d hd
    exact (dsign_eq_along _ (hb d hd).2.2).symm
  · rw [← dsign_eq_along _ heb.2.2, dsign, upper_setBoth ⟨heb.1, heb.2.1⟩, if_pos rfl]
    rcases hx with h | h <;> rcases prefixSign_or e with h' | h' <;> rw [h, h'] <;> norm_num
  · intro i j hij
    exact if_neg hij

/-- C75: if all edges of the walk carry signs, nothing is changed and `None` is returned. -/
theorem C75_complete_face_none {n : ℕ} (o : Matrix (Fin n) (Fin n) ℂ) (l : List (ℕ × ℕ))
    (hb : ∀ d ∈ l, d.1 < n ∧ d.2 < n ∧ d.1 ≠ d.2) (hs : ∀ d ∈ l, Spec.along o d = 1 ∨ Spec.along o d = -1) :
    completeFace o l = .ok (o, false) := by
  classical
  have hcl : ∀ d ∈ l, ¬ isOpen o d := by
    intro d hd
    apply isclose_re_one
    have h := hs d hd
    rw [← dsign_eq_along o (hb d hd).2.2, dsign] at h
    rcases prefixSign_or d with h' | h' <;> rw [h'] at h
    · simpa using h
    · rcases h with h | h
      · right; linear_combination -h
      · left; linear_combination -h
  unfold completeFace
  rw [scanFace_ok o l (fun d hd => ⟨(hb d hd).1, (hb d hd).2.1⟩)]
  simp only [bind, Except.bind]
  rw [List.filter_eq_nil_iff.2 (fun d hd => by simpa using hcl d hd)]
  rfl

example : (∀ d ∈ [(0, 1)] ++ (2, 1) :: [((2 : ℕ), (0 : ℕ))], d.1 < 3 ∧ d.2 < 3 ∧ d.1 ≠ d.2) ∧
    (Spec.along (fun i j : Fin 3 => if i.1 + j.1 = 3 then 99 * Complex.I else 1) (2, 1)).re = 0 ∧
    ∀ d ∈ [(0, 1)] ++ [((2 : ℕ), (0 : ℕ))], Spec.along (fun i j : Fin 3 => if i.1 + j.1 = 3 then 99 * Complex.I else 1) d = 1 ∨
      Spec.along (fun i j : Fin 3 => if i.1 + j.1 = 3 then 99 * Complex.I else 1) d = -1 := by
  refine ⟨by decide, by simp [Spec.along, Spec.entry], ?_⟩
  intro d hd
  simp only [List.cons_append, List.nil_append, List.mem_cons, List.not_mem_nil, or_false] at hd
  rcases hd with rfl | rfl <;> simp [Spec.along, Spec.entry]

/-! ## C76 -/

/-- C76: for every connected planar embedded graph with nodes `0, …, n-1` and every spanning tree, the dual graph
has the faces as nodes, is a tree, has one edge for every edge of the graph that is not in the tree, and joins two
faces exactly if there is such an edge with these faces on its two sides. -/
theorem C76_dual_tree {nx : Nx} (hnx : Spec.NxContract nx) {G : NxGraph ℕ} {cw : ℕ → ℕ → ℕ} (hs : Spec.IsSimple G)
    (hn : Spec.IsNumbered G) (hc : G.isConnected) (hE : G.edges ≠ []) (hp : Spec.IsPlanarEmbedding G cw)
    {T : List (ℕ × ℕ)} (hT : Spec.IsSpanningTree G T) :
    ∃ F, faces nx G (some cw) = .ok (some F) ∧
      (dualGraphH nx G F T).nodes = List.range F.length ∧ (dualGraphH nx G F T).isTree ∧
      (dualGraphH nx G F T).edges.length = (G.edges.filter fun e => ¬ (e ∈ T ∨ (e.2, e.1) ∈ T)).length ∧
      ∀ i j, (dualGraphH nx G F T).hasEdge i j ↔ ∃ u v, G.hasEdge u v ∧ ¬ ((u, v) ∈ T ∨ (v, u) ∈ T) ∧
        (∃ hi : i < F.length, (u, v) ∈ F[i]) ∧ ∃ hj : j < F.length, (v, u) ∈ F[j] := by
  obtain ⟨F0, -, hF, hl⟩ := faces_ok nx hE hp.rotation.mem hp.rotation.inj
  have c : Ctx G cw _ := ⟨hs, hn.labels, hc, hE, hp, hl.of_perm (moveOuter_perm (nx.outerFace cw) F0)⟩
  refine ⟨_, hF, ?_⟩
  generalize moveOuter (nx.outerFace cw) F0 = F at c
  have hH := c.dual_spec hT (numbered_up hs hn _) nx hnx.setOrder
  refine ⟨hH.nodes, hH.tree, ?_, ?_⟩
  · rw [hH.edges.length_eq, List.length_map]; rfl
  · intro i j
    have hmem : ∀ d : ℕ × ℕ, d ∈ (dualGraphH nx G F T).edges ↔ ∃ e ∈ edgesNotInT G T, Ctx.dualEdge F e = d := by
      intro d; rw [hH.edges.mem_iff, List.mem_map]
    have hfi : ∀ {d : ℕ × ℕ} {k : ℕ}, G.hasEdge d.1 d.2 → ((∃ hk : k < F.length, d ∈ F[k]) ↔ fIdx F d = k) := by
      intro d k hd
      constructor
      · rintro ⟨hk, h⟩; exact c.faces.fIdx_eq h
      · rintro rfl; exact ⟨c.faces.fIdx_lt hd, c.faces.fIdx_mem hd⟩
    constructor
    · intro h
      have h' : ∃ e ∈ edgesNotInT G T, (fIdx F e = i ∧ fIdx F (e.2, e.1) = j) ∨ (fIdx F e = j ∧ fIdx F (e.2, e.1) = i) := by
        rcases h with h | h <;> obtain ⟨e, he, hd⟩ := (hmem _).1 h <;> refine ⟨e, he, ?_⟩ <;>
          simp only [Ctx.dualEdge, Prod.mk.injEq] at hd <;> omega
      obtain ⟨e, he, h'⟩ := h'
      rw [Ctx.mem_edgesNotInT] at he
      have ha : G.hasEdge e.1 e.2 := Or.inl he.1
      rcases h' with ⟨h1, h2⟩ | ⟨h1, h2⟩
      · exact ⟨e.1, e.2, ha, he.2, (hfi (d := (e.1, e.2)) ha).2 h1, (hfi (d := (e.2, e.1)) ha.symm).2 h2⟩
      · exact ⟨e.2, e.1, ha.symm, fun hh => he.2 hh.symm, (hfi (d := (e.2, e.1)) ha.symm).2 h2, (hfi (d := (e.1, e.2)) ha).2 h1⟩
    · rintro ⟨u, v, ha, hn, hi, hj⟩
      have h1 := (hfi (d := (u, v)) ha).1 hi
      have h2 := (hfi (d := (v, u)) ha.symm).1 hj
      have hdual : (min i j, max i j) ∈ (dualGraphH nx G F T).edges := by
        rw [hmem]
        rcases ha with h | h
        · exact ⟨(u, v), Ctx.mem_edgesNotInT.2 ⟨h, hn⟩, by simp only [Ctx.dualEdge, h1, h2]⟩
        · refine ⟨(v, u), Ctx.mem_edgesNotInT.2 ⟨h, fun hh => hn hh.symm⟩, ?_⟩
          simp only [Ctx.dualEdge, h1, h2]
          rw [min_comm, max_comm]
      rcases le_total i j with h | h
      · rw [min_eq_left h, max_eq_right h] at hdual; exact Or.inl hdual
      · rw [min_eq_right h, max_eq_left h] at hdual; exact Or.inr hdual

example : Spec.IsSimple squareGraph ∧ Spec.IsNumbered squareGraph ∧ squareGraph.isConnected ∧ squareGraph.edges ≠ [] ∧
    Spec.IsPlanarEmbedding squareGraph squareCw ∧ (∃ T, Spec.IsSpanningTree squareGraph T) ∧ ∃ nx, Spec.NxContract nx :=
  ⟨squareGraph_simple, squareGraph_numbered, squareGraph_connected, by decide, squareGraph_planar,
    ⟨_, someNx_contract.spanning squareGraph squareGraph_simple squareGraph_connected (by decide)⟩, _, someNx_contract⟩

/-- C76: exactly when the dual graph is a tree, for every simple graph with an edge, with any labels, any number of
components, any embedding in the plane and any spanning forest: if and only if all edges are in one component and every
edge outside of the forest is reported from its smaller to its larger node. -/
theorem C76_tree_iff {nx : Nx} (hnx : Spec.NxContract nx) {G : NxGraph ℕ} {cw : ℕ → ℕ → ℕ} (hs : Spec.IsSimple G)
    (hE : G.edges ≠ []) (hp : Spec.IsPlane G cw) {T : List (ℕ × ℕ)} (hT : Spec.IsSpanningForest G T) :
    ∃ F, faces nx G (some cw) = .ok (some F) ∧
      ((dualGraphH nx G F T).isTree ↔
        Spec.numComponents G = 1 ∧ ∀ e ∈ G.edges, ¬ (e ∈ T ∨ (e.2, e.1) ∈ T) → e.1 < e.2) := by
  obtain ⟨F0, -, hF, hl⟩ := faces_ok nx hE hp.rotation.mem hp.rotation.inj
  have hl := hl.of_perm (moveOuter_perm (nx.outerFace cw) F0)
  refine ⟨_, hF, ?_⟩
  constructor
  · intro h
    obtain ⟨h1, h2⟩ := dual_tree_only nx hnx.setOrder hs hE hp hl hT h
    exact ⟨h1, fun e he hn => h2 e (Ctx.mem_edgesNotInT.2 ⟨he, hn⟩)⟩
  · rintro ⟨h1, h2⟩
    exact (PCtx.dual_tree ⟨hs, hE, h1, hp, hl⟩ hT nx hnx.setOrder fun e he =>
      h2 e (Ctx.mem_edgesNotInT.1 he).1 (Ctx.mem_edgesNotInT.1 he).2).2

example : Spec.NxContract someNx ∧ Spec.IsSimple squareGraph ∧ squareGraph.edges ≠ [] ∧ Spec.IsPlane squareGraph squareCw ∧
    Spec.IsSpanningForest squareGraph (someNx.maximumSpanningTree squareGraph) ∧ Spec.numComponents squareGraph = 1 :=
  ⟨someNx_contract, squareGraph_simple, by decide,
    (plane_conn squareGraph_simple squareGraph_connected (by decide)).2 squareGraph_planar,
    someNx_contract.forest _ squareGraph_simple, numComponents_conn squareGraph_simple squareGraph_connected (by decide)⟩

/-! ## C77 -/

/-- C77, whatever the order in which the nodes `0, …, n-1` were inserted: for every connected planar graph with at least
one edge such that every edge outside of the spanning tree chosen by networkx is reported from its smaller to its larger
node, `pfo_algorithm` succeeds; the result is `±1` on edges and `0` elsewhere, and the product of the signs along every face
but the last one is `-1`. If the number of nodes is even, this also holds for the last face. -/
theorem C77_any_order {nx : Nx} (hnx : Spec.NxContract nx) {G : NxGraph ℕ} (hs : Spec.IsSimple G)
    (hl : ∀ v, v ∈ G.nodes ↔ v < G.nodes.length) (hc : G.isConnected) (hE : G.edges ≠ [])
    (hp : (nx.checkPlanarity G).isSome)
    (hup : ∀ e ∈ G.edges, ¬ (e ∈ nx.maximumSpanningTree G ∨ (e.2, e.1) ∈ nx.maximumSpanningTree G) → e.1 < e.2) :
    ∃ F O, faces nx G none = .ok (some F) ∧ pfoAlgorithm nx G = .ok O ∧
      (∀ u v : Fin G.nodes.length, G.hasEdge u v → O u v = 1 ∨ O u v = -1) ∧
      (∀ u v : Fin G.nodes.length, ¬ G.hasEdge u v → O u v = 0) ∧
      (∀ (i : ℕ) (hi : i < F.length), i + 1 < F.length ∨ Even G.nodes.length → (F[i].map (Spec.along O)).prod = -1) := by
  classical
  obtain ⟨cw, hcw⟩ := Option.isSome_iff_exists.1 hp
  obtain ⟨F, hF, hF', c⟩ := ctx_of hnx hs hl hc hE hcw
  have hpos := c.pos
  have hT := hnx.spanning G hs hc (by intro h; rw [h] at hpos; simp at hpos)
  obtain ⟨O, hO, hspec⟩ := pfoAlgorithm_ok c nx hT (asc_iff.1 hup) hnx.setOrder (by rw [hcw]; exact hF)
  refine ⟨F, O, hF', hO, hspec.edge, hspec.nonedge, ?_⟩
  intro i hi hor
  have hmap : F[i].map (Spec.along O) = F[i].map fun d => upper O d * if d.1 > d.2 then -1 else 1 := by
    apply List.map_congr_left
    intro d hd
    have he := c.faces.mem_edge (List.getElem_mem hi) hd
    have hne : d.1 ≠ d.2 := by intro h; rw [h] at he; exact hs.irrefl _ he
    rw [Spec.along, upper_eq_entry]
    rcases lt_or_gt_of_ne hne with h | h
    · have h' : ¬ d.1 > d.2 := by omega
      rw [if_pos h, if_pos h, if_neg h', mul_one]
    · have h' : ¬ d.1 < d.2 := by omega
      rw [if_neg h', if_neg h', if_pos h]; ring
  rw [hmap]
  rcases hor with h | h
  · exact hspec.face i (by omega)
  · have := hspec.face_sum c ⟨i, hi⟩
    rw [(hspec.odd c hT h).face ⟨i, hi⟩, chi_one] at this
    exact this.symm

/-- C77: for every connected planar graph with nodes `0, …, n-1` inserted in this order and at least one edge,
whatever embedding, outer face, spanning tree and iteration order networkx and Python choose, `pfo_algorithm`
succeeds; the result is `±1` on edges and `0` elsewhere, and the product of the signs along every face but the last
one is `-1`. If the number of nodes is even, this also holds for the last face. -/
theorem C77_pfo {nx : Nx} (hnx : Spec.NxContract nx) {G : NxGraph ℕ} (hs : Spec.IsSimple G)
    (hn : Spec.IsNumbered G) (hc : G.isConnected) (hE : G.edges ≠ []) (hp : (nx.checkPlanarity G).isSome) :
    ∃ F O, faces nx G none = .ok (some F) ∧ pfoAlgorithm nx G = .ok O ∧
      (∀ u v : Fin G.nodes.length, G.hasEdge u v → O u v = 1 ∨ O u v = -1) ∧
      (∀ u v : Fin G.nodes.length, ¬ G.hasEdge u v → O u v = 0) ∧
      (∀ (i : ℕ) (hi : i < F.length), i + 1 < F.length ∨ Even G.nodes.length → (F[i].map (Spec.along O)).prod = -1) :=
  C77_any_order hnx hs hn.labels hc hE hp fun _ he _ => (numbered_lt hs hn he).1

/-- a path inserted in the order `1, 2, 0, 3` -/
example : Spec.NxContract someNx ∧ Spec.IsSimple shuffledPath ∧
    (∀ v, v ∈ shuffledPath.nodes ↔ v < shuffledPath.nodes.length) ∧
    shuffledPath.isConnected ∧ shuffledPath.edges ≠ [] ∧ (someNx.checkPlanarity shuffledPath).isSome ∧
    (∀ e ∈ shuffledPath.edges, ¬ (e ∈ someNx.maximumSpanningTree shuffledPath ∨
      (e.2, e.1) ∈ someNx.maximumSpanningTree shuffledPath) → e.1 < e.2) ∧ ¬ Spec.IsNumbered shuffledPath := by
  refine ⟨someNx_contract, shuffledPath_simple, ?_, shuffledPath_connected, by decide,
    someNx_contract.complete _ _ shuffledPath_simple shuffledPath_connected (by decide) shuffledPath_planar,
    asc_iff.2 ?_, by unfold Spec.IsNumbered; decide⟩
  · intro v
    simp [shuffledPath]
    omega
  · rw [shuffledPath_tree (someNx_contract.spanning _ shuffledPath_simple shuffledPath_connected (by decide))]
    simp

example : Spec.NxContract someNx ∧ Spec.IsSimple squareGraph ∧ Spec.IsNumbered squareGraph ∧ squareGraph.isConnected ∧
    squareGraph.edges ≠ [] ∧ (someNx.checkPlanarity squareGraph).isSome ∧ Even squareGraph.nodes.length :=
  ⟨someNx_contract, squareGraph_simple, squareGraph_numbered, squareGraph_connected, by decide,
    someNx_contract.complete _ _ squareGraph_simple squareGraph_connected (by decide) squareGraph_planar, by decide⟩

end FF.Props
