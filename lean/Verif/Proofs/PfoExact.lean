import Verif.Proofs.DualTree
import Verif.Proofs.OrderEx

/-!
# The outcome of `pfo_algorithm` on every graph
-/

namespace FF
open Relation

variable {n : ℕ}

open Classical in
theorem scanFace_total (o : Matrix (Fin n) (Fin n) ℂ) : ∀ (l : List Dart) (s : ℂ × List Dart),
    (∀ e ∈ l, e.1 < n ∧ e.2 < n) → (∀ e ∈ s.2, e.1 < n ∧ e.2 < n) →
    ∃ r, l.foldlM (fun (s : ℂ × List Dart) e => do
      let x ← get2 o (min e.1 e.2) (max e.1 e.2)
      if isclose (x.re : ℂ) 0 then pure (s.1, s.2 ++ [e])
      else pure (s.1 * (x * prefixSign e), s.2)) s = (Except.ok r : Except PyErr _) ∧ ∀ e ∈ r.2, e.1 < n ∧ e.2 < n := by
  intro l
  induction l with
  | nil => intro s _ h; exact ⟨s, rfl, h⟩
  | cons e l ih =>
    intro s hl hs
    have he := hl e (by simp)
    have hb : min e.1 e.2 < n ∧ max e.1 e.2 < n := by omega
    rw [List.foldlM_cons]
    have ih' := fun s => ih s fun x hx => hl x (by simp [hx])
    simp only [bind, Except.bind, get2, dif_pos hb] at ih' ⊢
    split_ifs with hc
    · refine ih' _ ?_
      intro x hx
      rcases List.mem_append.1 hx with hx | hx
      · exact hs x hx
      · rw [List.mem_singleton] at hx; rw [hx]; exact he
    · exact ih' _ hs

/-- `complete_face` does not fail if the array has an entry for every node of the face -/
theorem completeFace_total (o : Matrix (Fin n) (Fin n) ℂ) (f : List Dart) (h : ∀ e ∈ f, e.1 < n ∧ e.2 < n) :
    ∃ r, completeFace o f = .ok r := by
  obtain ⟨r, hr, hb⟩ := scanFace_total o f (1, []) h (by simp)
  have hr : scanFace o f = .ok r := hr
  unfold completeFace
  simp only [bind, Except.bind, hr]
  rcases hg : r.2.getLast? with _ | e
  · exact ⟨_, rfl⟩
  · have he := hb e (List.mem_of_getLast? hg)
    have h1 : min e.1 e.2 < n ∧ max e.1 e.2 < n := by omega
    simp only [setEntry, if_pos h1, if_pos h1.symm]
    exact ⟨_, rfl⟩

theorem processLeaves_total {F : List (List Dart)} (hF : ∀ f ∈ F, ∀ e ∈ f, e.1 < n ∧ e.2 < n) :
    ∀ (leaves : List ℕ) (H : NxGraph ℕ) (o : Matrix (Fin n) (Fin n) ℂ), H.nodes.Nodup → leaves.Nodup →
      (∀ a ∈ H.nodes, a < F.length) → (∀ a ∈ leaves, a ∈ H.nodes) →
      ∃ H' o', processLeaves F leaves (H, o) = .ok (H', o') ∧ H'.nodes.Nodup ∧ (∀ a ∈ H'.nodes, a < F.length) ∧
        H'.nodes.length + leaves.length = H.nodes.length := by
  intro leaves
  induction leaves with
  | nil => intro H o h _ h2 _; exact ⟨H, o, rfl, h, h2, by simp⟩
  | cons a l ih =>
    intro H o hnd hl hb hm
    have ha := hm a (by simp)
    obtain ⟨r, hr⟩ := completeFace_total o (F[a]'(hb a ha)) (hF _ (List.getElem_mem _))
    have hmem : ∀ i, i ∈ (H.removeNode a).nodes ↔ i ≠ a ∧ i ∈ H.nodes := fun i => hnd.mem_erase_iff
    obtain ⟨H', o', hp, h1, h2, h3⟩ := ih (H.removeNode a) r.1 (hnd.erase _) (List.nodup_cons.1 hl).2
      (fun b h => hb b ((hmem b).1 h).2)
      (fun b h => (hmem b).2 ⟨fun he => (List.nodup_cons.1 hl).1 (he ▸ h), hm b (by simp [h])⟩)
    refine ⟨H', o', ?_, h1, h2, ?_⟩
    · unfold processLeaves at hp ⊢
      rw [List.foldlM_cons]
      simp only [bind, Except.bind, listGet_ok (hb a ha), hr, pure, Except.pure]
      exact hp
    · have : (H.removeNode a).nodes.length = H.nodes.length - 1 := List.length_erase_of_mem ha
      have := List.length_pos_of_mem ha
      simp only [List.length_cons]
      omega

theorem leafLoop_total {F : List (List Dart)} (hF : ∀ f ∈ F, ∀ e ∈ f, e.1 < n ∧ e.2 < n) (root : ℕ) :
    ∀ (fuel : ℕ) (H : NxGraph ℕ) (o : Matrix (Fin n) (Fin n) ℂ), H.nodes.Nodup → (∀ a ∈ H.nodes, a < F.length) →
      H.nodes.length ≤ fuel → ∃ o', leafLoop F root fuel (H, o) = .ok o' := by
  intro fuel
  induction fuel with
  | zero =>
    intro H o _ _ hl
    exact ⟨o, by rw [leafLoop, if_neg (by simp only; omega)]⟩
  | succ fuel ih =>
    intro H o hnd hb hl
    rw [leafLoop]
    by_cases hlen : H.nodes.length > 1
    · rw [if_pos hlen]
      simp only
      by_cases hne : (H.nodes.filter fun x => H.degree x = 1 ∧ x ≠ root) = []
      · rw [if_pos hne]; exact ⟨_, rfl⟩
      · rw [if_neg hne]
        obtain ⟨H', o', hp, h1, h2, h3⟩ := processLeaves_total hF _ H o hnd (hnd.filter fun x => H.degree x = 1 ∧ x ≠ root) hb
          (fun a ha => List.mem_of_mem_filter ha)
        have hpos := List.length_pos_iff.2 hne
        obtain ⟨o2, ho2⟩ := ih H' o' h1 h2 (by omega)
        refine ⟨o2, ?_⟩
        simp only [bind, Except.bind]
        rw [hp]
        exact ho2
    · rw [if_neg hlen]
      exact ⟨o, rfl⟩

/-- a tree edge with a label out of range -/
theorem orientTree_bad : ∀ (T : List Dart) (o : Matrix (Fin n) (Fin n) ℂ), (∃ e ∈ T, n ≤ e.1 ∨ n ≤ e.2) →
    orientTree T o = .error .indexError := by
  intro T
  induction T with
  | nil => rintro o ⟨e, he, -⟩; simp at he
  | cons e T ih =>
    intro o h
    unfold orientTree at ih ⊢
    rw [List.foldlM_cons]
    by_cases he : min e.1 e.2 < n ∧ max e.1 e.2 < n
    · simp only [bind, Except.bind, setEntry, if_pos he, if_pos he.symm] at ih ⊢
      refine ih _ ?_
      obtain ⟨x, hx, hb⟩ := h
      rcases List.mem_cons.1 hx with rfl | hx
      · omega
      · exact ⟨x, hx, hb⟩
    · simp only [bind, Except.bind, setEntry, if_neg he]

/-- the outcome of `pfo_algorithm` on every planar graph with an edge -/
theorem pfo_outcome {nx : Nx} (hnx : Spec.NxContract nx) {G : NxGraph ℕ} (hs : Spec.IsSimple G) (hE : G.edges ≠ [])
    (hp : (nx.checkPlanarity G).isSome) :
    (¬ (Spec.numComponents G = 1 ∧ ∀ e ∈ edgesNotInT G (nx.maximumSpanningTree G), e.1 < e.2) →
      pfoAlgorithm nx G = .error .assertionError) ∧
    (Spec.numComponents G = 1 → (∀ e ∈ edgesNotInT G (nx.maximumSpanningTree G), e.1 < e.2) →
      (∃ e ∈ G.edges, G.nodes.length ≤ e.1 ∨ G.nodes.length ≤ e.2) → pfoAlgorithm nx G = .error .indexError) ∧
    (Spec.numComponents G = 1 → (∀ e ∈ edgesNotInT G (nx.maximumSpanningTree G), e.1 < e.2) →
      (∀ e ∈ G.edges, e.1 < G.nodes.length ∧ e.2 < G.nodes.length) → ∃ O, pfoAlgorithm nx G = .ok O) := by
  obtain ⟨cw, hcw⟩ := Option.isSome_iff_exists.1 hp
  have hpl := hnx.plane G cw hs hcw
  have hT := hnx.forest G hs
  obtain ⟨F, hF, hF', hl⟩ := faces_ok nx hE hpl.rotation.mem hpl.rotation.inj
  have hl := hl.of_perm (moveOuter_perm (nx.outerFace cw) F)
  have hn : G.nodes.length ≠ 0 := by
    obtain ⟨e, es, he⟩ := List.exists_cons_of_ne_nil hE
    have := (hs.mem e (by rw [he]; simp)).1
    intro h
    rw [List.length_eq_zero_iff] at h
    rw [h] at this
    simp at this
  unfold pfoAlgorithm
  simp only [bind, Except.bind, adjacencyMatrix, if_neg hn, hcw, hF']
  refine ⟨fun h => ?_, fun h1 h2 h3 => ?_, fun h1 h2 h3 => ?_⟩
  · rw [if_pos]
    · rfl
    · exact fun ht => h (dual_tree_only nx hnx.setOrder hs hE hpl hl hT ht)
  · have c : PCtx G cw _ := ⟨hs, hE, h1, hpl, hl⟩
    obtain ⟨hN, ht⟩ := c.dual_tree hT nx hnx.setOrder h2
    have hor := orientTree_bad (n := G.nodes.length) (nx.maximumSpanningTree G)
      (fun i j => (G.adjacency i j : ℂ) * (99 * Complex.I)) (by
      obtain ⟨e, he, hb⟩ := h3
      have key : ∀ u v, G.hasEdge u v → G.nodes.length ≤ u → ∃ x ∈ nx.maximumSpanningTree G, G.nodes.length ≤ x.1 ∨ G.nodes.length ≤ x.2 := by
        intro u v huv hu
        rcases ReflTransGen.cases_head (hT.conn u v huv) with h | ⟨w, h | h, -⟩
        · rw [h] at huv; exact absurd huv (hs.irrefl v)
        · exact ⟨_, h, Or.inl hu⟩
        · exact ⟨_, h, Or.inr hu⟩
      rcases hb with hb | hb
      · exact key e.1 e.2 (Or.inl he) hb
      · exact key e.2 e.1 (Or.inr he) hb)
    rw [if_neg (not_not.2 ht)]
    simp only [hor]
  · have c : PCtx G cw _ := ⟨hs, hE, h1, hpl, hl⟩
    obtain ⟨hN, ht⟩ := c.dual_tree hT nx hnx.setOrder h2
    have hb : ∀ u v, G.hasEdge u v → u < G.nodes.length ∧ v < G.nodes.length := by
      rintro u v (h | h)
      · exact h3 _ h
      · exact (h3 _ h).symm
    have hor := orientTree_ok (n := G.nodes.length) (nx.maximumSpanningTree G)
      (fun i j => (G.adjacency i j : ℂ) * (99 * Complex.I)) (fun e he => ⟨(hb _ _ (hT.sub e he)).1, (hb _ _ (hT.sub e he)).2, fun h => by
      have := hT.sub e he
      rw [h] at this
      exact hs.irrefl _ this⟩)
    rw [if_neg (not_not.2 ht)]
    simp only [hor]
    have hmx := maxNode_range (hl.pos hE)
    rw [← hN] at hmx
    simp only [hmx]
    obtain ⟨o', ho'⟩ := leafLoop_total (n := G.nodes.length) (F := moveOuter (nx.outerFace cw) F)
      (fun f hf e he => hb _ _ (hl.mem_edge hf he)) ((moveOuter (nx.outerFace cw) F).length - 1)
      (dualGraphH nx G (moveOuter (nx.outerFace cw) F) (nx.maximumSpanningTree G)).nodes.length (dualGraphH nx G (moveOuter (nx.outerFace cw) F) (nx.maximumSpanningTree G))
      (treeArr (nx.maximumSpanningTree G) fun i j => ↑(G.adjacency i j) * (99 * Complex.I)) (by rw [hN]; exact List.nodup_range)
      (by rw [hN]; simp) le_rfl
    simp only [ho']
    exact ⟨_, rfl⟩

/-- a node without neighbour cannot be matched -/
theorem no_matching_of_isolated {G : NxGraph ℕ} {v : ℕ} (hv : v ∈ G.nodes) (h : v ∉ Spec.touched G) : Spec.matchings G = ∅ := by
  rw [Finset.eq_empty_iff_forall_notMem]
  intro M hM
  rw [mem_matchings] at hM
  obtain ⟨e, ⟨he, hve⟩, -⟩ := hM.2 v hv
  have he : e ∈ G.edges := by simpa using hM.1 he
  rcases hve with rfl | rfl
  · exact h ⟨e.2, Or.inl he⟩
  · exact h ⟨e.1, Or.inr he⟩

/-- the counting routine on a graph with an isolated node -/
theorem count_isolated {eigvals : {n : ℕ} → Matrix (Fin n) (Fin n) ℂ → Except PyErr (List ℂ)}
    (hev : Props.EigvalsContract eigvals) (hsucc : ∀ {n : ℕ} (A : Matrix (Fin n) (Fin n) ℂ), ∃ l, eigvals A = .ok l)
    {nx : Nx} {G : NxGraph ℕ} (hp : (nx.checkPlanarity G).isSome)
    {O : Matrix (Fin G.nodes.length) (Fin G.nodes.length) ℝ} (hO : pfoAlgorithm nx G = .ok O)
    {v : ℕ} (hv : v ∈ G.nodes) (h : v ∉ Spec.touched G) :
    countPerfectMatchingsPlanar eigvals nx G = .ok (.real 0) := by
  obtain ⟨cw, hcw⟩ := Option.isSome_iff_exists.1 hp
  have hl : G.nodes.length ≠ 0 := by
    have := List.length_pos_of_mem hv
    omega
  obtain ⟨d, hd, hd'⟩ := Props.C10_dt_eigen eigvals hev ((pfoMatrix O G.adjacency).map (fun x : ℝ => (x : ℂ))) (hsucc _)
  rw [dt_ok] at hd'
  injection hd' with hd'
  obtain ⟨k, hk, rfl⟩ := List.getElem_of_mem hv
  have hA : ∀ j : Fin G.nodes.length, G.adjacency j ⟨k, hk⟩ = 0 ∧ G.adjacency ⟨k, hk⟩ j = 0 := by
    intro j
    unfold NxGraph.adjacency
    constructor
    · exact if_neg fun hh => h ⟨_, Or.symm hh⟩
    · exact if_neg fun hh => h ⟨_, hh⟩
  have hdet : d = ((0 : ℝ) ^ 2 : ℝ) := by
    rw [← hd']
    have : ((0 : ℝ) ^ 2 : ℝ) = 0 := by norm_num
    rw [this, Complex.ofReal_zero]
    apply Matrix.det_eq_zero_of_column_eq_zero ⟨k, hk⟩
    intro j
    have hz : pfoMatrix O G.adjacency j ⟨k, hk⟩ = 0 := by
      simp only [pfoMatrix, npTriu, (hA j).1, (hA j).2]
      simp
    rw [Matrix.map_apply, hz, Complex.ofReal_zero]
  unfold countPerfectMatchingsPlanar
  have hA : adjacencyMatrix G = .ok G.adjacency := by rw [adjacencyMatrix, if_neg hl]
  rw [if_neg (by rw [hcw]; simp), if_neg hl]
  simp only [bind, Except.bind, hA, hO, hd, pure, Except.pure]
  rw [hdet, npSqrt_sq]
  have := clean_real |(0 : ℝ)|
  rw [abs_zero] at this
  rw [abs_zero]
  refine this.trans ?_
  have h0 := npRound_int 10 0
  have h1 : npRound 10 0 = 0 := by exact_mod_cast h0
  rw [h1]

/-- the nodes of a graph whose nodes with an edge are smaller than the number of nodes -/
theorem labels_of_touched {G : NxGraph ℕ} (hs : Spec.IsSimple G)
    (hb : ∀ e ∈ G.edges, e.1 < G.nodes.length ∧ e.2 < G.nodes.length) (ht : ∀ v ∈ G.nodes, v ∈ Spec.touched G) (v : ℕ) :
    v ∈ G.nodes ↔ v < G.nodes.length := by
  have hlt : ∀ v ∈ G.nodes, v < G.nodes.length := by
    intro v hv
    obtain ⟨u, h | h⟩ := ht v hv
    · exact (hb _ h).1
    · exact (hb _ h).2
  have hsub : G.nodes.toFinset ⊆ Finset.range G.nodes.length := by
    intro v hv
    rw [List.mem_toFinset] at hv
    rw [Finset.mem_range]
    exact hlt v hv
  have heq := Finset.eq_of_subset_of_card_le hsub (by
    rw [Finset.card_range, List.toFinset_card_of_nodup hs.nodes_nodup])
  rw [← List.mem_toFinset, heq, Finset.mem_range]

theorem counted_eq (G : NxGraph ℕ) : Spec.countedMatchings G = Spec.matchings (commonGraph G) := by
  ext M
  rw [Spec.countedMatchings, Finset.mem_filter, mem_matchings_commonGraph]

theorem commonGraph_weight (G : NxGraph ℕ) :
    Spec.matchingWeight (commonGraph G) = ∑ M ∈ Spec.countedMatchings G, ∏ e ∈ M, G.weight e.1 e.2 := by
  rw [counted_eq]; rfl

theorem counted_numbered {G : NxGraph ℕ} (hs : Spec.IsSimple G) (hn : Spec.IsNumbered G) :
    Spec.countedMatchings G = Spec.matchings G := by
  rw [counted_eq, commonGraph_numbered hs hn]

/-- the counting routine on every planar graph with an edge on which `pfo_algorithm` succeeds -/
theorem count_outcome_all {eigvals : {n : ℕ} → Matrix (Fin n) (Fin n) ℂ → Except PyErr (List ℂ)}
    (hev : Props.EigvalsContract eigvals) (hsucc : ∀ {n : ℕ} (A : Matrix (Fin n) (Fin n) ℂ), ∃ l, eigvals A = .ok l)
    {nx : Nx} (hnx : Spec.NxContract nx) {G : NxGraph ℕ} (hs : Spec.IsSimple G) (hE : G.edges ≠ [])
    (hp : (nx.checkPlanarity G).isSome) (hC : Spec.numComponents G = 1)
    (hup : ∀ e ∈ edgesNotInT G (nx.maximumSpanningTree G), e.1 < e.2)
    (hb : ∀ e ∈ G.edges, e.1 < G.nodes.length ∧ e.2 < G.nodes.length) :
    countPerfectMatchingsPlanar eigvals nx G =
      .ok (.real (npRound 10 |∑ M ∈ Spec.countedMatchings G, ∏ e ∈ M, G.weight e.1 e.2|)) := by
  by_cases ht : ∀ v ∈ G.nodes, v ∈ Spec.touched G
  · have hc : G.isConnected := fun u hu v hv => (numComponents_one_iff hs hE).1 hC u (ht u hu) v (ht v hv)
    rw [count_planar_labels hev hsucc hnx hs (labels_of_touched hs hb ht) hc hE hp hup, commonGraph_weight]
  · push Not at ht
    obtain ⟨v, hv, hvt⟩ := ht
    obtain ⟨O, hO⟩ := (pfo_outcome hnx hs hE hp).2.2 hC hup hb
    have : Spec.countedMatchings G = ∅ := by
      rw [Spec.countedMatchings, no_matching_of_isolated hv hvt]; rfl
    rw [count_isolated hev hsucc hp hO hv hvt, this]
    have h0 := npRound_int 10 0
    have h1 : npRound 10 0 = 0 := by exact_mod_cast h0
    simp [h1]

/-- the counting routine passes the exceptions of `pfo_algorithm` on -/
theorem count_error {eigvals : {n : ℕ} → Matrix (Fin n) (Fin n) ℂ → Except PyErr (List ℂ)} {nx : Nx} {G : NxGraph ℕ}
    (hs : Spec.IsSimple G) (hE : G.edges ≠ []) (hp : (nx.checkPlanarity G).isSome) {err : PyErr}
    (h : pfoAlgorithm nx G = .error err) : countPerfectMatchingsPlanar eigvals nx G = .error err := by
  obtain ⟨cw, hcw⟩ := Option.isSome_iff_exists.1 hp
  have hl : G.nodes.length ≠ 0 := by
    obtain ⟨e, es, he⟩ := List.exists_cons_of_ne_nil hE
    have := List.length_pos_of_mem (hs.mem e (by rw [he]; simp)).1
    omega
  have hA : adjacencyMatrix G = .ok G.adjacency := by rw [adjacencyMatrix, if_neg hl]
  unfold countPerfectMatchingsPlanar
  rw [if_neg (by rw [hcw]; simp), if_neg hl]
  simp only [bind, Except.bind, hA, h, pure, Except.pure]

/-- the counting routine on every numbered planar graph with an edge -/
theorem count_outcome {eigvals : {n : ℕ} → Matrix (Fin n) (Fin n) ℂ → Except PyErr (List ℂ)}
    (hev : Props.EigvalsContract eigvals) (hsucc : ∀ {n : ℕ} (A : Matrix (Fin n) (Fin n) ℂ), ∃ l, eigvals A = .ok l)
    {nx : Nx} (hnx : Spec.NxContract nx) {G : NxGraph ℕ} (hs : Spec.IsSimple G) (hn : Spec.IsNumbered G) (hE : G.edges ≠ [])
    (hp : (nx.checkPlanarity G).isSome) :
    countPerfectMatchingsPlanar eigvals nx G =
      if Spec.numComponents G = 1 then .ok (.real (npRound 10 |Spec.matchingWeight G|)) else .error .assertionError := by
  split_ifs with hC
  · rw [count_outcome_all hev hsucc hnx hs hE hp hC (numbered_up hs hn _) (fun e he => (numbered_lt hs hn he).2),
      counted_numbered hs hn]
    rfl
  · exact count_error hs hE hp ((pfo_outcome hnx hs hE hp).1 fun h => hC h.1)

end FF
