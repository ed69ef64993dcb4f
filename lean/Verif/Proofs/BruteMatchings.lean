import Verif.Spec.Graph
import Verif.Proofs.Embedding
import Verif.Proofs.DirectSum

/-!
# Perfect matchings of a graph: enumeration and the hafnian of the adjacency matrix
-/

namespace FF

variable {α : Type} [DecidableEq α]

theorem mem_combinations {β : Type} {c : List β} : ∀ {k : ℕ} {l : List β},
    c ∈ combinations k l ↔ c.Sublist l ∧ c.length = k := by
  intro k l
  induction l generalizing k c with
  | nil =>
    cases k with
    | zero => simp [combinations]
    | succ k =>
      simp only [combinations, List.not_mem_nil, false_iff, not_and, List.sublist_nil]
      rintro rfl; simp
  | cons x l ih =>
    cases k with
    | zero =>
      simp only [combinations, List.mem_singleton, List.length_eq_zero_iff]
      constructor
      · rintro rfl; simp
      · exact fun h => h.2
    | succ k =>
      simp only [combinations, List.mem_append, List.mem_map, ih]
      constructor
      · rintro (⟨c', ⟨h1, h2⟩, rfl⟩ | ⟨h1, h2⟩)
        · exact ⟨h1.cons_cons x, by simp [h2]⟩
        · exact ⟨h1.cons x, h2⟩
      · rintro ⟨h1, h2⟩
        rcases List.sublist_cons_iff.1 h1 with h | ⟨r, rfl, h⟩
        · exact Or.inr ⟨h, h2⟩
        · exact Or.inl ⟨r, ⟨h, by simpa using h2⟩, rfl⟩

theorem combinations_nodup {β : Type} : ∀ {k : ℕ} {l : List β}, l.Nodup → (combinations k l).Nodup := by
  intro k l
  induction l generalizing k with
  | nil => intro _; cases k <;> simp [combinations]
  | cons x l ih =>
    intro hl
    rw [List.nodup_cons] at hl
    cases k with
    | zero => simp [combinations]
    | succ k =>
      rw [combinations, List.nodup_append]
      refine ⟨(ih hl.2).map (fun _ _ h => (List.cons.inj h).2), ih hl.2, ?_⟩
      intro c hc c' hc' hcc
      obtain ⟨r, -, rfl⟩ := List.mem_map.1 hc
      subst hcc
      exact hl.1 ((mem_combinations.1 hc').1.subset (by simp))

theorem sublist_eq_filter {β : Type} [DecidableEq β] {c l : List β} (hl : l.Nodup) (h : c.Sublist l) :
    c = l.filter (· ∈ c) := by
  have h1 : c.Sublist (l.filter (· ∈ c)) := by
    have := h.filter (fun x => decide (x ∈ c))
    rwa [List.filter_eq_self.2 (by simp)] at this
  apply h1.eq_of_length_le
  apply (List.Subperm.length_le _)
  exact (List.subperm_of_subset (hl.filter _) (by intro x hx; simpa using (List.mem_filter.1 hx).2))

/-- a set of edges is a perfect matching iff its end points are the nodes -/
theorem isPerfectMatchingOf_iff {G : NxGraph α} (hG : Spec.IsSimple G) {c : List (α × α)} (hc : c.Nodup)
    (hs : ∀ e ∈ c, e ∈ G.edges) :
    Spec.IsPerfectMatchingOf G c.toFinset ↔ (c.flatMap fun e => [e.1, e.2]).Perm G.nodes := by
  have hmem : ∀ v, v ∈ (c.flatMap fun e => [e.1, e.2]) ↔ ∃ e ∈ c, e.1 = v ∨ e.2 = v := by
    intro v
    simp only [List.mem_flatMap, List.mem_cons, List.not_mem_nil, or_false]
    constructor
    · rintro ⟨e, he, h⟩; exact ⟨e, he, h.imp Eq.symm Eq.symm⟩
    · rintro ⟨e, he, h⟩; exact ⟨e, he, h.imp Eq.symm Eq.symm⟩
  have hne : ∀ e ∈ c, e.1 ≠ e.2 := by
    intro e he h
    have := hs e he
    apply hG.irrefl e.1
    have he' : (e.1, e.1) = e := Prod.ext rfl h
    exact Or.inl (he' ▸ this)
  have hnod : (c.flatMap fun e => [e.1, e.2]).Nodup ↔
      ∀ e ∈ c, ∀ e' ∈ c, ∀ v, (e.1 = v ∨ e.2 = v) → (e'.1 = v ∨ e'.2 = v) → e = e' := by
    rw [List.nodup_flatMap]
    constructor
    · rintro ⟨-, hp⟩ e he e' he' v hv hv'
      by_contra hee
      haveI : Std.Symm (Function.onFun List.Disjoint fun e : α × α => [e.1, e.2]) := ⟨fun x y hxy => List.Disjoint.symm hxy⟩
      have hp' := hp.forall he he' hee
      have : List.Disjoint [e.1, e.2] [e'.1, e'.2] := hp'
      exact this (a := v) (by simp; exact hv.imp Eq.symm Eq.symm) (by simp; exact hv'.imp Eq.symm Eq.symm)
    · intro h
      refine ⟨fun e he => by simp [hne e he], ?_⟩
      refine List.Pairwise.imp_of_mem (R := (· ≠ ·)) ?_ hc
      intro e e' he he' hee v hv hv'
      simp only [List.mem_cons, List.not_mem_nil, or_false] at hv hv'
      exact hee (h e he e' he' v (hv.imp Eq.symm Eq.symm) (hv'.imp Eq.symm Eq.symm))
  constructor
  · rintro ⟨-, h⟩
    have hnodes : ∀ e ∈ c, ∀ v, (e.1 = v ∨ e.2 = v) → v ∈ G.nodes := by
      intro e he v hv
      have := hG.mem e (hs e he)
      rcases hv with rfl | rfl
      · exact this.1
      · exact this.2
    rw [List.perm_ext_iff_of_nodup _ hG.nodes_nodup]
    · intro v
      rw [hmem]
      constructor
      · rintro ⟨e, he, hv⟩; exact hnodes e he v hv
      · intro hv
        obtain ⟨e, he, -⟩ := h v hv
        exact ⟨e, by simpa using he.1, he.2⟩
    · rw [hnod]
      intro e he e' he' v hv hv'
      exact (h v (hnodes e he v hv)).unique ⟨by simpa using he, hv⟩ ⟨by simpa using he', hv'⟩
  · intro hp
    refine ⟨fun e he => by simpa using hs e (by simpa using he), fun v hv => ?_⟩
    obtain ⟨e, he, hev⟩ := (hmem v).1 (hp.mem_iff.2 hv)
    refine ⟨e, ⟨by simpa using he, hev⟩, ?_⟩
    rintro e' ⟨he', hev'⟩
    exact hnod.1 (hp.nodup_iff.2 hG.nodes_nodup) e' (by simpa using he') e he v hev' hev

theorem length_flatMap_pairs {β : Type} (c : List (β × β)) : (c.flatMap fun e => [e.1, e.2]).length = 2 * c.length := by
  induction c with
  | nil => rfl
  | cons e c ih => simp [List.flatMap_cons, ih]; omega

theorem brute_spec {G : NxGraph α} (hG : Spec.IsSimple G) (hn : G.nodes.length ≤ 15) :
    ((findPerfectMatchingsBrute G).map List.toFinset).Nodup ∧
    (∀ c ∈ findPerfectMatchingsBrute G, c.Nodup) ∧
    ∀ M, M ∈ (findPerfectMatchingsBrute G).map List.toFinset ↔ Spec.IsPerfectMatchingOf G M := by
  have hfull : findPerfectMatchingsBrute G =
      if G.nodes.length % 2 ≠ 0 then [] else
        (combinations (G.nodes.length / 2) G.edges).filter fun c => (nodesInMatching c).length = G.nodes.length := by
    unfold findPerfectMatchingsBrute
    simp only
    split_ifs <;> first | rfl | omega
  -- the members
  have hmem : ∀ c, c ∈ findPerfectMatchingsBrute G ↔ c.Sublist G.edges ∧ Spec.IsPerfectMatchingOf G c.toFinset := by
    intro c
    have key : ∀ hc : c.Sublist G.edges, (Spec.IsPerfectMatchingOf G c.toFinset ↔
        2 * c.length = G.nodes.length ∧ (nodesInMatching c).length = G.nodes.length) := by
      intro hc
      rw [isPerfectMatchingOf_iff hG (hc.nodup hG.edges_nodup) (fun e he => hc.subset he)]
      constructor
      · intro hp
        have h1 := hp.length_eq
        rw [length_flatMap_pairs] at h1
        refine ⟨h1, ?_⟩
        unfold nodesInMatching
        rw [(hp.nodup_iff.2 hG.nodes_nodup).dedup, hp.length_eq]
      · rintro ⟨h1, h2⟩
        have hsub : (nodesInMatching c).Sublist (c.flatMap fun e => [e.1, e.2]) := List.dedup_sublist _
        have heq := hsub.eq_of_length (by rw [h2, length_flatMap_pairs, h1])
        have hnd : (nodesInMatching c).Nodup := List.nodup_dedup _
        rw [← heq]
        refine (List.subperm_of_subset hnd ?_).perm_of_length_le (by rw [h2])
        intro v hv
        rw [heq, List.mem_flatMap] at hv
        obtain ⟨e, he, hv⟩ := hv
        have := hG.mem e (hc.subset he)
        simp only [List.mem_cons, List.not_mem_nil, or_false] at hv
        rcases hv with rfl | rfl
        · exact this.1
        · exact this.2
    rw [hfull]
    split_ifs with hodd
    · simp only [List.not_mem_nil, false_iff, not_and]
      intro hc hp
      have := ((key hc).1 hp).1
      omega
    · rw [List.mem_filter, mem_combinations]
      constructor
      · rintro ⟨⟨h1, h2⟩, h3⟩
        exact ⟨h1, (key h1).2 ⟨by omega, by simpa using h3⟩⟩
      · rintro ⟨h1, h2⟩
        obtain ⟨h3, h4⟩ := (key h1).1 h2
        exact ⟨⟨h1, by omega⟩, by simpa using h4⟩
  have hnd : (findPerfectMatchingsBrute G).Nodup := by
    rw [hfull]
    split_ifs
    · simp
    · exact (combinations_nodup hG.edges_nodup).filter _
  refine ⟨?_, fun c hc => ((hmem c).1 hc).1.nodup hG.edges_nodup, ?_⟩
  · apply List.Nodup.map_on _ hnd
    intro c hc c' hc' h
    rw [sublist_eq_filter hG.edges_nodup ((hmem c).1 hc).1, sublist_eq_filter hG.edges_nodup ((hmem c').1 hc').1]
    apply List.filter_congr
    intro x _
    have := Finset.ext_iff.1 h x
    simpa using this
  · intro M
    rw [List.mem_map]
    constructor
    · rintro ⟨c, hc, rfl⟩; exact ((hmem c).1 hc).2
    · intro hM
      refine ⟨G.edges.filter (· ∈ M), (hmem _).2 ⟨List.filter_sublist, ?_⟩, ?_⟩
      · convert hM using 1
        ext e
        simp only [List.mem_toFinset, List.mem_filter, decide_eq_true_eq, and_iff_right_iff_imp]
        intro he
        simpa using hM.1 he
      · ext e
        simp only [List.mem_toFinset, List.mem_filter, decide_eq_true_eq, and_iff_right_iff_imp]
        intro he
        simpa using hM.1 he

theorem mem_matchings {G : NxGraph α} {M : Finset (α × α)} : M ∈ Spec.matchings G ↔ Spec.IsPerfectMatchingOf G M := by
  classical
  unfold Spec.matchings
  rw [Finset.mem_filter, Finset.mem_powerset]
  exact ⟨fun h => h.2, fun h => ⟨h.1, h⟩⟩

theorem brute_length {G : NxGraph α} (hG : Spec.IsSimple G) (hn : G.nodes.length ≤ 15) :
    (findPerfectMatchingsBrute G).length = (Spec.matchings G).card := by
  obtain ⟨h1, -, h3⟩ := brute_spec hG hn
  have : Spec.matchings G = ((findPerfectMatchingsBrute G).map List.toFinset).toFinset := by
    ext M
    rw [mem_matchings, List.mem_toFinset, h3]
  rw [this, List.toFinset_card_of_nodup h1, List.length_map]

/-! ## The hafnian of the adjacency matrix -/

theorem hf_adjacency {G : NxGraph α} (hG : Spec.IsSimple G) (hA : G.adjacency.IsSymm) :
    hf G.adjacency = .ok (Spec.matchingWeight G) := by
  classical
  rw [hf_eq_sum_matchings _ hA]
  congr 1
  have hinj : Function.Injective G.nodes.get := List.nodup_iff_injective_get.1 hG.nodes_nodup
  let φ : Fin G.nodes.length × Fin G.nodes.length ↪ α × α :=
    ⟨fun e => (G.nodes.get e.1, G.nodes.get e.2), fun a b h => by
      simp only [Prod.mk.injEq] at h
      exact Prod.ext (hinj h.1) (hinj h.2)⟩
  have hidx : ∀ i : Fin G.nodes.length, G.nodes.idxOf (G.nodes.get i) = i.1 := by
    intro i
    exact hG.nodes_nodup.idxOf_getElem i.1 i.2
  have hedge : ∀ i j : Fin G.nodes.length, i < j →
      (G.hasEdge (G.nodes.get i) (G.nodes.get j) ↔ φ (i, j) ∈ G.edges) := by
    intro i j hij
    constructor
    · rintro (h | h)
      · exact h
      · have := hG.ordered _ h
        rw [hidx, hidx] at this
        have : j.1 < i.1 := this
        have : i.1 < j.1 := hij
        omega
    · exact fun h => Or.inl h
  have hwt : ∀ i j : Fin G.nodes.length, φ (i, j) ∈ G.edges →
      G.adjacency i j = G.weight (φ (i, j)).1 (φ (i, j)).2 := by
    intro i j h
    unfold NxGraph.adjacency
    rw [if_pos (show G.hasEdge (G.nodes.get i) (G.nodes.get j) from Or.inl h)]
    rfl
  rw [← Finset.sum_filter_of_ne (p := fun M => ∀ e ∈ M, φ e ∈ G.edges)]
  · unfold Spec.matchingWeight
    refine Finset.sum_bij (fun M _ => M.map φ) ?_ ?_ ?_ ?_
    · intro M hM
      rw [Finset.mem_filter] at hM
      have hP : Spec.IsPerfectMatching M := by
        have := hM.1
        unfold Spec.perfectMatchings at this
        simpa using this
      rw [mem_matchings]
      refine ⟨?_, ?_⟩
      · intro e he
        obtain ⟨e', he', rfl⟩ := Finset.mem_map.1 he
        simpa using hM.2 e' he'
      · intro v hv
        obtain ⟨i, rfl⟩ := List.get_of_mem hv
        obtain ⟨e, ⟨he, hei⟩, hu⟩ := hP.covers i
        refine ⟨φ e, ⟨Finset.mem_map_of_mem _ he, ?_⟩, ?_⟩
        · rcases hei with h | h
          · left; rw [← h]; rfl
          · right; rw [← h]; rfl
        · rintro e' ⟨he', hv'⟩
          obtain ⟨e'', he'', rfl⟩ := Finset.mem_map.1 he'
          congr 1
          apply hu
          refine ⟨he'', ?_⟩
          rcases hv' with h | h
          · left; exact hinj h
          · right; exact hinj h
    · intro M _ M' _ h
      exact Finset.map_injective _ h
    · intro M' hM'
      rw [mem_matchings] at hM'
      have hpre : ∀ e ∈ M', ∃ i j : Fin G.nodes.length, i < j ∧ φ (i, j) = e := by
        intro e he
        have hE : e ∈ G.edges := by simpa using hM'.1 he
        obtain ⟨h1, h2⟩ := hG.mem e hE
        obtain ⟨i, hi⟩ := List.get_of_mem h1
        obtain ⟨j, hj⟩ := List.get_of_mem h2
        have := hG.ordered e hE
        rw [← hi, ← hj, hidx, hidx] at this
        exact ⟨i, j, this, Prod.ext hi hj⟩
      have hord : ∀ e : Fin G.nodes.length × Fin G.nodes.length, φ e ∈ M' → e.1 < e.2 := by
        intro e he
        obtain ⟨i, j, hij, h⟩ := hpre _ he
        rw [← φ.injective h]
        exact hij
      refine ⟨Finset.univ.filter fun e => φ e ∈ M', ?_, ?_⟩
      · rw [Finset.mem_filter]
        refine ⟨?_, ?_⟩
        · unfold Spec.perfectMatchings
          rw [Finset.mem_filter]
          refine ⟨Finset.mem_univ _, ?_, ?_⟩
          · intro e he; exact hord e (by simpa using he)
          · intro v
            obtain ⟨e, ⟨he, hev⟩, hu⟩ := hM'.2 (G.nodes.get v) (List.get_mem _ _)
            obtain ⟨i, j, hij, rfl⟩ := hpre e he
            refine ⟨(i, j), ⟨by simpa using he, ?_⟩, ?_⟩
            · rcases hev with h | h
              · left; exact hinj h
              · right; exact hinj h
            · rintro e' ⟨he', hv'⟩
              apply φ.injective
              apply hu
              refine ⟨by simpa using he', ?_⟩
              rcases hv' with h | h
              · left; rw [← h]; rfl
              · right; rw [← h]; rfl
        · intro e he
          have : φ e ∈ M' := by simpa using he
          simpa using hM'.1 this
      · ext e
        rw [Finset.mem_map]
        constructor
        · rintro ⟨e', he', rfl⟩; simpa using he'
        · intro he
          obtain ⟨i, j, hij, rfl⟩ := hpre e he
          exact ⟨(i, j), by simpa using he, rfl⟩
    · intro M hM
      rw [Finset.mem_filter] at hM
      rw [Finset.prod_map]
      apply Finset.prod_congr rfl
      intro e he
      exact hwt e.1 e.2 (hM.2 e he)
  · intro M hM hne e he
    have hP : Spec.IsPerfectMatching M := by
      unfold Spec.perfectMatchings at hM
      simpa using hM
    by_contra hcon
    apply hne
    apply Finset.prod_eq_zero he
    unfold NxGraph.adjacency
    rw [if_neg]
    intro h
    exact hcon ((hedge e.1 e.2 (hP.ordered e he)).1 h)

theorem matchingWeight_unit {G : NxGraph α} (hw : ∀ e ∈ G.edges, G.weight e.1 e.2 = 1) :
    Spec.matchingWeight G = ((Spec.matchings G).card : ℝ) := by
  unfold Spec.matchingWeight
  rw [Finset.card_eq_sum_ones]
  push_cast
  apply Finset.sum_congr rfl
  intro M hM
  apply Finset.prod_eq_one
  intro e he
  exact hw e (by simpa using (mem_matchings.1 hM).1 he)

end FF
