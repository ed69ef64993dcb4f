import Verif.Proofs.Pfo2

/-!
# The Pfaffian orientation
-/

namespace FF
open Verif.Kasteleyn

variable {G : NxGraph ℕ} {cw : ℕ → ℕ → ℕ} {F : List (List Dart)} {T : List Dart}
  {Z : Matrix (Fin G.nodes.length) (Fin G.nodes.length) ℂ}

theorem degree_eq {l : List (ℕ × ℕ)} (hl : ∀ e ∈ l, e.1 < e.2) (x : ℕ) :
    l.countP (fun e => e.1 = x) + l.countP (fun e => e.2 = x) = (l.filter fun e => e.1 = x ∨ e.2 = x).length := by
  induction l with
  | nil => simp
  | cons e l ih =>
    have ih := ih (fun e he => hl e (by simp [he]))
    have he := hl e (by simp)
    rw [List.countP_cons, List.countP_cons, List.filter_cons]
    by_cases h1 : e.1 = x <;> by_cases h2 : e.2 = x <;> simp [h1, h2, -Bool.decide_or] <;> omega

theorem PInv.mem_edges {c : Ctx G cw F} {P : Plan G F T} {H0 H : NxGraph ℕ} (hH : c.DualSpec T H0)
    {o : Matrix (Fin G.nodes.length) (Fin G.nodes.length) ℂ} (h : PInv P H0 H Z o) (e : ℕ × ℕ) :
    e ∈ H.edges ↔ ∃ i ∈ H.nodes, i < F.length - 1 ∧ e = P.pe i := by
  rw [h.edges, List.mem_filter, P.mem_dual hH]
  constructor
  · rintro ⟨⟨i, hi, rfl⟩, hm⟩
    refine ⟨i, ?_, hi, rfl⟩
    have hm := of_decide_eq_true hm
    simp only [Plan.pe] at hm
    rcases le_total i (P.par i) with hh | hh
    · rw [min_eq_left hh] at hm; exact hm.1
    · rw [max_eq_left hh] at hm; exact hm.2
  · rintro ⟨i, him, hi, rfl⟩
    refine ⟨⟨i, hi, rfl⟩, ?_⟩
    have hp := h.closed i him hi
    apply decide_eq_true
    simp only [Plan.pe]
    rcases le_total i (P.par i) with hh | hh
    · rw [min_eq_left hh, max_eq_right hh]; exact ⟨him, hp⟩
    · rw [min_eq_right hh, max_eq_left hh]; exact ⟨hp, him⟩

theorem PInv.leaf_iff {c : Ctx G cw F} {P : Plan G F T} {H0 H : NxGraph ℕ} (hH : c.DualSpec T H0)
    {o : Matrix (Fin G.nodes.length) (Fin G.nodes.length) ℂ} (h : PInv P H0 H Z o) {x : ℕ} (hx : x ∈ H.nodes)
    (hr : x < F.length - 1) :
    H.degree x = 1 ↔ ∀ j ∈ H.nodes, j < F.length - 1 → P.par j ≠ x := by
  have hlt : ∀ e ∈ H.edges, e.1 < e.2 := by
    intro e he
    rw [h.edges] at he
    exact (hH.lt e (List.mem_of_mem_filter he)).1
  have hnd : H.edges.Nodup := by rw [h.edges]; exact hH.nodup.filter _
  unfold NxGraph.degree
  rw [degree_eq hlt]
  have hinc : ∀ i, ((P.pe i).1 = x ∨ (P.pe i).2 = x) ↔ i = x ∨ P.par i = x := by
    intro i
    simp only [Plan.pe]
    omega
  have hpx : P.pe x ∈ H.edges.filter fun e => e.1 = x ∨ e.2 = x := by
    rw [List.mem_filter]
    refine ⟨(h.mem_edges hH _).2 ⟨x, hx, hr, rfl⟩, ?_⟩
    simpa using (hinc x).2 (Or.inl rfl)
  constructor
  · intro hl j hj hjr hp
    obtain ⟨y, hy⟩ := List.length_eq_one_iff.1 hl
    have hpj : P.pe j ∈ H.edges.filter fun e => e.1 = x ∨ e.2 = x := by
      rw [List.mem_filter]
      refine ⟨(h.mem_edges hH _).2 ⟨j, hj, hjr, rfl⟩, ?_⟩
      simpa using (hinc j).2 (Or.inr hp)
    rw [hy, List.mem_singleton] at hpx hpj
    have := P.pe_inj hjr hr (hpj.trans hpx.symm)
    rw [this] at hp
    have := P.rk_lt hr
    rw [hp] at this
    omega
  · intro hch
    have : (H.edges.filter fun e => e.1 = x ∨ e.2 = x) = [P.pe x] := by
      rw [List.mem_filter] at hpx
      refine filter_eq_singleton_of hnd hpx.1 ?_
      intro e he
      constructor
      · intro hex
        obtain ⟨i, him, hi, rfl⟩ := (h.mem_edges hH e).1 he
        rcases (hinc i).1 (by simpa using hex) with rfl | hh
        · rfl
        · exact absurd hh (hch i him hi)
      · rintro rfl
        simpa using (hinc x).2 (Or.inl rfl)
    rw [this]; rfl

theorem listGet_ok {α : Type} {l : List α} {i : ℕ} (h : i < l.length) : listGet l i = .ok l[i] := by
  unfold listGet
  rw [List.getElem?_eq_getElem h]

theorem processLeaves_ok (c : Ctx G cw F) {P : Plan G F T} {H0 : NxGraph ℕ} :
    ∀ (leaves : List ℕ) (H : NxGraph ℕ) (o : Matrix (Fin G.nodes.length) (Fin G.nodes.length) ℂ), PInv P H0 H Z o →
      leaves.Nodup → (∀ a ∈ leaves, a ∈ H.nodes ∧ a < F.length - 1 ∧ ∀ j ∈ H.nodes, j < F.length - 1 → P.par j ≠ a) →
      ∃ H' o', processLeaves F leaves (H, o) = .ok (H', o') ∧ PInv P H0 H' Z o' ∧
        H'.nodes.length + leaves.length = H.nodes.length := by
  intro leaves
  induction leaves with
  | nil => intro H o h _ _; exact ⟨H, o, rfl, h, by simp⟩
  | cons a l ih =>
    intro H o h hnd hl
    obtain ⟨ha, har, hac⟩ := hl a (by simp)
    obtain ⟨o1, ho1, h1⟩ := h.step c ha har hac
    have hmem : ∀ i, i ∈ (H.removeNode a).nodes ↔ i ≠ a ∧ i ∈ H.nodes := fun i => h.nodup.mem_erase_iff
    obtain ⟨H', o', hp, hinv, hlen⟩ := ih (H.removeNode a) o1 h1 (List.nodup_cons.1 hnd).2 (by
      intro b hb
      obtain ⟨hb1, hb2, hb3⟩ := hl b (by simp [hb])
      refine ⟨(hmem b).2 ⟨?_, hb1⟩, hb2, fun j hj => hb3 j ((hmem j).1 hj).2⟩
      rintro rfl
      exact (List.nodup_cons.1 hnd).1 hb)
    refine ⟨H', o', ?_, hinv, ?_⟩
    · unfold processLeaves at hp ⊢
      rw [List.foldlM_cons]
      simp only [bind, Except.bind, listGet_ok (by omega : a < F.length), ho1, pure, Except.pure]
      exact hp
    · have : (H.removeNode a).nodes.length + 1 = H.nodes.length := by
        have h2 : (H.removeNode a).nodes.length = H.nodes.length - 1 := List.length_erase_of_mem ha
        have h3 := List.length_pos_of_mem ha
        omega
      simp only [List.length_cons]
      omega

theorem PInv.leaves_ne {c : Ctx G cw F} {P : Plan G F T} {H0 H : NxGraph ℕ} (hH : c.DualSpec T H0)
    {o : Matrix (Fin G.nodes.length) (Fin G.nodes.length) ℂ} (h : PInv P H0 H Z o) (hl : H.nodes.length > 1) :
    (H.nodes.filter fun x => H.degree x = 1 ∧ x ≠ F.length - 1) ≠ [] := by
  have hne : (H.nodes.toFinset.erase (F.length - 1)).Nonempty := by
    rw [← Finset.card_pos, Finset.card_erase_of_mem (by simpa using h.root), List.toFinset_card_of_nodup h.nodup]
    omega
  obtain ⟨x, hx, hmax⟩ := Finset.exists_max_image _ P.rk hne
  simp only [Finset.mem_erase, List.mem_toFinset] at hx hmax
  have hxr : x < F.length - 1 := by
    have := h.sub x hx.2
    omega
  have hd : H.degree x = 1 := by
    rw [h.leaf_iff hH hx.2 hxr]
    intro j hj hjr hp
    have h1 := P.rk_lt hjr
    have h2 := hmax j ⟨by omega, hj⟩
    rw [hp] at h1
    omega
  apply List.ne_nil_of_mem (a := x)
  rw [List.mem_filter]
  refine ⟨hx.2, ?_⟩
  simp [hd, hx.1]

theorem leafLoop_ok (c : Ctx G cw F) {P : Plan G F T} {H0 : NxGraph ℕ} (hH : c.DualSpec T H0) :
    ∀ (fuel : ℕ) (H : NxGraph ℕ) (o : Matrix (Fin G.nodes.length) (Fin G.nodes.length) ℂ), PInv P H0 H Z o →
      H.nodes.length ≤ fuel → ∃ H' o', leafLoop F (F.length - 1) fuel (H, o) = .ok o' ∧ PInv P H0 H' Z o' ∧
        H'.nodes.length ≤ 1 := by
  intro fuel
  induction fuel with
  | zero =>
    intro H o h hl
    refine ⟨H, o, ?_, h, by omega⟩
    rw [leafLoop, if_neg (by simp only; omega)]
  | succ fuel ih =>
    intro H o h hl
    rw [leafLoop]
    by_cases hlen : H.nodes.length > 1
    · rw [if_pos hlen]
      have hne := h.leaves_ne hH hlen
      simp only
      rw [if_neg hne]
      obtain ⟨H1, o1, hp, h1, hl1⟩ := processLeaves_ok c
        (H.nodes.filter fun x => H.degree x = 1 ∧ x ≠ F.length - 1) H o h (h.nodup.filter _) (by
        intro a ha
        rw [List.mem_filter] at ha
        obtain ⟨ha1, ha2⟩ := ha
        have ha2 := of_decide_eq_true ha2
        have har : a < F.length - 1 := by
          have := h.sub a ha1
          omega
        exact ⟨ha1, har, (h.leaf_iff hH ha1 har).1 ha2.1⟩)
      have hpos := List.length_pos_iff.2 hne
      obtain ⟨H', o', hp', h', hl'⟩ := ih H1 o1 h1 (by omega)
      refine ⟨H', o', ?_, h', hl'⟩
      simp only [bind, Except.bind]
      rw [hp]
      exact hp'
    · rw [if_neg hlen]
      exact ⟨H, o, rfl, h, by omega⟩

/-- the array with the edges of `T` oriented upwards -/
noncomputable def treeArr {n : ℕ} (T : List Dart) (o : Matrix (Fin n) (Fin n) ℂ) : Matrix (Fin n) (Fin n) ℂ :=
  open Classical in
  fun i j => if inT T i j then (if i < j then 1 else -1) else o i j

theorem orientTree_ok {n : ℕ} : ∀ (T : List Dart) (o : Matrix (Fin n) (Fin n) ℂ),
    (∀ e ∈ T, e.1 < n ∧ e.2 < n ∧ e.1 ≠ e.2) → orientTree T o = .ok (treeArr T o) := by
  classical
  intro T
  induction T with
  | nil =>
    intro o _
    simp only [orientTree, List.foldlM_nil, pure, Except.pure]
    congr 1
    funext i j
    simp [treeArr, inT]
  | cons e T ih =>
    intro o h
    obtain ⟨h1, h2, h3⟩ := h e (by simp)
    have ih' := fun o => ih o (fun e he => h e (by simp [he]))
    unfold orientTree at ih' ⊢
    have hb1 : min e.1 e.2 < n ∧ max e.1 e.2 < n := by omega
    have hb2 : max e.1 e.2 < n ∧ min e.1 e.2 < n := by omega
    rw [List.foldlM_cons]
    simp only [bind, Except.bind, setEntry, if_pos hb1, if_pos hb2] at ih' ⊢
    refine (ih' _).trans ?_
    congr 1
    funext i j
    have hcons : inT (e :: T) i j ↔ inT T i j ∨ ((i.1 = e.1 ∧ j.1 = e.2) ∨ (j.1 = e.1 ∧ i.1 = e.2)) := by
      simp only [inT, List.mem_cons, Prod.ext_iff]
      tauto
    simp only [treeArr]
    by_cases hij : inT T i j
    · rw [if_pos hij, if_pos (hcons.2 (Or.inl hij))]
    · rw [if_neg hij]
      have hiff : inT (e :: T) i j ↔ ((i.1 = e.1 ∧ j.1 = e.2) ∨ (j.1 = e.1 ∧ i.1 = e.2)) := by
        rw [hcons]; simp [hij]
      by_cases hc : (i.1 = e.1 ∧ j.1 = e.2) ∨ (j.1 = e.1 ∧ i.1 = e.2)
      · rw [if_pos (hiff.2 hc)]
        have hlt : i < j ↔ i.1 < j.1 := Iff.rfl
        simp only [hlt]
        split_ifs <;> first | rfl | omega
      · rw [if_neg (fun h => hc (hiff.1 h))]
        split_ifs <;> first | rfl | omega

theorem maxNode_range {k : ℕ} (h : 0 < k) : maxNode (List.range k) = .ok (k - 1) := by
  obtain ⟨k, rfl⟩ : ∃ j, k = j + 1 := ⟨k - 1, by omega⟩
  have key : ∀ (l : List ℕ) (x : ℕ), l.foldl max x = max x (l.foldl max 0) := by
    intro l
    induction l with
    | nil => simp
    | cons y l ih => intro x; rw [List.foldl_cons, ih, List.foldl_cons, ih (max 0 y)]; omega
  have hr : ∀ k, (List.range (k + 1)).foldl max 0 = k := by
    intro k
    induction k with
    | zero => simp
    | succ k ih => rw [List.range_succ, List.foldl_append, ih]; simp
  cases hl : List.range (k + 1) with
  | nil => simp at hl
  | cons x xs =>
    have := hr k
    rw [hl, List.foldl_cons, key] at this
    rw [maxNode, key]
    congr 1

/-- What is known about the returned orientation. -/
structure PfoSpec (G : NxGraph ℕ) (F : List (List Dart)) (T : List Dart)
    (O : Matrix (Fin G.nodes.length) (Fin G.nodes.length) ℝ) : Prop where
  tree : ∀ u v : Fin G.nodes.length, u < v → inT T u v → O u v = 1 ∧ O v u = -1
  nonedge : ∀ u v : Fin G.nodes.length, ¬ G.hasEdge u v → O u v = 0
  symm : ∀ u v : Fin G.nodes.length, ¬ inT T u v → O u v = O v u
  edge : ∀ u v : Fin G.nodes.length, G.hasEdge u v → O u v = 1 ∨ O u v = -1
  face : ∀ (i : ℕ) (hi : i < F.length - 1),
    ((F[i]).map fun d => upper O d * if d.1 > d.2 then -1 else 1).prod = -1

theorem adjacency_symm' {α : Type} [DecidableEq α] {G : NxGraph α} (h : Spec.IsSimple G) (u v : Fin G.nodes.length) :
    G.adjacency u v = G.adjacency v u := by
  simp only [NxGraph.adjacency]
  have hs : G.hasEdge (G.nodes.get u) (G.nodes.get v) ↔ G.hasEdge (G.nodes.get v) (G.nodes.get u) := ⟨Or.symm, Or.symm⟩
  rw [if_congr hs rfl rfl, h.weight_symm]

/-- The state before the loop over the leaves. -/
theorem Ctx.start (c : Ctx G cw F) (nx : Nx) {T : List Dart} (hT : Spec.IsSpanningTree G T)
    (hup : ∀ e ∈ edgesNotInT G T, e.1 < e.2) (ho : ∀ l, (nx.setOrder l).Perm l) (P : Plan G F T) :
    PInv P (dualGraphH nx G F T) (dualGraphH nx G F T) (fun i j => (G.adjacency i j : ℂ) * (99 * Complex.I))
      (treeArr T fun i j => (G.adjacency i j : ℂ) * (99 * Complex.I)) := by
  classical
  have hH := c.dual_spec hT hup nx ho
  have hFpos := c.faces.pos c.ne
  have hn := c.pos
  set o0 : Matrix (Fin G.nodes.length) (Fin G.nodes.length) ℂ :=
    fun i j => (G.adjacency i j : ℂ) * (99 * Complex.I) with ho0
  have hre : ∀ i j, (o0 i j).re = 0 := by intro i j; simp [ho0]
  have hnodes := hH.nodes
  have hTe : ∀ u v : Fin G.nodes.length, inT T u v → G.hasEdge u v := by
    rintro u v (h | h)
    · exact hT.sub _ h
    · exact NxGraph.hasEdge_symm (hT.sub _ h)
  refine ⟨?_, ?_, ?_, ?_, ?_, ?_, ?_, ?_, ?_, ?_⟩
  · rw [hnodes]; exact List.nodup_range
  · intro i hi; rw [hnodes] at hi; simpa using hi
  · rw [hnodes]; simp; omega
  · intro i hi hil; rw [hnodes]; simpa using P.par_lt hil
  · symm
    rw [List.filter_eq_self]
    intro e he
    have := hH.lt e he
    rw [hnodes]
    simp
    omega
  · intro u v huv ht
    simp only [treeArr]
    rw [if_pos ht, if_pos ht.symm, if_pos huv, if_neg (by omega)]
    exact ⟨rfl, rfl⟩
  · intro u v hne
    simp only [treeArr]
    rw [if_neg (fun h => hne (hTe u v h))]
  · intro u v hnt
    simp only [treeArr]
    rw [if_neg hnt, if_neg (fun h => hnt h.symm)]
    simp only [ho0]
    rw [adjacency_symm' c.simple]
  · intro i hi hni
    exact absurd (by rw [hnodes]; simpa using hi) hni
  · intro i hi hil
    have hb := c.lt_of_edge (P.adj hil)
    unfold upper
    have hb1 : min (P.δ i).1 (P.δ i).2 < G.nodes.length ∧ max (P.δ i).1 (P.δ i).2 < G.nodes.length := by omega
    rw [dif_pos hb1]
    simp only [treeArr]
    rw [if_neg]
    · exact hre _ _
    · intro hh
      apply P.notT hil
      rcases le_total (P.δ i).1 (P.δ i).2 with h | h
      · simpa only [min_eq_left h, max_eq_right h] using hh
      · have := hh.symm
        simpa only [min_eq_right h, max_eq_left h] using this

/-- The tree is oriented without an exception. -/
theorem Ctx.orient (c : Ctx G cw F) (nx : Nx) (hT : Spec.IsSpanningTree G (nx.maximumSpanningTree G))
    (o : Matrix (Fin G.nodes.length) (Fin G.nodes.length) ℂ) :
    orientTree (nx.maximumSpanningTree G) o = .ok (treeArr (nx.maximumSpanningTree G) o) := orientTree_ok _ _ (by
  intro e he
  have h1 := hT.sub e he
  have h2 := c.lt_of_edge h1
  refine ⟨h2.1, h2.2, ?_⟩
  intro h3
  rw [h3] at h1
  exact c.simple.irrefl _ h1)

theorem pfoAlgorithm_ok (c : Ctx G cw F) (nx : Nx) (hT : Spec.IsSpanningTree G (nx.maximumSpanningTree G))
    (hup : ∀ e ∈ edgesNotInT G (nx.maximumSpanningTree G), e.1 < e.2)
    (ho : ∀ l, (nx.setOrder l).Perm l) (hF : faces nx G (nx.checkPlanarity G) = .ok (some F)) :
    ∃ O, pfoAlgorithm nx G = .ok O ∧ PfoSpec G F (nx.maximumSpanningTree G) O := by
  classical
  set T := nx.maximumSpanningTree G with hTdef
  obtain ⟨P⟩ := c.exists_plan hT
  have hH := c.dual_spec hT hup nx ho
  have hFpos := c.faces.pos c.ne
  have hn := c.pos
  set o0 : Matrix (Fin G.nodes.length) (Fin G.nodes.length) ℂ :=
    fun i j => (G.adjacency i j : ℂ) * (99 * Complex.I) with ho0
  have hinv := c.start nx hT hup ho P
  obtain ⟨H', o', hloop, h', hlen⟩ := leafLoop_ok c hH _ _ _ hinv (le_refl _)
  have hdone : ∀ i, i < F.length - 1 → i ∉ H'.nodes := by
    intro i hi hm
    have hr := h'.root
    match hn' : H'.nodes, hlen with
    | [], _ => rw [hn'] at hm; simp at hm
    | [y], _ =>
      rw [hn', List.mem_singleton] at hm hr
      omega
  refine ⟨fun i j => (o' i j).re, ?_, ?_⟩
  · unfold pfoAlgorithm
    have hA : adjacencyMatrix G = .ok G.adjacency := by rw [adjacencyMatrix, if_neg (by omega)]
    simp only [bind, Except.bind, hA, hF]
    have hot : orientTree T o0 = .ok (treeArr T o0) := c.orient nx hT _
    rw [← hTdef, if_neg (not_not.2 hH.tree)]
    erw [hot]
    simp only
    have hmax : maxNode (dualGraphH nx G F T).nodes = .ok (F.length - 1) := by
      rw [hH.nodes, maxNode_range hFpos]
    rw [hmax]
    simp only
    rw [hloop]
    rfl
  · have hedge : ∀ d : Dart, G.hasEdge d.1 d.2 → upper o' d = 1 ∨ upper o' d = -1 := by
      intro d hd
      rcases h'.status c hd with h | ⟨j, hj, hjr, _⟩
      · exact h
      · exact absurd hj (hdone j hjr)
    have hedge2 : ∀ u v : Fin G.nodes.length, G.hasEdge u v → o' u v = 1 ∨ o' u v = -1 := by
      intro u v huv
      have hne : u ≠ v := by rintro rfl; exact c.simple.irrefl _ huv
      rcases lt_or_gt_of_ne hne with hlt | hlt
      · rw [← upper_eq o' hlt]
        exact hedge (u.1, v.1) huv
      · by_cases ht : inT T u v
        · exact Or.inr (h'.tree v u hlt ht.symm).2
        · rw [h'.symm u v ht, ← upper_eq o' hlt]
          exact hedge (v.1, u.1) (NxGraph.hasEdge_symm huv)
    refine ⟨?_, ?_, ?_, ?_, ?_⟩
    · intro u v huv ht
      have := h'.tree u v huv ht
      rw [this.1, this.2]; simp
    · intro u v hne
      simp [h'.nonedge u v hne]
    · intro u v ht
      simp only [h'.symm u v ht]
    · intro u v huv
      rcases hedge2 u v huv with h | h <;> rw [h] <;> simp
    · intro i hi
      have hp := (h'.done i (by omega) (hdone i hi)).2
      have hmap : (F[i]).map (dsign o') = ((F[i]).map fun d =>
          upper (fun i j => (o' i j).re) d * if d.1 > d.2 then (-1 : ℝ) else 1).map (fun x : ℝ => (x : ℂ)) := by
        rw [List.map_map]
        apply List.map_congr_left
        intro d hd
        have hde := c.faces.mem_edge (List.getElem_mem _) hd
        have hb := c.lt_of_edge hde
        have hb1 : min d.1 d.2 < G.nodes.length ∧ max d.1 d.2 < G.nodes.length := by omega
        have hu := hedge d hde
        simp only [Function.comp_apply, dsign]
        have h1 : upper o' d = ((upper (fun i j => (o' i j).re) d : ℝ) : ℂ) := by
          simp only [upper, dif_pos hb1] at hu ⊢
          rcases hu with h | h <;> rw [h] <;> simp
        rw [h1, prefixSign]
        push_cast
        split_ifs <;> simp
      rw [hmap] at hp
      have hp2 : ((((F[i]).map fun d => upper (fun i j => (o' i j).re) d * if d.1 > d.2 then (-1 : ℝ) else 1).prod : ℝ) : ℂ) = ((-1 : ℝ) : ℂ) := by
        rw [← Complex.ofRealHom_eq_coe, map_list_prod]
        exact hp.trans (by norm_num)
      exact_mod_cast hp2

end FF
