import Verif.Proofs.Embedding

/-! # The dual graph -/

namespace FF

open Verif.Kasteleyn

theorem sortDart_eq_iff {d e : Dart} : sortDart d = sortDart e ↔ d = e ∨ d = (e.2, e.1) := by
  obtain ⟨a, b⟩ := d
  obtain ⟨x, y⟩ := e
  simp only [sortDart, Prod.mk.injEq]
  omega

theorem sortDart_swap (d : Dart) : sortDart (d.2, d.1) = sortDart d :=
  sortDart_eq_iff.2 (Or.inr rfl)

section scan
variable {fe : List (List Dart)} {e : Dart}

theorem dualScan_some_found {u : ℕ} {l₁ l₂ : List (List Dart)} {f : List Dart} (h : ∀ x ∈ l₁, e ∉ x) (hf : e ∈ f) :
    dualScan fe e (some u) (l₁ ++ f :: l₂) = some (u, fe.idxOf f) := by
  induction l₁ with
  | nil => simp [dualScan, hf]
  | cons x xs ih =>
    have hx := h x (by simp)
    simp only [List.cons_append, dualScan, hx, if_false]
    exact ih fun y hy => h y (by simp [hy])

theorem dualScan_none_found {l₁ l₂ : List (List Dart)} {f : List Dart} (h : ∀ x ∈ l₁, e ∉ x) (hf : e ∈ f) :
    dualScan fe e none (l₁ ++ f :: l₂) = dualScan fe e (some (fe.idxOf f)) l₂ := by
  induction l₁ with
  | nil => simp [dualScan, hf]
  | cons x xs ih =>
    have hx := h x (by simp)
    simp only [List.cons_append, dualScan, hx, if_false]
    exact ih fun y hy => h y (by simp [hy])

theorem dualScan_none {l : List (List Dart)} (h : ∀ x ∈ l, e ∉ x) : dualScan fe e none l = none := by
  induction l with
  | nil => rfl
  | cons x xs ih =>
    have hx := h x (by simp)
    simp only [dualScan, hx, if_false]
    exact ih fun y hy => h y (by simp [hy])

theorem dualScan_two (hnd : fe.Nodup) {i j : ℕ} (hi : i < fe.length) (hj : j < fe.length) (hij : i < j)
    (hmem : ∀ (k : ℕ) (hk : k < fe.length), e ∈ fe[k] ↔ k = i ∨ k = j) :
    dualScan fe e none fe = some (i, j) := by
  have h1 : fe = fe.take i ++ fe[i] :: fe.drop (i + 1) := by
    rw [List.getElem_cons_drop, List.take_append_drop]
  have h2 : fe.drop (i + 1) = (fe.drop (i + 1)).take (j - i - 1) ++ fe[j] :: fe.drop (j + 1) := by
    have hj' : j - i - 1 < (fe.drop (i + 1)).length := by rw [List.length_drop]; omega
    have h3 : fe[j] = (fe.drop (i + 1))[j - i - 1] := by
      rw [List.getElem_drop]; congr 1; omega
    have h4 : fe.drop (j + 1) = (fe.drop (i + 1)).drop (j - i - 1 + 1) := by
      rw [List.drop_drop]; congr 1; omega
    rw [h3, h4, List.getElem_cons_drop, List.take_append_drop]
  have hl1 : ∀ x ∈ fe.take i, e ∉ x := by
    intro x hx
    obtain ⟨k, hk, rfl⟩ := List.mem_iff_getElem.1 hx
    rw [List.length_take] at hk
    rw [List.getElem_take, hmem]
    omega
  have hl2 : ∀ x ∈ (fe.drop (i + 1)).take (j - i - 1), e ∉ x := by
    intro x hx
    obtain ⟨k, hk, rfl⟩ := List.mem_iff_getElem.1 hx
    rw [List.length_take, List.length_drop] at hk
    rw [List.getElem_take, List.getElem_drop, hmem]
    omega
  have hii : fe.idxOf fe[i] = i := hnd.idxOf_getElem i hi
  have hjj : fe.idxOf fe[j] = j := hnd.idxOf_getElem j hj
  conv_lhs => arg 4; rw [h1]
  rw [dualScan_none_found hl1 ((hmem i hi).2 (Or.inl rfl)), h2,
    dualScan_some_found hl2 ((hmem j hj).2 (Or.inr rfl)), hii, hjj]

end scan

theorem foldl_addEdge (l : List (ℕ × ℕ)) : ∀ (H : NxGraph ℕ), (∀ e ∈ l, e.1 ∈ H.nodes ∧ e.2 ∈ H.nodes) →
    (∀ e ∈ H.edges ++ l, e.1 < e.2) → (H.edges ++ l).Nodup →
    l.foldl NxGraph.addEdge H = { H with edges := H.edges ++ l } := by
  induction l with
  | nil => intro H _ _ _; simp
  | cons e l ih =>
    intro H hn hlt hnd
    have he := hn e (by simp)
    have hnot : ¬ H.hasEdge e.1 e.2 := by
      rintro (h | h)
      · exact (List.nodup_append.1 hnd).2.2 e h e (by simp) rfl
      · have h1 := hlt _ (List.mem_append_left _ h)
        have h2 := hlt e (by simp)
        simp only at h1
        omega
    have hstep : H.addEdge e = { H with edges := H.edges ++ [e] } := by
      simp only [NxGraph.addEdge, if_pos he.1, if_pos he.2, if_neg hnot]
    rw [List.foldl_cons, hstep, ih]
    · simp
    · intro x hx; exact hn x (by simp [hx])
    · simpa using hlt
    · simpa using hnd

/-- the index of the face of a directed edge -/
def fIdx (F : List (List Dart)) (d : Dart) : ℕ := F.findIdx fun f => d ∈ f

theorem IsFaceList.fIdx_lt {G : NxGraph ℕ} {cw : ℕ → ℕ → ℕ} {F : List (List Dart)} (h : IsFaceList G cw F) {d : Dart}
    (hd : G.hasEdge d.1 d.2) : fIdx F d < F.length := by
  obtain ⟨i, hi⟩ := h.exists_face hd
  exact List.findIdx_lt_length.2 ⟨F.get i, List.get_mem F i, by simpa using hi⟩

theorem IsFaceList.fIdx_mem {G : NxGraph ℕ} {cw : ℕ → ℕ → ℕ} {F : List (List Dart)} (h : IsFaceList G cw F) {d : Dart}
    (hd : G.hasEdge d.1 d.2) : d ∈ F[fIdx F d]'(h.fIdx_lt hd) := by
  have := List.findIdx_getElem (xs := F) (p := fun f => decide (d ∈ f)) (w := h.fIdx_lt hd)
  exact of_decide_eq_true this

theorem IsFaceList.fIdx_eq {G : NxGraph ℕ} {cw : ℕ → ℕ → ℕ} {F : List (List Dart)} (h : IsFaceList G cw F) {d : Dart}
    {i : ℕ} {hi : i < F.length} (hd : d ∈ F[i]) : fIdx F d = i := by
  have h1 := h.mem_edge (List.getElem_mem hi) hd
  have h2 := h.unique (i := ⟨_, h.fIdx_lt h1⟩) (j := ⟨i, hi⟩) (h.fIdx_mem h1) hd
  exact congrArg Fin.val h2

/-- two faces never have the same list of undirected edges -/
theorem IsFaceList.fe_nodup {G : NxGraph ℕ} {cw : ℕ → ℕ → ℕ} {F : List (List Dart)} (c : IsFaceList G cw F) : (F.map fun f => f.map sortDart).Nodup := by
  rw [List.nodup_iff_injective_get]
  intro ⟨i, hi⟩ ⟨j, hj⟩ hij
  rw [List.length_map] at hi hj
  simp only [List.get_eq_getElem, List.getElem_map] at hij
  by_contra hne
  have hne' : i ≠ j := fun h => hne (by subst h; rfl)
  have hci := c.cyc _ (List.getElem_mem hi)
  have hcj := c.cyc _ (List.getElem_mem hj)
  have hdis : ∀ d, d ∈ F[i] → d ∉ F[j] := fun d h1 h2 =>
    hne' (congrArg Fin.val (c.unique (i := ⟨i, hi⟩) (j := ⟨j, hj⟩) h1 h2))
  have hei : ∀ d ∈ F[i], G.hasEdge d.1 d.2 := fun d => c.mem_edge (List.getElem_mem hi)
  generalize F[i] = f at *
  generalize F[j] = g at *
  have hlen : f.length = g.length := by
    have := congrArg List.length hij
    simpa using this
  have hf0 : 0 < f.length := List.length_pos_iff.2 hci.ne_nil
  have hg0 : 0 < g.length := List.length_pos_iff.2 hcj.ne_nil
  have hget : ∀ (k : ℕ) (h : k < f.length) (h' : k < g.length), sortDart f[k] = sortDart g[k] := by
    intro k h h'
    have : (f.map sortDart)[k]'(by simpa using h) = (g.map sortDart)[k]'(by simpa using h') := by
      simp only [hij]
    simpa using this
  have hrev : ∀ (k : ℕ) (h : k < f.length) (h' : k < g.length), f[k] = (g[k].2, g[k].1) := by
    intro k h h'
    rcases sortDart_eq_iff.1 (hget k h h') with h1 | h1
    · exact absurd (List.getElem_mem h') (h1 ▸ hdis _ (List.getElem_mem h))
    · exact h1
  have h0 := hrev 0 hf0 hg0
  have hnf := hci.walk.2 0 hf0
  have hng := hcj.walk.2 0 hg0
  have h1 := hrev ((0 + 1) % f.length) (Nat.mod_lt _ hf0) (hlen ▸ Nat.mod_lt _ hf0)
  have hng' : g[(0 + 1) % f.length]'(hlen ▸ Nat.mod_lt _ hf0) = Spec.next cw g[0] := by
    rw [← hng]; congr 1; rw [hlen]
  rw [hng', hnf, h0] at h1
  simp only [Spec.next, Prod.mk.injEq] at h1
  have h2 : f[(0 + 1) % f.length]'(Nat.mod_lt _ hf0) = g[0] := by
    rw [hnf, h0]
    simp only [Spec.next]
    rw [h1.2]
  exact hdis _ (List.getElem_mem (Nat.mod_lt _ hf0)) (by rw [h2]; exact List.getElem_mem hg0)

theorem IsFaceList.mem_fe {G : NxGraph ℕ} {cw : ℕ → ℕ → ℕ} {F : List (List Dart)} (c : IsFaceList G cw F)
    {e : Dart} (he : G.hasEdge e.1 e.2) (hlt : e.1 < e.2) (k : ℕ) (hk : k < F.length) :
    e ∈ (F[k]).map sortDart ↔ k = fIdx F e ∨ k = fIdx F (e.2, e.1) := by
  rw [List.mem_map]
  constructor
  · rintro ⟨d, hd, hde⟩
    have h1 : sortDart d = sortDart e := by
      rw [hde, sortDart, min_eq_left hlt.le, max_eq_right hlt.le]
    rcases sortDart_eq_iff.1 h1 with rfl | h2
    · left; exact (c.fIdx_eq hd).symm
    · right; rw [← h2]; exact (c.fIdx_eq hd).symm
  · have hs : sortDart e = e := by rw [sortDart, min_eq_left hlt.le, max_eq_right hlt.le]
    rintro (rfl | rfl)
    · exact ⟨e, c.fIdx_mem he, hs⟩
    · exact ⟨(e.2, e.1), c.fIdx_mem (NxGraph.hasEdge_symm he), by rw [sortDart_swap, hs]⟩

namespace Ctx
variable {G : NxGraph ℕ} {cw : ℕ → ℕ → ℕ} {F : List (List Dart)}

theorem faceV_val (c : Ctx G cw F) {u v : Fin G.nodes.length} (h : G.hasEdge u.1 v.1) :
    (c.faceV u v).1 = fIdx F (u.1, v.1) := by
  symm
  exact c.faces.fIdx_eq (c.faceV_spec h)

/-- the dual edge of an edge -/
def dualEdge (F : List (List Dart)) (e : Dart) : ℕ × ℕ :=
  (min (fIdx F e) (fIdx F (e.2, e.1)), max (fIdx F e) (fIdx F (e.2, e.1)))

theorem mem_edgesNotInT {T : List Dart} {e : Dart} :
    e ∈ edgesNotInT G T ↔ e ∈ G.edges ∧ ¬ (e ∈ T ∨ (e.2, e.1) ∈ T) := by
  simp [edgesNotInT]

theorem edge_sides {c : Ctx G cw F} {R : RTree c.toEmb} (C : CoTree R) {u v : Fin G.nodes.length}
    (ha : G.hasEdge u.1 v.1) (hn : ¬ R.isT u v) : c.faceV u v ≠ c.faceV v u := by
  obtain ⟨f, hf, h⟩ := C.eq_of_notT ha hn
  have h1 := C.rk_lt hf
  have h2 := C.face hf
  intro he
  rcases h with h | h <;> rw [← h] at h1 h2 <;> simp only [toEmb_face] at h1 h2
  · rw [← he, h2] at h1; exact absurd h1 (lt_irrefl _)
  · rw [he, h2] at h1; exact absurd h1 (lt_irrefl _)

/-- What the dual graph is. -/
structure DualSpec (c : Ctx G cw F) (T : List Dart) (H : NxGraph ℕ) : Prop where
  nodes : H.nodes = List.range F.length
  edges : H.edges.Perm ((edgesNotInT G T).map (dualEdge F))
  nodup : H.edges.Nodup
  lt : ∀ e ∈ H.edges, e.1 < e.2 ∧ e.2 < F.length
  tree : H.isTree

theorem dual_spec (c : Ctx G cw F) {T : List Dart} (hT : Spec.IsSpanningTree G T)
    (hup : ∀ e ∈ edgesNotInT G T, e.1 < e.2) (nx : Nx)
    (ho : ∀ l, (nx.setOrder l).Perm l) : DualSpec c T (dualGraphH nx G F T) := by
  classical
  obtain ⟨R, hR⟩ := c.exists_rtree hT
  obtain ⟨C, -⟩ := R.exists_coTree (⟨0, c.faces.pos c.ne⟩ : Fin F.length)
  set fe := F.map fun f => f.map sortDart with hfe
  have hfel : fe.length = F.length := by simp [hfe]
  -- sides of an edge outside of the tree
  have hside : ∀ e ∈ edgesNotInT G T, e.1 < e.2 ∧ G.hasEdge e.1 e.2 ∧ fIdx F e ≠ fIdx F (e.2, e.1) := by
    intro e he
    have hlt := hup e he
    rw [mem_edgesNotInT] at he
    have h1 : G.hasEdge e.1 e.2 := Or.inl he.1
    have h2 := c.lt_of_edge h1
    refine ⟨hlt, h1, fun h => ?_⟩
    have h3 := edge_sides (c := c) C (u := ⟨e.1, h2.1⟩) (v := ⟨e.2, h2.2⟩) h1 (fun hh => he.2 ((hR _ _).1 hh))
    apply h3
    apply Fin.ext
    rw [c.faceV_val h1, c.faceV_val (NxGraph.hasEdge_symm h1)]
    exact h
  have hscan : ∀ e ∈ edgesNotInT G T, dualScan fe e none fe = some (dualEdge F e) := by
    intro e he
    obtain ⟨hlt, hadj, hne⟩ := hside e he
    have hl1 := c.faces.fIdx_lt hadj
    have hl2 := c.faces.fIdx_lt (d := (e.2, e.1)) (NxGraph.hasEdge_symm hadj)
    apply dualScan_two c.faces.fe_nodup
    · rw [hfel]; omega
    · rw [hfel]; omega
    · omega
    · intro k hk
      rw [hfel] at hk
      have : fe[k]'(by rw [hfel]; exact hk) = (F[k]).map sortDart := by simp [hfe]
      rw [this, c.faces.mem_fe hadj hlt k hk]
      omega
  have hperm := ho (edgesNotInT G T)
  have hfm : (nx.setOrder (edgesNotInT G T)).filterMap (fun e => dualScan fe e none fe)
      = (nx.setOrder (edgesNotInT G T)).map (dualEdge F) := by
    rw [← List.filterMap_eq_map]
    apply List.filterMap_congr
    intro e he
    exact hscan e (hperm.mem_iff.1 he)
  -- distinct edges have distinct dual edges
  have hinj : ∀ e ∈ edgesNotInT G T, ∀ e' ∈ edgesNotInT G T, dualEdge F e = dualEdge F e' → e = e' := by
    intro e he e' he' hd
    obtain ⟨hlt, hadj, hne⟩ := hside e he
    obtain ⟨hlt', hadj', hne'⟩ := hside e' he'
    have hb := c.lt_of_edge hadj
    have hb' := c.lt_of_edge hadj'
    have hn := fun hh => (mem_edgesNotInT.1 he).2 ((hR ⟨e.1, hb.1⟩ ⟨e.2, hb.2⟩).1 hh)
    have hn' := fun hh => (mem_edgesNotInT.1 he').2 ((hR ⟨e'.1, hb'.1⟩ ⟨e'.2, hb'.2⟩).1 hh)
    obtain ⟨f, hf, hfd⟩ := C.eq_of_notT (u := ⟨e.1, hb.1⟩) (v := ⟨e.2, hb.2⟩) hadj hn
    obtain ⟨f', hf', hfd'⟩ := C.eq_of_notT (u := ⟨e'.1, hb'.1⟩) (v := ⟨e'.2, hb'.2⟩) hadj' hn'
    have hq : ∀ (e : Dart) (hb : e.1 < G.nodes.length ∧ e.2 < G.nodes.length) (hadj : G.hasEdge e.1 e.2) (f : Fin F.length)
        (hf : f ≠ C.R) (hfd : ((⟨e.1, hb.1⟩ : Fin G.nodes.length), (⟨e.2, hb.2⟩ : Fin G.nodes.length)) = C.δ f ∨
          ((⟨e.2, hb.2⟩ : Fin G.nodes.length), (⟨e.1, hb.1⟩ : Fin G.nodes.length)) = C.δ f),
        ∃ p : Fin F.length, C.rk p < C.rk f ∧ ((fIdx F e = f.1 ∧ fIdx F (e.2, e.1) = p.1) ∨
          (fIdx F e = p.1 ∧ fIdx F (e.2, e.1) = f.1)) := by
      intro e hb hadj f hf hfd
      have h1 := C.rk_lt hf
      have h2 := C.face hf
      refine ⟨_, h1, ?_⟩
      rcases hfd with h | h
      · left
        rw [← h] at h2 ⊢
        simp only [toEmb_face] at h2 ⊢
        constructor
        · rw [← h2, c.faceV_val hadj]
        · rw [c.faceV_val (NxGraph.hasEdge_symm hadj)]
      · right
        rw [← h] at h2 ⊢
        simp only [toEmb_face] at h2 ⊢
        constructor
        · rw [c.faceV_val hadj]
        · rw [← h2, c.faceV_val (NxGraph.hasEdge_symm hadj)]
    obtain ⟨p, hp, hpf⟩ := hq e hb hadj f hf hfd
    obtain ⟨p', hp', hpf'⟩ := hq e' hb' hadj' f' hf' hfd'
    simp only [dualEdge, Prod.mk.injEq] at hd
    have hff : (f.1 = f'.1 ∧ p.1 = p'.1) ∨ (f.1 = p'.1 ∧ p.1 = f'.1) := by omega
    have hff' : f = f' := by
      rcases hff with h | h
      · exact Fin.ext h.1
      · have h1 := Fin.ext h.1; have h2 := Fin.ext h.2
        rw [h1, h2] at hp
        omega
    subst hff'
    have hs : sortDart e = sortDart e' := by
      rw [sortDart_eq_iff]
      rcases hfd with h | h <;> rcases hfd' with h' | h' <;> rw [← h'] at h <;>
        simp only [Prod.mk.injEq, Fin.mk.injEq] at h
      · left; exact Prod.ext h.1 h.2
      · right; exact Prod.ext h.1 h.2
      · right; exact Prod.ext h.2 h.1
      · left; exact Prod.ext h.2 h.1
    rcases sortDart_eq_iff.1 hs with h | h
    · exact h
    · have h1 : e.1 = e'.2 := by rw [h]
      have h2 : e.2 = e'.1 := by rw [h]
      omega
  have hnodupT : (edgesNotInT G T).Nodup := c.simple.edges_nodup.filter _
  have hnodupO : (nx.setOrder (edgesNotInT G T)).Nodup := hperm.nodup_iff.2 hnodupT
  have hnodup : ((nx.setOrder (edgesNotInT G T)).map (dualEdge F)).Nodup := by
    apply List.Nodup.map_on _ hnodupO
    intro x hx y hy
    exact hinj x (hperm.mem_iff.1 hx) y (hperm.mem_iff.1 hy)
  have hlt : ∀ e ∈ (nx.setOrder (edgesNotInT G T)).map (dualEdge F), e.1 < e.2 ∧ e.2 < F.length := by
    intro e he
    obtain ⟨d, hd, rfl⟩ := List.mem_map.1 he
    obtain ⟨_, hadj, hne⟩ := hside d (hperm.mem_iff.1 hd)
    have hl1 := c.faces.fIdx_lt hadj
    have hl2 := c.faces.fIdx_lt (d := (d.2, d.1)) (NxGraph.hasEdge_symm hadj)
    simp only [dualEdge]
    omega
  have hH : dualGraphH nx G F T = { nodes := List.range F.length, edges := (nx.setOrder (edgesNotInT G T)).map (dualEdge F) } := by
    unfold dualGraphH
    simp only [← hfe, hfm]
    rw [foldl_addEdge]
    · simp [hfel]
    · intro e he
      have := hlt e he
      simp only [List.mem_range, hfel]
      omega
    · intro e he
      exact (hlt e (by simpa using he)).1
    · simpa using hnodup
  have hlen : (edgesNotInT G T).length = F.length - 1 := by
    rw [← List.toFinset_card_of_nodup hnodupT]
    have h1 : (Finset.univ.erase C.R).card = F.length - 1 := by
      rw [Finset.card_erase_of_mem (Finset.mem_univ _), Finset.card_univ, Fintype.card_fin]
    rw [← h1]
    symm
    apply Finset.card_bij (fun f _ => sortDart ((C.δ f).1.1, (C.δ f).2.1))
    · intro f hf
      have hf := Finset.ne_of_mem_erase hf
      rw [List.mem_toFinset, mem_edgesNotInT]
      have ha : G.hasEdge (C.δ f).1.1 (C.δ f).2.1 := C.adj hf
      have hn := C.notT hf
      rw [hR] at hn
      refine ⟨?_, ?_⟩
      · rcases ha with ha | ha
        · have := hup _ (mem_edgesNotInT.2 ⟨ha, hn⟩)
          simp only [sortDart] at this ⊢
          rw [min_eq_left this.le, max_eq_right this.le]; exact ha
        · have := hup _ (mem_edgesNotInT.2 ⟨ha, fun hh => hn (Or.symm hh)⟩)
          simp only [sortDart] at this ⊢
          rw [min_eq_right this.le, max_eq_left this.le]; exact ha
      simp only [sortDart]
      rcases le_total (C.δ f).1.1 (C.δ f).2.1 with h | h
      · rw [min_eq_left h, max_eq_right h]; exact hn
      · rw [min_eq_right h, max_eq_left h]; exact fun hh => hn (Or.symm hh)
    · intro f hf g hg hfg
      have hf := Finset.ne_of_mem_erase hf
      have hg := Finset.ne_of_mem_erase hg
      have h1 := C.rk_lt hf
      have h2 := C.face hf
      have h3 := C.rk_lt hg
      have h4 := C.face hg
      rcases sortDart_eq_iff.1 hfg with h | h <;> simp only [Prod.mk.injEq] at h
      · rw [Fin.ext h.1, Fin.ext h.2, h4] at h2; exact h2.symm
      · rw [Fin.ext h.1, Fin.ext h.2] at h2
        rw [Fin.ext h.1, Fin.ext h.2] at h1
        rw [h2] at h3
        rw [h4] at h1
        omega
    · intro e he
      rw [List.mem_toFinset] at he
      obtain ⟨hlt, hadj, hne⟩ := hside e he
      have hb := c.lt_of_edge hadj
      have hn := fun hh => (mem_edgesNotInT.1 he).2 ((hR ⟨e.1, hb.1⟩ ⟨e.2, hb.2⟩).1 hh)
      obtain ⟨f, hf, hfd⟩ := C.eq_of_notT (u := ⟨e.1, hb.1⟩) (v := ⟨e.2, hb.2⟩) hadj hn
      refine ⟨f, Finset.mem_erase.2 ⟨hf, Finset.mem_univ _⟩, ?_⟩
      have hs : sortDart e = e := by rw [sortDart, min_eq_left hlt.le, max_eq_right hlt.le]
      rcases hfd with h | h <;> rw [← h]
      · exact hs
      · simp only; rw [sortDart_swap e, hs]
  have hpos := c.faces.pos c.ne
  rw [hH]
  refine ⟨rfl, hperm.map _, hnodup, hlt, ?_, ?_⟩
  · simp only [List.length_map, List.length_range, hperm.length_eq, hlen]
    omega
  · intro a ha b hb
    simp only [List.mem_range] at ha hb
    have h := R.dual_conn (⟨a, ha⟩ : Fin F.length) ⟨b, hb⟩
    have key : ∀ x : Fin F.length, Relation.ReflTransGen R.dual ⟨a, ha⟩ x → Relation.ReflTransGen
        (NxGraph.hasEdge ⟨List.range F.length, (nx.setOrder (edgesNotInT G T)).map (dualEdge F), fun _ _ => 1⟩) a x.1 := by
      intro x hx
      induction hx with
      | refl => exact Relation.ReflTransGen.refl
      | @tail y z _ hyz ih =>
        refine ih.tail ?_
        obtain ⟨u, v, hadj, hnT, hy, hz⟩ := hyz
        have hadj' : G.hasEdge u.1 v.1 := hadj
        rw [toEmb_face] at hy hz
        have hyv : y.1 = fIdx F (u.1, v.1) := by rw [← hy, c.faceV_val hadj']
        have hzv : z.1 = fIdx F (v.1, u.1) := by rw [← hz, c.faceV_val (NxGraph.hasEdge_symm hadj')]
        rw [hR] at hnT
        have hmem : ∀ e : Dart, e ∈ edgesNotInT G T → dualEdge F e ∈ (nx.setOrder (edgesNotInT G T)).map (dualEdge F) :=
          fun e he => List.mem_map.2 ⟨e, hperm.mem_iff.2 he, rfl⟩
        have hd : (min y.1 z.1, max y.1 z.1) ∈ (nx.setOrder (edgesNotInT G T)).map (dualEdge F) := by
          rcases hadj' with h | h
          · have := hmem (u.1, v.1) (mem_edgesNotInT.2 ⟨h, hnT⟩)
            rw [dualEdge, ← hyv, ← hzv] at this
            exact this
          · have := hmem (v.1, u.1) (mem_edgesNotInT.2 ⟨h, fun hh => hnT (Or.symm hh)⟩)
            rw [dualEdge, ← hyv, ← hzv, min_comm, max_comm] at this
            exact this
        rcases le_total y.1 z.1 with h | h
        · rw [min_eq_left h, max_eq_right h] at hd; exact Or.inl hd
        · rw [min_eq_right h, max_eq_left h] at hd; exact Or.inr hd
    exact key ⟨b, hb⟩ h

end Ctx
end FF
