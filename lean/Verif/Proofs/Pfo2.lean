import Verif.Proofs.Pfo

/-!
# The loop over the leaves of the dual tree
-/

namespace FF
open Verif.Kasteleyn

/-- membership of an edge in a list of edges, in either orientation -/
def inT (T : List Dart) (u v : ℕ) : Prop := (u, v) ∈ T ∨ (v, u) ∈ T

theorem inT.symm {T : List Dart} {u v : ℕ} (h : inT T u v) : inT T v u := Or.symm h

/-- The edges outside of the spanning tree, as a tree of faces rooted at the last face. -/
structure Plan (G : NxGraph ℕ) (F : List (List Dart)) (T : List Dart) where
  δ : ℕ → Dart
  par : ℕ → ℕ
  rk : ℕ → ℕ
  adj : ∀ {i}, i < F.length - 1 → G.hasEdge (δ i).1 (δ i).2
  notT : ∀ {i}, i < F.length - 1 → ¬ inT T (δ i).1 (δ i).2
  face : ∀ {i}, i < F.length - 1 → fIdx F (δ i) = i
  face' : ∀ {i}, i < F.length - 1 → fIdx F ((δ i).2, (δ i).1) = par i
  par_lt : ∀ {i}, i < F.length - 1 → par i < F.length
  rk_lt : ∀ {i}, i < F.length - 1 → rk (par i) < rk i
  cover : ∀ {u v}, G.hasEdge u v → ¬ inT T u v → ∃ i, i < F.length - 1 ∧ ((u, v) = δ i ∨ (v, u) = δ i)

variable {G : NxGraph ℕ} {cw : ℕ → ℕ → ℕ} {F : List (List Dart)} {T : List Dart}
  {Z : Matrix (Fin G.nodes.length) (Fin G.nodes.length) ℂ}

theorem Ctx.exists_plan (c : Ctx G cw F) (hT : Spec.IsSpanningTree G T) : Nonempty (Plan G F T) := by
  classical
  obtain ⟨R, hR⟩ := c.exists_rtree hT
  have hpos := c.faces.pos c.ne
  obtain ⟨C, hC⟩ := R.exists_coTree (⟨F.length - 1, by omega⟩ : Fin F.length)
  have hne : ∀ {i} (hi : i < F.length - 1), (⟨i, by omega⟩ : Fin F.length) ≠ C.R := by
    intro i hi h
    rw [hC] at h
    have := congrArg Fin.val h
    simp only at this
    omega
  have hval : ∀ {i} (hi : i < F.length - 1), ∀ {α : Type} (f : Fin F.length → α) (d : α),
      (if h : i < F.length then f ⟨i, h⟩ else d) = f ⟨i, by omega⟩ := by
    intro i hi α f d
    rw [dif_pos (by omega : i < F.length)]
  refine ⟨⟨fun i => if h : i < F.length then ((C.δ ⟨i, h⟩).1.1, (C.δ ⟨i, h⟩).2.1) else (0, 0),
    fun i => if h : i < F.length then (c.faceV (C.δ ⟨i, h⟩).2 (C.δ ⟨i, h⟩).1).1 else 0,
    fun i => if h : i < F.length then C.rk ⟨i, h⟩ else 0, ?_, ?_, ?_, ?_, ?_, ?_, ?_⟩⟩
  · intro i hi
    simp only [dif_pos (by omega : i < F.length)]
    exact C.adj (hne hi)
  · intro i hi
    simp only [dif_pos (by omega : i < F.length)]
    intro h
    exact C.notT (hne hi) ((hR _ _).2 h)
  · intro i hi
    simp only [dif_pos (by omega : i < F.length)]
    have h := C.face (hne hi)
    have ha : G.hasEdge _ _ := C.adj (hne hi)
    rw [Ctx.toEmb_face] at h
    rw [← c.faceV_val ha, h]
  · intro i hi
    simp only [dif_pos (by omega : i < F.length)]
    have ha : G.hasEdge _ _ := C.adj (hne hi)
    rw [← c.faceV_val (NxGraph.hasEdge_symm ha)]
  · intro i hi
    simp only [dif_pos (by omega : i < F.length)]
    exact Fin.isLt _
  · intro i hi
    simp only [dif_pos (by omega : i < F.length), Fin.is_lt, dif_pos, Fin.eta]
    exact C.rk_lt (hne hi)
  · intro u v ha hn
    have hb := c.lt_of_edge ha
    obtain ⟨f, hf, hfd⟩ := C.eq_of_notT (u := ⟨u, hb.1⟩) (v := ⟨v, hb.2⟩) ha (fun h => hn ((hR _ _).1 h))
    have hf1 : f.1 < F.length - 1 := by
      have h1 := f.2
      have h2 : f.1 ≠ F.length - 1 := by
        intro h
        apply hf
        rw [hC]
        exact Fin.ext h
      omega
    refine ⟨f.1, hf1, ?_⟩
    simp only [dif_pos f.2, Fin.eta]
    rcases hfd with h | h
    · left; rw [← h]
    · right; rw [← h]

namespace Plan
variable (P : Plan G F T)

theorem δ_inj {i j : ℕ} (hi : i < F.length - 1) (hj : j < F.length - 1) (h : sortDart (P.δ i) = sortDart (P.δ j)) :
    i = j := by
  rcases sortDart_eq_iff.1 h with h | h
  · rw [← P.face hi, ← P.face hj, h]
  · have h1 : i = P.par j := by rw [← P.face hi, ← P.face' hj, h]
    have h2 : P.par i = j := by
      rw [← P.face' hi, ← P.face hj, h]
    have h3 := P.rk_lt hi
    have h4 := P.rk_lt hj
    rw [h2] at h3
    rw [← h1] at h4
    omega

/-- the dual edge of a face to its parent -/
def pe (i : ℕ) : ℕ × ℕ := (min i (P.par i), max i (P.par i))

theorem pe_inj {i j : ℕ} (hi : i < F.length - 1) (hj : j < F.length - 1) (h : P.pe i = P.pe j) : i = j := by
  simp only [pe, Prod.mk.injEq] at h
  have h3 := P.rk_lt hi
  have h4 := P.rk_lt hj
  by_contra hne
  have h1 : i = P.par j := by omega
  have h2 : j = P.par i := by omega
  rw [← h2] at h3
  rw [← h1] at h4
  omega

theorem mem_dual {c : Ctx G cw F} {H : NxGraph ℕ} (hH : c.DualSpec T H) (e : ℕ × ℕ) :
    e ∈ H.edges ↔ ∃ i, i < F.length - 1 ∧ e = P.pe i := by
  rw [hH.edges.mem_iff, List.mem_map]
  have hde : ∀ {i} (hi : i < F.length - 1), Ctx.dualEdge F (P.δ i) = P.pe i := by
    intro i hi
    simp only [Ctx.dualEdge, P.face hi, P.face' hi, pe]
  have hde' : ∀ {i} (hi : i < F.length - 1), Ctx.dualEdge F ((P.δ i).2, (P.δ i).1) = P.pe i := by
    intro i hi
    simp only [Ctx.dualEdge, P.face hi, P.face' hi, pe]
    rw [min_comm, max_comm]
  constructor
  · rintro ⟨f, hf, rfl⟩
    rw [Ctx.mem_edgesNotInT] at hf
    obtain ⟨i, hi, h | h⟩ := P.cover (u := f.1) (v := f.2) (Or.inl hf.1) hf.2
    · refine ⟨i, hi, ?_⟩
      rw [← hde hi, ← h]
    · refine ⟨i, hi, ?_⟩
      rw [← hde' hi, ← h]
  · rintro ⟨i, hi, rfl⟩
    have hn := P.notT hi
    rcases P.adj hi with h | h
    · exact ⟨P.δ i, Ctx.mem_edgesNotInT.2 ⟨h, hn⟩, hde hi⟩
    · exact ⟨((P.δ i).2, (P.δ i).1), Ctx.mem_edgesNotInT.2 ⟨h, fun hh => hn (Or.symm hh)⟩, hde' hi⟩

end Plan

/-- The invariant of the loop over the leaves. -/
structure PInv (P : Plan G F T) (H0 H : NxGraph ℕ) (Z o : Matrix (Fin G.nodes.length) (Fin G.nodes.length) ℂ) : Prop where
  nodup : H.nodes.Nodup
  sub : ∀ i ∈ H.nodes, i < F.length
  root : F.length - 1 ∈ H.nodes
  closed : ∀ i ∈ H.nodes, i < F.length - 1 → P.par i ∈ H.nodes
  edges : H.edges = H0.edges.filter fun e => e.1 ∈ H.nodes ∧ e.2 ∈ H.nodes
  tree : ∀ u v : Fin G.nodes.length, u < v → inT T u v → o u v = 1 ∧ o v u = -1
  nonedge : ∀ u v : Fin G.nodes.length, ¬ G.hasEdge u v → o u v = Z u v
  symm : ∀ u v : Fin G.nodes.length, ¬ inT T u v → o u v = o v u
  done : ∀ (i : ℕ) (hi : i < F.length), i ∉ H.nodes →
    (upper o (P.δ i) = 1 ∨ upper o (P.δ i) = -1) ∧ ((F[i]).map (dsign o)).prod = -1
  todo : ∀ i ∈ H.nodes, i < F.length - 1 → (upper o (P.δ i)).re = 0

theorem upper_eq {n : ℕ} (o : Matrix (Fin n) (Fin n) ℂ) {u v : Fin n} (h : u < v) : upper o (u.1, v.1) = o u v := by
  have h1 : min u.1 v.1 = u.1 := min_eq_left h.le
  have h2 : max u.1 v.1 = v.1 := max_eq_right h.le
  simp only [upper, h1, h2]
  rw [dif_pos ⟨u.2, v.2⟩]

theorem PInv.status (c : Ctx G cw F) {P : Plan G F T} {H0 H : NxGraph ℕ}
    {o : Matrix (Fin G.nodes.length) (Fin G.nodes.length) ℂ} (h : PInv P H0 H Z o) {d : Dart}
    (hd : G.hasEdge d.1 d.2) : (upper o d = 1 ∨ upper o d = -1) ∨
      ∃ j ∈ H.nodes, j < F.length - 1 ∧ (d = P.δ j ∨ (d.2, d.1) = P.δ j) ∧ (upper o d).re = 0 := by
  by_cases ht : inT T d.1 d.2
  · left; left
    have hb := c.lt_of_edge hd
    have hne : d.1 ≠ d.2 := by
      intro hh
      rw [hh] at hd
      exact c.simple.irrefl _ hd
    rcases lt_or_gt_of_ne hne with hlt | hlt
    · have := upper_eq o (u := ⟨d.1, hb.1⟩) (v := ⟨d.2, hb.2⟩) hlt
      rw [← (h.tree ⟨d.1, hb.1⟩ ⟨d.2, hb.2⟩ hlt ht).1, ← this]
    · have := upper_eq o (u := ⟨d.2, hb.2⟩) (v := ⟨d.1, hb.1⟩) hlt
      rw [← (h.tree ⟨d.2, hb.2⟩ ⟨d.1, hb.1⟩ hlt ht.symm).1, ← this]
      exact (upper_swap o d).symm
  · obtain ⟨j, hj, hjd⟩ := P.cover hd ht
    have hu : upper o d = upper o (P.δ j) := by
      rcases hjd with hh | hh
      · rw [← hh]
      · rw [← hh]; exact (upper_swap o d).symm
    by_cases hm : j ∈ H.nodes
    · right
      exact ⟨j, hm, hj, hjd, by rw [hu]; exact h.todo j hm hj⟩
    · left
      rw [hu]
      exact (h.done j (by omega) hm).1

theorem filter_eq_singleton_of {α : Type} [DecidableEq α] {p : α → Bool} {l : List α} (hl : l.Nodup) {a : α}
    (ha : a ∈ l) (hp : ∀ d ∈ l, p d = true ↔ d = a) : l.filter p = [a] := by
  have h1 : l.filter p = l.filter (fun d => d = a) := by
    apply List.filter_congr
    intro d hd
    rw [Bool.eq_iff_iff, hp d hd]
    simp
  rw [h1, List.filter_eq, List.count_eq_one_of_mem hl ha]
  rfl

theorem PInv.step (c : Ctx G cw F) {P : Plan G F T} {H0 H : NxGraph ℕ}
    {o : Matrix (Fin G.nodes.length) (Fin G.nodes.length) ℂ} (h : PInv P H0 H Z o) {a : ℕ} (ha : a ∈ H.nodes)
    (hroot : a < F.length - 1) (hch : ∀ j ∈ H.nodes, j < F.length - 1 → P.par j ≠ a) :
    ∃ o', completeFace o (F[a]'(by omega)) = .ok (o', true) ∧ PInv P H0 (H.removeNode a) Z o' := by
  classical
  have haF : a < F.length := by omega
  have hnd : ∀ (i : ℕ) (hi : i < F.length), (F[i]).Nodup := fun i hi =>
    (List.nodup_flatten.1 c.faces.nodup).1 _ (List.getElem_mem hi)
  have hδm : P.δ a ∈ F[a] := by
    have := c.faces.fIdx_mem (P.adj hroot)
    simpa only [P.face hroot] using this
  have hopen : ∀ d ∈ F[a], isOpen o d ↔ d = P.δ a := by
    intro d hd
    have hde := c.faces.mem_edge (List.getElem_mem haF) hd
    constructor
    · intro ho
      rcases h.status c hde with hs | ⟨j, hjm, hj, hjd, -⟩
      · exact absurd ho (isclose_re_one hs)
      · rcases hjd with hh | hh
        · have : j = a := by rw [← P.face hj, ← hh]; exact c.faces.fIdx_eq hd
          rw [hh, this]
        · exfalso
          apply hch j hjm hj
          rw [← P.face' hj, ← hh]
          exact c.faces.fIdx_eq hd
    · rintro rfl
      exact isclose_re_zero (h.todo a ha hroot)
  obtain ⟨x, hx, hcf, hprod⟩ := completeFace_ok o F[a] (P.δ a)
    (fun d hd => c.lt_of_edge (c.faces.mem_edge (List.getElem_mem haF) hd))
    (filter_eq_singleton_of (hnd a haF) hδm (fun d hd => by simpa using hopen d hd))
    (fun d hd ho => by
      rcases h.status c (c.faces.mem_edge (List.getElem_mem haF) hd) with hs | ⟨j, _, _, _, hz⟩
      · exact hs
      · exact absurd (isclose_re_zero hz) ho)
  have hbδ := c.lt_of_edge (P.adj hroot)
  have hmem : ∀ i, i ∈ (H.removeNode a).nodes ↔ i ≠ a ∧ i ∈ H.nodes := by
    intro i
    exact h.nodup.mem_erase_iff
  have hup : ∀ d, sortDart d ≠ sortDart (P.δ a) → upper (setBoth o (P.δ a) x) d = upper o d := by
    intro d hd
    rw [upper_setBoth hbδ, if_neg hd]
  have hpar := h.closed a ha hroot
  have hset : ∀ u v : Fin G.nodes.length, ¬ ((u.1 = (P.δ a).1 ∧ v.1 = (P.δ a).2) ∨ (u.1 = (P.δ a).2 ∧ v.1 = (P.δ a).1)) →
      setBoth o (P.δ a) x u v = o u v := fun u v hn => if_neg hn
  have hsetT : ∀ u v : Fin G.nodes.length, inT T u v → setBoth o (P.δ a) x u v = o u v := by
    intro u v ht
    apply hset
    rintro (⟨h1, h2⟩ | ⟨h1, h2⟩)
    · rw [h1, h2] at ht; exact P.notT hroot ht
    · rw [h1, h2] at ht; exact P.notT hroot ht.symm
  refine ⟨_, hcf, ?_, ?_, ?_, ?_, ?_, ?_, ?_, ?_, ?_, ?_⟩
  · exact h.nodup.erase a
  · intro i hi; exact h.sub i ((hmem i).1 hi).2
  · exact (hmem _).2 ⟨by omega, h.root⟩
  · intro i hi hil
    have hi' := (hmem i).1 hi
    exact (hmem _).2 ⟨hch i hi'.2 hil, h.closed i hi'.2 hil⟩
  · show (H.edges.filter _) = _
    rw [h.edges, List.filter_filter]
    apply List.filter_congr
    intro e _
    rw [Bool.eq_iff_iff]
    simp only [Bool.and_eq_true, decide_eq_true_eq, hmem]
    tauto
  · intro u v huv ht
    rw [hsetT u v ht, hsetT v u ht.symm]
    exact h.tree u v huv ht
  · intro u v hn
    rw [hset]
    · exact h.nonedge u v hn
    · rintro (⟨h1, h2⟩ | ⟨h1, h2⟩)
      · apply hn; rw [h1, h2]; exact P.adj hroot
      · apply hn; rw [h1, h2]; exact NxGraph.hasEdge_symm (P.adj hroot)
  · intro u v ht
    have := h.symm u v ht
    simp only [setBoth]
    rw [this]
    split_ifs <;> first | rfl | omega
  · intro i hi hni
    rw [hmem] at hni
    by_cases hia : i = a
    · subst hia
      refine ⟨?_, hprod⟩
      rw [upper_setBoth hbδ, if_pos rfl]
      exact hx
    · have hni' : i ∉ H.nodes := fun hh => hni ⟨hia, hh⟩
      have hil : i < F.length - 1 := by
        have : i ≠ F.length - 1 := by rintro rfl; exact hni' h.root
        omega
      obtain ⟨h1, h2⟩ := h.done i hi hni'
      constructor
      · rw [hup _ (fun hh => hia (P.δ_inj hil hroot hh))]
        exact h1
      · rw [← h2]
        congr 1
        apply List.map_congr_left
        intro d hd
        unfold dsign
        rw [hup]
        intro hh
        rcases sortDart_eq_iff.1 hh with hh | hh
        · apply hia
          rw [← P.face hroot, ← hh]
          exact (c.faces.fIdx_eq hd).symm
        · apply hni'
          have : i = P.par a := by
            rw [← P.face' hroot, ← hh]
            exact (c.faces.fIdx_eq hd).symm
          rw [this]
          exact hpar
  · intro i hi hil
    have hi' := (hmem i).1 hi
    rw [hup _ (fun hh => hi'.1 (P.δ_inj hil hroot hh))]
    exact h.todo i hi'.2 hil

end FF
