import Verif.Proofs.Pfo3
import Verif.Proofs.FKT
import Verif.Proofs.DirectSum

/-!
# Counting perfect matchings with the Pfaffian orientation
-/

namespace FF
open Verif.Kasteleyn Equiv

variable {G : NxGraph ℕ} {cw : ℕ → ℕ → ℕ} {F : List (List Dart)} {T : List Dart}

/-- the orientation bits -/
noncomputable def obit {n : ℕ} (O : Matrix (Fin n) (Fin n) ℝ) (u v : Fin n) : ZMod 2 :=
  if u < v then (if O u v = 1 then 0 else 1) else 1 + (if O v u = 1 then 0 else 1)

theorem zmod2_one_add_one : (1 : ZMod 2) + 1 = 0 := by decide

theorem chi_one (K : Type) [Ring K] : chi K (1 : ZMod 2) = -1 := by simp [chi]

theorem chi_inj {a b : ZMod 2} (h : chi ℝ a = chi ℝ b) : a = b := by
  have hz : ∀ z : ZMod 2, z = 0 ∨ z = 1 := by decide
  rcases hz a with rfl | rfl <;> rcases hz b with rfl | rfl <;> simp [chi] at h ⊢ <;> norm_num at h

theorem chi_obit {n : ℕ} {O : Matrix (Fin n) (Fin n) ℝ} {u v : Fin n} (hne : u ≠ v) (h : O u v = 1 ∨ O u v = -1)
    (h' : O v u = 1 ∨ O v u = -1) :
    chi ℝ (obit O u v) = if u < v then O u v else - O v u := by
  unfold obit
  split_ifs with h1 h2 h2
  · rw [h2]; simp [chi]
  · rcases h with h | h
    · exact absurd h h2
    · rw [h]; simp [chi]
  · rw [h2]; simp [chi]
  · rcases h' with h | h
    · exact absurd h h2
    · rw [h, zmod2_one_add_one]; simp [chi]

theorem upper_prefix {n : ℕ} {O : Matrix (Fin n) (Fin n) ℝ} {u v : Fin n} (hne : u ≠ v) :
    upper O (u.1, v.1) * (if u.1 > v.1 then -1 else 1) = if u < v then O u v else - O v u := by
  unfold upper
  rcases lt_or_gt_of_ne hne with hlt | hlt
  · have h1 : min u.1 v.1 = u.1 := min_eq_left (le_of_lt hlt)
    have h2 : max u.1 v.1 = v.1 := max_eq_right (le_of_lt hlt)
    have h3 : ¬ u.1 > v.1 := by have : u.1 < v.1 := hlt; omega
    simp only [h1, h2, if_pos hlt, if_neg h3]
    rw [dif_pos ⟨u.2, v.2⟩]; simp
  · have h1 : min u.1 v.1 = v.1 := min_eq_right (le_of_lt hlt)
    have h2 : max u.1 v.1 = u.1 := max_eq_left (le_of_lt hlt)
    have h3 : u.1 > v.1 := hlt
    have h4 : ¬ u < v := not_lt.2 (le_of_lt hlt)
    simp only [h1, h2, if_neg h4, if_pos h3]
    rw [dif_pos ⟨v.2, u.2⟩]; simp

open Classical in
/-- the sum over the directed edges of a face is the sum over the list -/
theorem Ctx.sum_face (c : Ctx G cw F) (i : Fin F.length) {M : Type} [AddCommMonoid M]
    (g : Fin G.nodes.length → Fin G.nodes.length → M) (g' : Dart → M)
    (hg : ∀ u v : Fin G.nodes.length, (u.1, v.1) ∈ F.get i → g u v = g' (u.1, v.1)) :
    (∑ d : {d : Fin G.nodes.length × Fin G.nodes.length // c.toEmb.adj d.1 d.2},
      if c.toEmb.face d.1.1 d.1.2 = i then g d.1.1 d.1.2 else 0) = ((F.get i).map g').sum := by
  have hnd : (F.get i).Nodup := (List.nodup_flatten.1 c.faces.nodup).1 _ (List.get_mem F i)
  have h1 : ((F.get i).map g').sum = ∑ d ∈ (F.get i).toFinset, g' d := by
    rw [List.sum_toFinset _ hnd]
  rw [h1, ← Finset.sum_filter]
  refine Finset.sum_bij (fun d _ => (d.1.1.1, d.1.2.1)) ?_ ?_ ?_ ?_
  · intro d hd
    rw [Finset.mem_filter] at hd
    rw [List.mem_toFinset]
    have := c.faceV_spec (u := d.1.1) (v := d.1.2) d.2
    rw [← hd.2]
    exact this
  · intro d _ d' _ h
    simp only [Prod.mk.injEq] at h
    exact Subtype.ext (Prod.ext (Fin.ext h.1) (Fin.ext h.2))
  · intro d hd
    rw [List.mem_toFinset] at hd
    have he := c.faces.mem_edge (List.get_mem F i) hd
    have hb := c.lt_of_edge he
    refine ⟨⟨(⟨d.1, hb.1⟩, ⟨d.2, hb.2⟩), he⟩, ?_, rfl⟩
    rw [Finset.mem_filter]
    exact ⟨Finset.mem_univ _, c.faceV_eq hd⟩
  · intro d hd
    rw [Finset.mem_filter] at hd
    apply hg
    rw [← hd.2]
    exact c.faceV_spec (u := d.1.1) (v := d.1.2) d.2

theorem PfoSpec.chi (c : Ctx G cw F) {O} (h : PfoSpec G F T O) {u v : Fin G.nodes.length} (hd : G.hasEdge u v) :
    chi ℝ (obit O u v) = if u < v then O u v else - O v u := by
  have hne : u ≠ v := by rintro rfl; exact c.simple.irrefl _ hd
  exact chi_obit hne (h.edge u v hd) (h.edge v u (NxGraph.hasEdge_symm hd))

theorem obit_skew {n : ℕ} (O : Matrix (Fin n) (Fin n) ℝ) {u v : Fin n} (hne : u ≠ v) :
    obit O u v + obit O v u = 1 := by
  have hz : ∀ z : ZMod 2, z + (1 + z) = 1 ∧ (1 + z) + z = 1 := by decide
  unfold obit
  rcases lt_or_gt_of_ne hne with hlt | hlt
  · rw [if_pos hlt, if_neg (not_lt.2 (le_of_lt hlt))]; exact (hz _).1
  · rw [if_pos hlt, if_neg (not_lt.2 (le_of_lt hlt))]; exact (hz _).2

theorem list_chi_sum (l : List Dart) (g : Dart → ZMod 2) : chi ℝ ((l.map g).sum) = (l.map fun d => chi ℝ (g d)).prod := by
  induction l with
  | nil => simp [FF.chi]
  | cons d l ih => rw [List.map_cons, List.sum_cons, chi_add, ih, List.map_cons, List.prod_cons]

open Classical in
theorem PfoSpec.face_sum (c : Ctx G cw F) {O} (h : PfoSpec G F T O) (i : Fin F.length) :
    FF.chi ℝ (∑ d : {d : Fin G.nodes.length × Fin G.nodes.length // c.toEmb.adj d.1 d.2},
      if c.toEmb.face d.1.1 d.1.2 = i then obit O d.1.1 d.1.2 else 0)
      = ((F.get i).map fun d => upper O d * if d.1 > d.2 then -1 else 1).prod := by
  rw [c.sum_face i (obit O) (fun d => if hb : d.1 < G.nodes.length ∧ d.2 < G.nodes.length then
    obit O ⟨d.1, hb.1⟩ ⟨d.2, hb.2⟩ else 0) (by
      intro u v _
      rw [dif_pos ⟨u.2, v.2⟩]), list_chi_sum]
  congr 1
  apply List.map_congr_left
  intro d hd
  have he := c.faces.mem_edge (List.get_mem F i) hd
  have hb := c.lt_of_edge he
  rw [dif_pos hb, h.chi c (u := ⟨d.1, hb.1⟩) (v := ⟨d.2, hb.2⟩) he,
    ← upper_prefix (fun hh => by
      have : d.1 = d.2 := congrArg Fin.val hh
      rw [this] at he
      exact c.simple.irrefl _ he)]

theorem PfoSpec.odd (c : Ctx G cw F) (hT : Spec.IsSpanningTree G T) {O} (h : PfoSpec G F T O)
    (he : Even G.nodes.length) : Odd' c.toEmb (obit O) := by
  classical
  have hskew : ∀ u v, c.toEmb.adj u v → obit O u v + obit O v u = 1 := by
    intro u v huv
    apply obit_skew
    rintro rfl
    exact c.simple.irrefl _ huv
  refine ⟨hskew, ?_⟩
  have hpos := c.faces.pos c.ne
  have hin : ∀ i : Fin F.length, i.1 < F.length - 1 →
      (∑ d : {d : Fin G.nodes.length × Fin G.nodes.length // c.toEmb.adj d.1 d.2},
        if c.toEmb.face d.1.1 d.1.2 = i then obit O d.1.1 d.1.2 else 0) = 1 := by
    intro i hi
    apply chi_inj
    rw [h.face_sum c i, chi_one]
    exact h.face i.1 hi
  -- the last face, by parity
  set root : Fin F.length := ⟨F.length - 1, by omega⟩ with hroot
  obtain ⟨R, hR⟩ := c.exists_rtree hT
  obtain ⟨C, hC⟩ := R.exists_coTree root
  have hall : ∑ d : {d : Fin G.nodes.length × Fin G.nodes.length // c.toEmb.adj d.1 d.2}, obit O d.1.1 d.1.2
      = ((G.nodes.length - 1 : ℕ) : ZMod 2) + ((F.length - 1 : ℕ) : ZMod 2) := by
    rw [C.sum_darts (obit O)]
    congr 1
    · rw [Finset.sum_congr rfl (fun v _ => hskew _ _ (R.adj v.2)), Finset.sum_const, Finset.card_univ,
        nsmul_eq_mul, mul_one, Fintype.card_subtype_compl]
      simp
    · rw [Finset.sum_congr rfl (fun f _ => hskew _ _ (C.adj f.2)), Finset.sum_const, Finset.card_univ,
        nsmul_eq_mul, mul_one, Fintype.card_subtype_compl]
      simp
  have hsplit : ∑ d : {d : Fin G.nodes.length × Fin G.nodes.length // c.toEmb.adj d.1 d.2}, obit O d.1.1 d.1.2
      = ∑ i : Fin F.length, ∑ d : {d : Fin G.nodes.length × Fin G.nodes.length // c.toEmb.adj d.1 d.2},
        if c.toEmb.face d.1.1 d.1.2 = i then obit O d.1.1 d.1.2 else 0 := by
    rw [Finset.sum_comm]
    apply Finset.sum_congr rfl
    intro d _
    rw [Finset.sum_ite_eq]
    simp
  have hrest : ∑ i ∈ Finset.univ.erase root, (∑ d : {d : Fin G.nodes.length × Fin G.nodes.length // c.toEmb.adj d.1 d.2},
        if c.toEmb.face d.1.1 d.1.2 = i then obit O d.1.1 d.1.2 else 0) = ((F.length - 1 : ℕ) : ZMod 2) := by
    rw [Finset.sum_congr rfl (fun i hi => hin i (by
      have h1 : i ≠ root := (Finset.mem_erase.1 hi).1
      have h2 : i.1 ≠ F.length - 1 := fun hh => h1 (Fin.ext hh)
      have := i.2
      omega)), Finset.sum_const, Finset.card_erase_of_mem (Finset.mem_univ _), nsmul_eq_mul, mul_one]
    simp
  intro i
  by_cases hi : i.1 < F.length - 1
  · exact hin i hi
  · have hir : i = root := Fin.ext (by have := i.2; simp only [hroot]; omega)
    rw [hir]
    rw [hall, ← Finset.add_sum_erase _ _ (Finset.mem_univ root), hrest] at hsplit
    have := add_right_cancel hsplit
    rw [← this]
    obtain ⟨k, hk⟩ := he
    have hn := c.pos
    have h1 : ((G.nodes.length - 1 : ℕ) : ZMod 2) + 1 = 0 := by
      have h2 : (((G.nodes.length - 1 : ℕ) + 1 : ℕ) : ZMod 2) = 0 := by
        rw [show G.nodes.length - 1 + 1 = k + k by omega]
        push_cast
        exact Emb.zmod2_add_self _
      exact_mod_cast h2
    have h3 : ∀ z : ZMod 2, z + 1 = 0 → z = 1 := by decide
    exact h3 _ h1

theorem fkt_gen {n : ℕ} {Φ : Type} [Fintype Φ] [DecidableEq Φ] {E : Emb (Fin n) Φ} {e : Fin n → Fin n → ZMod 2}
    (A : Matrix (Fin n) (Fin n) ℝ) (hsymm : A.IsSymm) (hskew : ∀ u v, E.adj u v → e u v + e v u = 1)
    (hO : Even n → Odd' E e) (hA : ∀ u v, ¬ E.adj u v → A u v = 0) :
    ∃ x, hf A = .ok x ∧ Matrix.det (fun u v => signed ℝ E e u v * A u v) = x ^ 2 := by
  have hsk : (Matrix.transpose fun u v => signed ℝ E e u v * A u v) = -(fun u v => signed ℝ E e u v * A u v) := by
    funext u v
    show signed ℝ E e v u * A v u = -(signed ℝ E e u v * A u v)
    rw [signed_skew hskew v u, hsymm.apply u v]
    ring
  rcases Nat.even_or_odd' n with ⟨m, rfl | rfl⟩
  · refine ⟨hfVal A, hf_ok A, ?_⟩
    rw [← pfVal_sq _ hsk]
    rcases fkt (hO (by simp)) A hA with h | h <;> rw [h]
    ring
  · refine ⟨0, hf_odd (by omega) A, ?_⟩
    obtain ⟨x, hx, hd⟩ := pf_sq_gen _ hsk
    have hx' := hx.symm.trans (pf_odd (by omega) _)
    injection hx' with hx'
    rw [hd, hx']

theorem numbered_get (h : Spec.IsNumbered G) (i : Fin G.nodes.length) : G.nodes.get i = i.1 := by
  unfold Spec.IsNumbered at h
  have : G.nodes[i.1]? = (List.range G.nodes.length)[i.1]? := by rw [← h]
  rw [List.getElem?_eq_getElem i.2, List.getElem?_range i.2] at this
  exact Option.some.inj this

theorem adjacency_numbered (h : Spec.IsNumbered G) (u v : Fin G.nodes.length) :
    G.adjacency u v = if G.hasEdge u.1 v.1 then G.weight u.1 v.1 else 0 := by
  unfold NxGraph.adjacency
  simp only [numbered_get h]

theorem adjacency_symm {α : Type} [DecidableEq α] {G : NxGraph α} (h : Spec.IsSimple G) : G.adjacency.IsSymm := by
  ext u v
  simp only [Matrix.transpose_apply, NxGraph.adjacency]
  have hs : G.hasEdge (G.nodes.get u) (G.nodes.get v) ↔ G.hasEdge (G.nodes.get v) (G.nodes.get u) := ⟨Or.symm, Or.symm⟩
  rw [if_congr hs rfl rfl, h.weight_symm]

theorem pfoMatrix_eq (c : Ctx G cw F) {O} (h : PfoSpec G F T O) :
    pfoMatrix O G.adjacency = fun u v => signed ℝ c.toEmb (obit O) u v * G.adjacency u v := by
  classical
  funext u v
  have hs := (adjacency_symm c.simple).apply u v
  simp only [pfoMatrix, npTriu, signed]
  by_cases huv : G.hasEdge u.1 v.1
  · rw [if_pos (show c.toEmb.adj u v from huv), h.chi c huv]
    have hne : u ≠ v := by rintro rfl; exact c.simple.irrefl _ huv
    rcases lt_or_gt_of_ne hne with hlt | hlt
    · rw [if_pos hlt.le, if_neg (not_le.2 hlt), if_pos hlt]; ring
    · rw [if_neg (not_le.2 hlt), if_pos hlt.le, if_neg (not_lt.2 hlt.le), hs]; ring
  · rw [if_neg (show ¬ c.toEmb.adj u v from huv), zero_mul, h.nonedge u v huv,
      h.nonedge v u (fun hh => huv (NxGraph.hasEdge_symm hh))]
    simp

/-- the entries of the adjacency matrix at pairs of positions that are also adjacent labels -/
def maskedAdjacency (G : NxGraph ℕ) : Matrix (Fin G.nodes.length) (Fin G.nodes.length) ℝ :=
  fun u v => if G.hasEdge u.1 v.1 then G.adjacency u v else 0

/-- the determinant computed by `count_perfect_matchings_planar` is the square of a hafnian -/
theorem det_pfoMatrix (c : Ctx G cw F) (hT : Spec.IsSpanningTree G T) {O} (h : PfoSpec G F T O) :
    ∃ x, hf (maskedAdjacency G) = .ok x ∧ (pfoMatrix O G.adjacency).det = x ^ 2 := by
  have hm : (fun u v => signed ℝ c.toEmb (obit O) u v * G.adjacency u v) =
      fun u v => signed ℝ c.toEmb (obit O) u v * maskedAdjacency G u v := by
    funext u v
    by_cases huv : G.hasEdge u.1 v.1
    · rw [maskedAdjacency, if_pos huv]
    · rw [signed, if_neg (show ¬ c.toEmb.adj u v from huv), zero_mul, zero_mul]
  rw [pfoMatrix_eq c h, hm]
  refine fkt_gen _ ?_ ?_ (h.odd c hT) ?_
  · ext u v
    have hs : G.hasEdge u.1 v.1 ↔ G.hasEdge v.1 u.1 := ⟨Or.symm, Or.symm⟩
    simp only [Matrix.transpose_apply, maskedAdjacency]
    rw [if_congr hs rfl rfl, (adjacency_symm c.simple).apply u v]
  · intro u v huv
    apply obit_skew
    rintro rfl
    exact c.simple.irrefl _ huv
  · intro u v huv
    exact if_neg huv

end FF
