import Verif.Spec.Draw
import Verif.Proofs.TreePlane
import Verif.Proofs.Pfo4
import Verif.Proofs.PfoExact

/-!
# Drawings and messages
-/

namespace FF

section
variable {α β : Type}

@[simp] theorem out_pure (a : α) : (pure a : Out α) = ⟨[], .ok a⟩ := rfl

theorem out_bind_ok {es : List Event} {a : α} (f : α → Out β) :
    ((⟨es, .ok a⟩ : Out α) >>= f) = ⟨es ++ (f a).events, (f a).result⟩ := rfl

theorem out_bind_error {es : List Event} {e : PyErr} (f : α → Out β) :
    ((⟨es, .error e⟩ : Out α) >>= f) = ⟨es, .error e⟩ := rfl

theorem out_result_bind (x : Out α) (f : α → Out β) : (x >>= f).result = x.result >>= fun a => (f a).result := by
  obtain ⟨es, r⟩ := x
  cases r <;> rfl

@[simp] theorem out_result_quiet (x : Except PyErr α) : (quiet x).result = x := rfl
@[simp] theorem out_events_quiet (x : Except PyErr α) : (quiet x).events = [] := rfl
@[simp] theorem out_result_emit (e : Event) : (emit e).result = .ok () := rfl
@[simp] theorem out_events_emit (e : Event) : (emit e).events = [e] := rfl

theorem out_result_foldlM (f : β → α → Out β) : ∀ (l : List α) (b : β),
    (l.foldlM f b).result = l.foldlM (fun b a => (f b a).result) b := by
  intro l
  induction l with
  | nil => intro b; rfl
  | cons a l ih =>
    intro b
    rw [List.foldlM_cons, List.foldlM_cons, out_result_bind]
    congr 1
    funext x
    exact ih x

/-- if a computation succeeds after something else, it succeeds alone -/
theorem out_seq_ok {x : Out Unit} {y : Out β} {b : β} (h : (x >>= fun _ => y).result = .ok b) : y.result = .ok b := by
  obtain ⟨es, r⟩ := x
  cases r with
  | error e => cases h
  | ok a => exact h

end

/-! ## The messages do not change the values -/

theorem completeFaceOut_result {n : ℕ} (o : Matrix (Fin n) (Fin n) ℂ) (f : List Dart) :
    (completeFaceOut o f).result = completeFace o f := by
  rw [completeFaceOut, out_result_bind, out_result_quiet]
  rcases hs : scanFace o f with e | s
  · unfold completeFace
    rw [hs]
    rfl
  · show ((when _ _ : Out Unit) >>= fun _ => (when _ _ : Out Unit) >>= fun _ => quiet (completeFace o f)).result = _
    rw [out_result_bind, when]
    split_ifs <;> (simp only [out_result_bind, when]; split_ifs <;> rfl)

theorem processLeavesOut_result (nx : Nx) (G : NxGraph ℕ) (F : List (List Dart)) (leaves : List ℕ)
    (s : NxGraph ℕ × Matrix (Fin G.nodes.length) (Fin G.nodes.length) ℂ) :
    (processLeavesOut nx G false F leaves s).result = processLeaves F leaves s := by
  unfold processLeavesOut processLeaves
  rw [out_result_foldlM]
  congr 1
  funext s leaf
  rw [out_result_bind, out_result_quiet]
  congr 1
  funext face
  rw [out_result_bind, completeFaceOut_result]
  rfl

theorem processLeavesOut_verbose (nx : Nx) (G : NxGraph ℕ) (F : List (List Dart)) : ∀ (leaves : List ℕ)
    (s r : NxGraph ℕ × Matrix (Fin G.nodes.length) (Fin G.nodes.length) ℂ),
    (processLeavesOut nx G true F leaves s).result = .ok r → processLeaves F leaves s = .ok r := by
  intro leaves
  induction leaves with
  | nil => intro s r h; exact h
  | cons a l ih =>
    intro s r h
    unfold processLeavesOut at h ih
    unfold processLeaves at ih ⊢
    rw [List.foldlM_cons, out_result_bind] at h
    rw [List.foldlM_cons]
    rw [out_result_bind, out_result_quiet] at h
    rcases hF : listGet F a with e | face
    · rw [hF] at h; cases h
    rw [hF] at h
    simp only [bind, Except.bind] at h ⊢
    erw [out_result_bind, completeFaceOut_result] at h
    rcases hc : completeFace s.2 face with e | ⟨o, b⟩
    · rw [hc] at h; cases h
    rw [hc] at h
    simp only [bind, Except.bind, if_true] at h ⊢
    split at h
    · cases h
    · next heq =>
      have h2 := out_seq_ok heq
      simp only [pure, Except.ok.injEq] at h2
      rw [← h2] at h
      exact ih _ _ h

theorem leafLoopOut_result (nx : Nx) (G : NxGraph ℕ) (F : List (List Dart)) (root : ℕ) : ∀ (fuel : ℕ)
    (s : NxGraph ℕ × Matrix (Fin G.nodes.length) (Fin G.nodes.length) ℂ),
    (leafLoopOut nx G false F root fuel s).result = leafLoop F root fuel s := by
  intro fuel
  induction fuel with
  | zero =>
    intro s
    rw [leafLoopOut, leafLoop]
    split_ifs <;> rfl
  | succ fuel ih =>
    intro s
    rw [leafLoopOut, leafLoop]
    simp only
    split_ifs
    · rfl
    · rw [out_result_bind, processLeavesOut_result]
      congr 1
      funext s
      exact ih s
    · rfl

theorem leafLoopOut_verbose (nx : Nx) (G : NxGraph ℕ) (F : List (List Dart)) (root : ℕ) : ∀ (fuel : ℕ)
    (s : NxGraph ℕ × Matrix (Fin G.nodes.length) (Fin G.nodes.length) ℂ) (o),
    (leafLoopOut nx G true F root fuel s).result = .ok o → leafLoop F root fuel s = .ok o := by
  intro fuel
  induction fuel with
  | zero =>
    intro s o h
    rw [leafLoopOut] at h
    rw [leafLoop]
    split_ifs at h ⊢
    · cases h
    · exact h
  | succ fuel ih =>
    intro s o h
    rw [leafLoopOut] at h
    rw [leafLoop]
    simp only at h ⊢
    split_ifs at h ⊢
    · exact h
    · rw [out_result_bind] at h
      rcases hp : (processLeavesOut nx G true F
        (List.filter (fun x => decide (s.1.degree x = 1 ∧ x ≠ root)) s.1.nodes) s).result with e | r
      · rw [hp] at h; cases h
      · rw [hp] at h
        rw [processLeavesOut_verbose nx G F _ s r hp]
        exact ih r o h
    · exact h

theorem when_pos {c : Prop} [Decidable c] (h : c) (x : Out Unit) : when c x = x := if_pos h
theorem when_true (x : Out Unit) : when (true = true) x = x := rfl
theorem when_false (x : Out Unit) : when (false = true) x = ⟨[], .ok ()⟩ := rfl

theorem finishPfo_result (nx : Nx) (G : NxGraph ℕ) (o : Matrix (Fin G.nodes.length) (Fin G.nodes.length) ℂ) :
    (finishPfo nx G false o).result = .ok (npReal o) := rfl

theorem finishPfo_verbose (nx : Nx) (G : NxGraph ℕ) (o : Matrix (Fin G.nodes.length) (Fin G.nodes.length) ℂ) (O)
    (h : (finishPfo nx G true o).result = .ok O) : O = npReal o := by
  have h1 := out_seq_ok (out_seq_ok h)
  simpa using h1.symm

theorem pfoOut_result (nx : Nx) (G : NxGraph ℕ) : (pfoAlgorithmOut nx G false).result = pfoAlgorithm nx G := by
  classical
  unfold pfoAlgorithmOut pfoAlgorithm
  rw [when_false, out_bind_ok]
  show (_ >>= _ : Out _).result = _
  rw [out_result_bind, out_result_quiet]
  congr 1
  funext A
  rw [out_result_bind, out_result_quiet]
  congr 1
  funext F
  rcases F with _ | F
  · rfl
  · show (pfoFromFaces nx G false _ F).result = _
    unfold pfoFromFaces
    simp only
    rw [when_false, out_bind_ok]
    show (ite _ _ _ : Out _).result = ite _ _ _
    by_cases h : (dualGraphH nx G F (nx.maximumSpanningTree G)).isTree
    · rw [if_neg (not_not.2 h), if_neg (not_not.2 h)]
      rw [out_result_bind, out_result_quiet]
      congr 1
      funext o
      rw [when_false, out_bind_ok]
      show (_ >>= _ : Out _).result = _
      rw [out_result_bind, out_result_quiet]
      congr 1
      funext root
      rw [out_result_bind, leafLoopOut_result]
      rfl
    · rw [if_pos h, if_pos h]
      rfl

theorem pfoOut_verbose (nx : Nx) (G : NxGraph ℕ) (O) (h : (pfoAlgorithmOut nx G true).result = .ok O) :
    pfoAlgorithm nx G = .ok O := by
  classical
  unfold pfoAlgorithmOut at h
  have h := out_seq_ok h
  unfold pfoAlgorithm
  rw [out_result_bind, out_result_quiet] at h
  rcases hA : adjacencyMatrix G with e | A
  · rw [hA] at h; cases h
  rw [hA] at h
  simp only [bind, Except.bind] at h ⊢
  erw [out_result_bind, out_result_quiet] at h
  rcases hF : faces nx G (nx.checkPlanarity G) with e | F
  · rw [hF] at h; cases h
  rw [hF] at h
  simp only [bind, Except.bind] at h ⊢
  rcases F with _ | F
  · cases h
  · have h : (pfoFromFaces nx G true _ F).result = .ok O := h
    unfold pfoFromFaces at h
    have h := out_seq_ok h
    simp only at h ⊢
    by_cases ht : (dualGraphH nx G F (nx.maximumSpanningTree G)).isTree
    · rw [if_neg (not_not.2 ht)] at h ⊢
      rw [out_result_bind, out_result_quiet] at h
      rcases ho : orientTree (nx.maximumSpanningTree G) (fun i j => (A i j : ℂ) * (99 * Complex.I)) with e | o
      · rw [ho] at h; cases h
      rw [ho] at h
      have h := out_seq_ok h
      simp only
      rw [out_result_bind, out_result_quiet] at h
      rcases hr : maxNode (dualGraphH nx G F (nx.maximumSpanningTree G)).nodes with e | root
      · rw [hr] at h; cases h
      rw [hr] at h
      simp only [bind, Except.bind] at h ⊢
      erw [out_result_bind] at h
      rcases hl : (leafLoopOut nx G true F root (dualGraphH nx G F (nx.maximumSpanningTree G)).nodes.length
        (dualGraphH nx G F (nx.maximumSpanningTree G), o)).result with e | o2
      · erw [hl] at h; cases h
      erw [hl] at h
      rw [leafLoopOut_verbose nx G F root _ _ _ hl]
      rw [finishPfo_verbose nx G o2 O h]
      rfl
    · rw [if_pos ht] at h
      cases h

/-! ## Plots -/

open Classical in
/-- the arrow drawn for an edge -/
noncomputable def arrowOf {n : ℕ} (pfo : Matrix (Fin n) (Fin n) ℝ) (e : Dart) : Option Dart :=
  if upper pfo e < 0 then some (min e.1 e.2, max e.1 e.2)
  else if upper pfo e > 0 then some (max e.1 e.2, min e.1 e.2) else none

theorem drawArrow_ok {n : ℕ} (pfo : Matrix (Fin n) (Fin n) ℝ) {e : Dart} (h : e.1 < n ∧ e.2 < n) :
    drawArrow pfo e = ⟨(arrowOf pfo e).toList.map fun d => .arrow d.1 d.2, .ok ()⟩ := by
  have h' : min e.1 e.2 < n ∧ max e.1 e.2 < n := ⟨lt_of_le_of_lt (min_le_left _ _) h.1, max_lt h.1 h.2⟩
  unfold drawArrow arrowOf upper
  simp only [get2, dif_pos h']
  show (⟨_, .ok _⟩ >>= _ : Out Unit) = _
  rw [out_bind_ok]
  split_ifs <;> rfl

theorem drawArrow_error {n : ℕ} (pfo : Matrix (Fin n) (Fin n) ℝ) {e : Dart} (h : ¬ (e.1 < n ∧ e.2 < n)) :
    drawArrow pfo e = ⟨[], .error .indexError⟩ := by
  have h' : ¬ (min e.1 e.2 < n ∧ max e.1 e.2 < n) := by omega
  unfold drawArrow
  simp only [get2, dif_neg h']
  rfl

theorem drawArrows_ok {n : ℕ} (pfo : Matrix (Fin n) (Fin n) ℝ) : ∀ l : List Dart, (∀ e ∈ l, e.1 < n ∧ e.2 < n) →
    forEach (drawArrow pfo) l = ⟨(l.filterMap (arrowOf pfo)).map fun d => .arrow d.1 d.2, .ok ()⟩ := by
  intro l
  induction l with
  | nil => intro _; rfl
  | cons e l ih =>
    intro h
    rw [forEach, drawArrow_ok pfo (h e (by simp)), out_bind_ok, ih fun x hx => h x (by simp [hx])]
    rcases ha : arrowOf pfo e with _ | d
    · simp [ha]
    · simp [ha]

theorem drawArrows_error {n : ℕ} (pfo : Matrix (Fin n) (Fin n) ℝ) : ∀ l : List Dart, (∃ e ∈ l, ¬ (e.1 < n ∧ e.2 < n)) →
    ∃ a : List Dart, forEach (drawArrow pfo) l = ⟨a.map fun d => .arrow d.1 d.2, .error .indexError⟩ := by
  intro l
  induction l with
  | nil => rintro ⟨e, he, -⟩; simp at he
  | cons e l ih =>
    intro h
    by_cases he : e.1 < n ∧ e.2 < n
    · obtain ⟨a, ha⟩ := ih (by
        obtain ⟨x, hx, hb⟩ := h
        rcases List.mem_cons.1 hx with rfl | hx
        · exact absurd he hb
        · exact ⟨x, hx, hb⟩)
      refine ⟨(arrowOf pfo e).toList ++ a, ?_⟩
      rw [forEach, drawArrow_ok pfo he, out_bind_ok, ha]
      simp
    · refine ⟨[], ?_⟩
      rw [forEach, drawArrow_error pfo he, out_bind_error]
      rfl

/-- the title asked for -/
def titleEvents (title : Option String) : List Event := (title.filter fun s => s ≠ "").toList.map .title

theorem drawTitle_eq (title : Option String) : drawTitle title = ⟨titleEvents title, .ok ()⟩ := by
  rcases title with _ | s
  · rfl
  · rw [drawTitle, when, titleEvents]
    by_cases h : s = ""
    · simp [h]
    · simp [h, emit, Option.filter]

theorem plot_none {m n : ℕ} {nx : Nx} {G : NxGraph ℕ} (hp : (nx.checkPlanarity G).isSome) (title : Option String) :
    plotPlanarEmbedding (m := m) (n := n) nx G none title =
      ⟨[.nodes G.nodes, .edges G.edges "gray", .labels G.nodes] ++ titleEvents title ++ [.show], .ok ()⟩ := by
  have hl : planarLayout nx G = .ok () := by rw [planarLayout, if_pos hp]; split_ifs <;> rfl
  unfold plotPlanarEmbedding
  rw [hl, drawTitle_eq]
  simp [quiet, emit, out_bind_ok, drawOrientation]

theorem plot_some {n : ℕ} {nx : Nx} {G : NxGraph ℕ} (hp : (nx.checkPlanarity G).isSome) (pfo : Matrix (Fin n) (Fin n) ℝ)
    (hb : ∀ e ∈ G.edges, e.1 < n ∧ e.2 < n) (title : Option String) :
    plotPlanarEmbedding nx G (some pfo) title =
      ⟨[.nodes G.nodes, .edges G.edges "gray", .labels G.nodes, .title "Planar Embedding with Oriented Faces"] ++
        ((G.edges.filterMap (arrowOf pfo)).map fun d => .arrow d.1 d.2) ++ titleEvents title ++ [.show], .ok ()⟩ := by
  have hl : planarLayout nx G = .ok () := by rw [planarLayout, if_pos hp]; split_ifs <;> rfl
  unfold plotPlanarEmbedding
  rw [hl, drawTitle_eq, drawOrientation, drawArrows_ok pfo _ hb]
  simp [quiet, emit, out_bind_ok]

theorem plot_index {n : ℕ} {nx : Nx} {G : NxGraph ℕ} (hp : (nx.checkPlanarity G).isSome) (pfo : Matrix (Fin n) (Fin n) ℝ)
    (hb : ∃ e ∈ G.edges, ¬ (e.1 < n ∧ e.2 < n)) (title : Option String) :
    ∃ a : List Dart, plotPlanarEmbedding nx G (some pfo) title =
      ⟨[.nodes G.nodes, .edges G.edges "gray", .labels G.nodes, .title "Planar Embedding with Oriented Faces"] ++
        a.map fun d => .arrow d.1 d.2, .error .indexError⟩ := by
  have hl : planarLayout nx G = .ok () := by rw [planarLayout, if_pos hp]; split_ifs <;> rfl
  obtain ⟨a, ha⟩ := drawArrows_error pfo _ hb
  refine ⟨a, ?_⟩
  unfold plotPlanarEmbedding
  rw [hl, drawTitle_eq, drawOrientation, ha]
  simp [quiet, emit, out_bind_ok, out_bind_error]

theorem plot_nonplanar {m n : ℕ} {nx : Nx} {G : NxGraph ℕ} (hp : nx.checkPlanarity G = none) (hn : G.nodes ≠ [])
    (pfo : Option (Matrix (Fin m) (Fin n) ℝ)) (title : Option String) :
    plotPlanarEmbedding nx G pfo title = ⟨[], .error .networkXError⟩ := by
  have hl : planarLayout nx G = .error .networkXError := by rw [planarLayout, if_neg hn, hp]; rfl
  unfold plotPlanarEmbedding
  rw [hl]
  rfl

/-! ## What `pfo_algorithm` prints and plots -/

theorem completeFaceOut_single {n : ℕ} {o : Matrix (Fin n) (Fin n) ℂ} {f : List Dart} {r e}
    (hb : ∀ e ∈ f, e.1 < n ∧ e.2 < n) (h : completeFace o f = .ok r)
    (hs : open Classical in (f.filter fun e => isOpen o e) = [e]) : completeFaceOut o f = ⟨[], .ok r⟩ := by
  classical
  rw [completeFaceOut, scanFace_ok o f hb]
  have hl : (f.filter fun e => isOpen o e).length = 1 := by rw [hs]; rfl
  show ((when _ _ : Out Unit) >>= fun _ => (when _ _ : Out Unit) >>= fun _ => quiet (completeFace o f)) = _
  simp only [when, hl]
  rw [h]
  rfl

variable {G : NxGraph ℕ} {cw : ℕ → ℕ → ℕ} {F : List (List Dart)} {T : List Dart}
  {Z : Matrix (Fin G.nodes.length) (Fin G.nodes.length) ℂ}

open Classical in
theorem PInv.single (c : Ctx G cw F) {P : Plan G F T} {H0 H : NxGraph ℕ}
    {o : Matrix (Fin G.nodes.length) (Fin G.nodes.length) ℂ} (h : PInv P H0 H Z o) {a : ℕ} (ha : a ∈ H.nodes)
    (hroot : a < F.length - 1) (hch : ∀ j ∈ H.nodes, j < F.length - 1 → P.par j ≠ a) :
    ((F[a]'(by omega)).filter fun d => isOpen o d) = [P.δ a] := by
  have haF : a < F.length := by omega
  have hnd : ∀ (i : ℕ) (hi : i < F.length), (F[i]).Nodup := fun i hi =>
    (List.nodup_flatten.1 c.faces.nodup).1 _ (List.getElem_mem hi)
  have hδm : P.δ a ∈ F[a] := by
    have := c.faces.fIdx_mem (P.adj hroot)
    simpa only [P.face hroot] using this
  have hopen : ∀ d ∈ F[a], isOpen o d ↔ d = P.δ a := by
    intro d hd
    have hde := c.faces.mem_edge (List.getElem_mem haF) hd
    constructor
    · intro ho
      rcases h.status c hde with hs | ⟨j, hjm, hj, hjd, -⟩
      · exact absurd ho (isclose_re_one hs)
      · rcases hjd with hh | hh
        · have : j = a := by rw [← P.face hj, ← hh]; exact c.faces.fIdx_eq hd
          rw [hh, this]
        · exfalso
          apply hch j hjm hj
          rw [← P.face' hj, ← hh]
          exact c.faces.fIdx_eq hd
    · rintro rfl
      exact isclose_re_zero (h.todo a ha hroot)
  exact filter_eq_singleton_of (hnd a haF) hδm (fun d hd => by simpa using hopen d hd)

theorem printed_append (a b : List Event) : Spec.printed (a ++ b) = Spec.printed a ++ Spec.printed b := List.filterMap_append

theorem figures_append (a b : List Event) : Spec.figures (a ++ b) = Spec.figures a + Spec.figures b := by
  rw [Spec.figures, List.filter_append, List.length_append]; rfl

theorem printed_arrows (l : List Dart) : Spec.printed (l.map fun d => .arrow d.1 d.2) = [] := by
  rw [Spec.printed, List.filterMap_map, List.filterMap_eq_nil_iff]
  intro a _
  rfl

theorem figures_arrows (l : List Dart) : Spec.figures (l.map fun d => .arrow d.1 d.2) = 0 := by
  rw [Spec.figures, List.length_eq_zero_iff, List.filter_eq_nil_iff]
  intro a ha
  obtain ⟨d, -, rfl⟩ := List.mem_map.1 ha
  simp

theorem printed_title (t : Option String) : Spec.printed (titleEvents t) = [] := by
  rcases t with _ | s
  · rfl
  · by_cases h : s = "" <;> simp [titleEvents, h, Option.filter, Spec.printed]

theorem figures_title (t : Option String) : Spec.figures (titleEvents t) = 0 := by
  rcases t with _ | s
  · rfl
  · by_cases h : s = "" <;> simp [titleEvents, h, Option.filter, Spec.figures]

theorem titles_append (a b : List Event) : Spec.titles (a ++ b) = Spec.titles a ++ Spec.titles b := List.filterMap_append

theorem titles_arrows (l : List Dart) : Spec.titles (l.map fun d => Event.arrow d.1 d.2) = [] := by
  rw [Spec.titles, List.filterMap_map, List.filterMap_eq_nil_iff]
  intro a _
  rfl

theorem titles_title (t : Option String) : Spec.titles (titleEvents t) = (t.filter fun s => s ≠ "").toList := by
  rw [titleEvents, Spec.titles, List.filterMap_map]
  exact List.filterMap_some

theorem showDarts_eq (l : List Dart) : showDarts l = Spec.faceText l := by
  rw [showDarts]
  show "[" ++ ", ".intercalate (l.map Spec.pairText) ++ "]" = _
  have key : ∀ (l : List Dart) (d : Dart), ", ".intercalate ((d :: l).map Spec.pairText) ++ "]" = Spec.pairText d ++ Spec.restText l := by
    intro l
    induction l with
    | nil => intro d; rw [List.map_cons, List.map_nil, String.intercalate_singleton]; rfl
    | cons e l ih =>
      intro d
      have h := ih e
      rw [List.map_cons] at h
      rw [List.map_cons, List.map_cons, String.intercalate_cons_cons, String.append_assoc, h, Spec.restText]
      simp only [String.append_assoc]
  cases l with
  | nil => rw [List.map_nil, String.intercalate_nil]; rfl
  | cons d l => rw [String.append_assoc, key, Spec.faceText, String.append_assoc]

/-- the actions of one figure -/
def Closed (f : List Event) : Prop := ∃ a, f = a ++ [.show] ∧ Spec.figures a = 0

theorem shown_closed {f : List Event} (h : Closed f) (es : List Event) : Spec.shown (f ++ es) = f :: Spec.shown es := by
  obtain ⟨a, rfl, ha⟩ := h
  induction a with
  | nil => rfl
  | cons e a ih =>
    have he : e ≠ .show := by
      rintro rfl
      rw [Spec.figures, List.filter_cons_of_pos (by rfl)] at ha
      simp at ha
    have ha' : Spec.figures a = 0 := by
      have := figures_append [e] a
      rw [List.singleton_append, ha] at this
      omega
    have := ih ha'
    cases e with
    | «show» => exact absurd rfl he
    | _ => simp only [List.cons_append, Spec.shown] at this ⊢; rw [this]

theorem shown_flatten {fs : List (List Event)} (h : ∀ f ∈ fs, Closed f) (es : List Event) :
    Spec.shown (fs.flatten ++ es) = fs ++ Spec.shown es := by
  induction fs with
  | nil => rfl
  | cons f fs ih =>
    rw [List.flatten_cons, List.append_assoc, shown_closed (h f (by simp)), ih fun g hg => h g (by simp [hg])]
    rfl

theorem Closed.cons_prints {f : List Event} (h : Closed f) {l : List Event} (hl : Spec.figures l = 0) : Closed (l ++ f) := by
  obtain ⟨a, rfl, ha⟩ := h
  exact ⟨l ++ a, (List.append_assoc ..).symm, by rw [figures_append, hl, ha]⟩

/-- a plot that prints nothing and shows one figure -/
structure PlotOk (x : Out Unit) : Prop where
  closed : Closed x.events
  result : x.result = .ok ()
  printed : Spec.printed x.events = []
  figures : Spec.figures x.events = 1

theorem plotOk_some {n : ℕ} {nx : Nx} (hp : (nx.checkPlanarity G).isSome) (pfo : Matrix (Fin n) (Fin n) ℝ)
    (hb : ∀ e ∈ G.edges, e.1 < n ∧ e.2 < n) (title : Option String) : PlotOk (plotPlanarEmbedding nx G (some pfo) title) := by
  rw [plot_some hp pfo hb]
  refine ⟨⟨_, rfl, ?_⟩, rfl, ?_, ?_⟩
  · simp only [figures_append, figures_arrows, figures_title]; rfl
  · simp only [printed_append, printed_arrows, printed_title]; rfl
  · simp only [figures_append, figures_arrows, figures_title]; rfl

theorem plotOk_none {m n : ℕ} {nx : Nx} (hp : (nx.checkPlanarity G).isSome) (title : Option String) :
    PlotOk (plotPlanarEmbedding (m := m) (n := n) nx G none title) := by
  rw [plot_none hp]
  refine ⟨⟨_, rfl, ?_⟩, rfl, ?_, ?_⟩
  · simp only [figures_append, figures_title]; rfl
  · simp only [printed_append, printed_title]; rfl
  · simp only [figures_append, figures_title]; rfl

/-- the title of the figure drawn when a face has been completed -/
def faceTitle (F : List (List Dart)) (a : ℕ) : String := "Face " ++ toString a ++ ": " ++ Spec.faceText (F.getD a [])

theorem text_ne (a b : String) : "Face " ++ a ++ b ≠ "" := by
  intro h
  have := congrArg String.length h
  simp [String.length_append] at this

theorem plot_titleAfter {n : ℕ} {nx : Nx} (hp : (nx.checkPlanarity G).isSome) (pfo : Matrix (Fin n) (Fin n) ℝ)
    (hb : ∀ e ∈ G.edges, e.1 < n ∧ e.2 < n) {title : String} (ht : title ≠ "") :
    Spec.titleAfter (plotPlanarEmbedding nx G (some pfo) (some title)).events = some title := by
  rw [plot_some hp pfo hb]
  simp only [Spec.titleAfter, titles_append, titles_title, titles_arrows]
  simp [ht, Option.filter, Spec.titles]

theorem processLeavesOut_ok (c : Ctx G cw F) {P : Plan G F T} {H0 : NxGraph ℕ} {nx : Nx} (vb : Bool)
    (hp : (nx.checkPlanarity G).isSome) :
    ∀ (leaves : List ℕ) (H : NxGraph ℕ) (o : Matrix (Fin G.nodes.length) (Fin G.nodes.length) ℂ), PInv P H0 H Z o →
      leaves.Nodup → (∀ a ∈ leaves, a ∈ H.nodes ∧ a < F.length - 1 ∧ ∀ j ∈ H.nodes, j < F.length - 1 → P.par j ≠ a) →
      ∃ es H' o', processLeavesOut nx G vb F leaves (H, o) = ⟨es, .ok (H', o')⟩ ∧ PInv P H0 H' Z o' ∧
        H'.nodes.length + leaves.length = H.nodes.length ∧ Spec.printed es = [] ∧
        Spec.figures es = (if vb then leaves.length else 0) ∧ (vb = false → es = []) ∧
        (∀ i, i ∈ H'.nodes ↔ i ∈ H.nodes ∧ i ∉ leaves) ∧
        (vb = true → ∃ fs : List (List Event), es = fs.flatten ∧ (∀ f ∈ fs, Closed f) ∧ fs.map Spec.titleAfter = leaves.map fun a => some (faceTitle F a)) := by
  intro leaves
  induction leaves with
  | nil =>
    intro H o h _ _
    exact ⟨[], H, o, rfl, h, by simp, rfl, by cases vb <;> rfl, fun _ => rfl, by simp, fun _ => ⟨[], rfl, by simp, rfl⟩⟩
  | cons a l ih =>
    intro H o h hnd hl
    obtain ⟨ha, har, hac⟩ := hl a (by simp)
    have haF : a < F.length := by omega
    obtain ⟨o1, ho1, h1⟩ := h.step c ha har hac
    have hsing := h.single c ha har hac
    have hcf := completeFaceOut_single (fun d hd => c.lt_of_edge (c.faces.mem_edge (List.getElem_mem haF) hd)) ho1 hsing
    have hmem : ∀ i, i ∈ (H.removeNode a).nodes ↔ i ≠ a ∧ i ∈ H.nodes := fun i => h.nodup.mem_erase_iff
    obtain ⟨es, H', o', hpl, hinv, hlen, hpr, hfi, hes, hnodes, hfigs⟩ := ih (H.removeNode a) o1 h1 (List.nodup_cons.1 hnd).2 (by
      intro b hb
      obtain ⟨hb1, hb2, hb3⟩ := hl b (by simp [hb])
      refine ⟨(hmem b).2 ⟨?_, hb1⟩, hb2, fun j hj => hb3 j ((hmem j).1 hj).2⟩
      rintro rfl
      exact (List.nodup_cons.1 hnd).1 hb)
    have hcard : (H.removeNode a).nodes.length + 1 = H.nodes.length := by
      have h2 : (H.removeNode a).nodes.length = H.nodes.length - 1 := List.length_erase_of_mem ha
      have h3 := List.length_pos_of_mem ha
      omega
    have hPl := plotOk_some hp (npReal o1) (fun e he => c.lt_of_edge (Or.inl he))
      (some ("Face " ++ toString a ++ ": " ++ showDarts F[a]))
    set pl := plotPlanarEmbedding nx G (some (npReal o1)) (some ("Face " ++ toString a ++ ": " ++ showDarts F[a])) with hpld
    have hple : pl = ⟨pl.events, .ok ()⟩ := by
      have := hPl.result
      cases hq : pl with
      | mk ev rs => rw [hq] at this; simp only at this; rw [this]
    refine ⟨(if vb then pl.events else []) ++ es, H', o', ?_, hinv, by simp only [List.length_cons]; omega, ?_, ?_, ?_, ?_, ?_⟩
    · unfold processLeavesOut at hpl ⊢
      rw [List.foldlM_cons, listGet_ok haF]
      simp only
      show (((⟨[], .ok F[a]⟩ : Out _) >>= _) >>= _ : Out _) = _
      rw [out_bind_ok, hcf, out_bind_ok]
      simp only
      rw [← hpld]
      cases vb with
      | false =>
        rw [when_false, out_bind_ok]
        simp only [List.nil_append, out_pure]
        rw [out_bind_ok]
        simp only [List.append_nil, List.nil_append, out_pure] at hpl ⊢
        rw [hpl]
        rfl
      | true =>
        rw [when_true, hple, out_bind_ok]
        simp only [List.nil_append, out_pure]
        rw [out_bind_ok]
        simp only [List.append_nil, if_true, out_pure] at hpl ⊢
        rw [hpl]
    · rw [printed_append, hpr]
      cases vb
      · rfl
      · simp only [if_true]; rw [hPl.printed]; rfl
    · rw [figures_append, hfi]
      cases vb
      · rfl
      · simp only [if_true]; rw [hPl.figures, List.length_cons]; omega
    · intro hv
      subst hv
      simpa using hes rfl
    · intro i
      rw [hnodes, hmem, List.mem_cons]
      tauto
    · rintro rfl
      obtain ⟨fs, h1, h2, h3⟩ := hfigs rfl
      refine ⟨pl.events :: fs, by rw [h1, if_pos rfl]; rfl, fun f hf => ?_, ?_⟩
      · rcases List.mem_cons.1 hf with rfl | hf
        exacts [hPl.closed, h2 f hf]
      · rw [List.map_cons, h3, List.map_cons, hpld, plot_titleAfter hp _ (fun e he => c.lt_of_edge (Or.inl he))
          (by rw [String.append_assoc]; exact text_ne _ _), faceTitle, showDarts_eq, List.getD_eq_getElem?_getD, List.getElem?_eq_getElem haF, Option.getD_some]

theorem leafLoopOut_ok (c : Ctx G cw F) {P : Plan G F T} {H0 : NxGraph ℕ} (hH : c.DualSpec T H0) {nx : Nx} (vb : Bool)
    (hpl : (nx.checkPlanarity G).isSome) :
    ∀ (fuel : ℕ) (H : NxGraph ℕ) (o : Matrix (Fin G.nodes.length) (Fin G.nodes.length) ℂ), PInv P H0 H Z o →
      H.nodes.length ≤ fuel → ∃ es H' o', leafLoopOut nx G vb F (F.length - 1) fuel (H, o) = ⟨es, .ok o'⟩ ∧ PInv P H0 H' Z o' ∧
        H'.nodes.length ≤ 1 ∧ Spec.printed es = [] ∧
        Spec.figures es = (if vb then H.nodes.length - 1 else 0) ∧ (vb = false → es = []) ∧
        (vb = true → ∃ (fs : List (List Event)) (order : List ℕ), es = fs.flatten ∧ (∀ f ∈ fs, Closed f) ∧ order.Nodup ∧
          (∀ i, i ∈ order ↔ i ∈ H.nodes ∧ i ≠ F.length - 1) ∧ fs.map Spec.titleAfter = order.map fun a => some (faceTitle F a)) := by
  intro fuel
  induction fuel with
  | zero =>
    intro H o h hl
    refine ⟨[], H, o, ?_, h, by omega, rfl, ?_, fun _ => rfl, fun _ => ⟨[], [], rfl, by simp, List.nodup_nil, ?_, rfl⟩⟩
    · rw [leafLoopOut, if_neg (by simp only; omega)]; rfl
    · have : H.nodes.length - 1 = 0 := by omega
      rw [this]; cases vb <;> rfl
    · have := List.length_pos_of_mem h.root
      omega
  | succ fuel ih =>
    intro H o h hl
    rw [leafLoopOut]
    by_cases hlen : H.nodes.length > 1
    · rw [if_pos hlen]
      have hne := h.leaves_ne hH hlen
      simp only
      rw [if_neg hne]
      obtain ⟨es, H1, o1, hp, h1, hl1, hpr, hfi, hes, hnodes, hfigs⟩ := processLeavesOut_ok c vb hpl
        (H.nodes.filter fun x => H.degree x = 1 ∧ x ≠ F.length - 1) H o h (h.nodup.filter _) (by
        intro a ha
        rw [List.mem_filter] at ha
        obtain ⟨ha1, ha2⟩ := ha
        have ha2 := of_decide_eq_true ha2
        have har : a < F.length - 1 := by
          have := h.sub a ha1
          omega
        exact ⟨ha1, har, (h.leaf_iff hH ha1 har).1 ha2.1⟩)
      have hpos := List.length_pos_iff.2 hne
      have hroot : 0 < H1.nodes.length := List.length_pos_of_mem h1.root
      obtain ⟨es', H', o', hp', h', hl', hpr', hfi', hes', hfigs'⟩ := ih H1 o1 h1 (by omega)
      refine ⟨es ++ es', H', o', ?_, h', hl', ?_, ?_, ?_, fun hv => ?_⟩
      · rw [hp, out_bind_ok, hp']
      · rw [printed_append, hpr, hpr']; rfl
      · rw [figures_append, hfi, hfi']
        cases vb
        · rfl
        · simp only [if_true]; omega
      · intro hv
        rw [hes hv, hes' hv]; rfl
      · obtain ⟨fs, a1, a2, a3⟩ := hfigs hv
        obtain ⟨fs', order, b1, b2, b3, b4, b5⟩ := hfigs' hv
        refine ⟨fs ++ fs', _ ++ order, by rw [a1, b1, List.flatten_append], fun f hf => (List.mem_append.1 hf).elim (a2 f) (b2 f),
          List.Nodup.append (h.nodup.filter _) b3 fun i hi hi' => ((hnodes i).1 ((b4 i).1 hi').1).2 hi, fun i => ?_,
          by rw [List.map_append, a3, b5, ← List.map_append]⟩
        rw [List.mem_append, b4, hnodes, List.mem_filter]
        constructor
        · rintro (⟨h1, h2⟩ | ⟨⟨h1, -⟩, h2⟩)
          exacts [⟨h1, (of_decide_eq_true h2).2⟩, ⟨h1, h2⟩]
        · rintro ⟨h1, h2⟩
          by_cases hi : H.degree i = 1
          · exact .inl ⟨h1, decide_eq_true ⟨hi, h2⟩⟩
          · exact .inr ⟨⟨h1, fun hh => hi (of_decide_eq_true hh.2).1⟩, h2⟩
    · rw [if_neg hlen]
      have hz : H.nodes.length - 1 = 0 := by omega
      refine ⟨[], H, o, rfl, h, by omega, rfl, by rw [hz]; cases vb <;> rfl, fun _ => rfl,
        fun _ => ⟨[], [], rfl, by simp, List.nodup_nil, fun i => ?_, rfl⟩⟩
      have hr := h.root
      match hn' : H.nodes with
      | [] => rw [hn'] at hr; simp at hr
      | [y] => rw [hn', List.mem_singleton] at hr; subst hr; simp
      | y :: z :: l => rw [hn'] at hlen; simp at hlen

theorem fold_weight (l : List (ℕ × ℕ)) : ∀ H : NxGraph ℕ, (l.foldl NxGraph.addEdge H).weight = H.weight := by
  induction l with
  | nil => intro H; rfl
  | cons e l ih => intro H; rw [List.foldl_cons, ih]; rfl

theorem Ctx.dual_simple (c : Ctx G cw F) {H : NxGraph ℕ} (hH : c.DualSpec T H) (hw : H.weight = fun _ _ => 1) :
    Spec.IsSimple H := by
  refine ⟨by rw [hH.nodes]; exact List.nodup_range, hH.nodup, ?_, ?_, by simp [hw]⟩
  · intro e he
    have := hH.lt e he
    rw [hH.nodes]
    simp; omega
  · intro e he
    have := hH.lt e he
    have key : ∀ i < F.length, (List.range F.length).idxOf i = i := by
      intro i hi
      have := List.nodup_range.idxOf_getElem (xs := List.range F.length) i (by simpa using hi)
      rwa [List.getElem_range] at this
    rw [hH.nodes, key _ (by omega), key _ (by omega)]
    omega

theorem forEach_print {α : Type} (f : α → String) (l : List α) :
    forEach (fun a => emit (.print (f a))) l = ⟨l.map fun a => .print (f a), .ok ()⟩ := by
  induction l with
  | nil => rfl
  | cons a l ih => rw [forEach, ih]; rfl

theorem printed_print (l : List String) : Spec.printed (l.map .print) = l := by
  induction l with
  | nil => rfl
  | cons a l ih => rw [List.map_cons, Spec.printed, List.filterMap_cons]; simp only; rw [← Spec.printed, ih]

theorem figures_print (l : List String) : Spec.figures (l.map .print) = 0 := by
  rw [Spec.figures, List.length_eq_zero_iff, List.filter_eq_nil_iff]
  intro a ha
  obtain ⟨d, -, rfl⟩ := List.mem_map.1 ha
  simp

/-- The lines printed about the faces with `verbose=True`. -/
def faceLines (F : List (List Dart)) : List String :=
  toString F.length :: ((F.take 5).zipIdx.map fun f => "F[" ++ toString f.2 ++ "] " ++ Spec.faceText f.1)

theorem out_eta {α : Type} {x : Out α} {a : α} (h : x.result = .ok a) : x = ⟨x.events, .ok a⟩ := by
  cases x; simp only at h; rw [h]

open Classical in
/-- 99 times the total weight of the entries of the adjacency matrix at positions that are not adjacent labels -/
noncomputable def leftover (G : NxGraph ℕ) : ℝ :=
  ∑ i : Fin G.nodes.length, ∑ j : Fin G.nodes.length, if G.hasEdge i.1 j.1 then 0 else 99 * G.adjacency i j

open Classical in
/-- the message printed at the end -/
noncomputable def lastLine (G : NxGraph ℕ) : String := if leftover G > 1e-16 then "Incomplete pfo" else "Complete pfo"

theorem finishPfo_ok {nx : Nx} (vb : Bool) (o : Matrix (Fin G.nodes.length) (Fin G.nodes.length) ℂ)
    (him : ∑ i, ∑ j, (o i j).im = leftover G) :
    finishPfo nx G vb o = ((⟨[.print (lastLine G)], .ok ()⟩ : Out Unit) >>= fun _ =>
      when vb (plotPlanarEmbedding nx G (some (npReal o)) (some "Constructed PFO")) >>= fun _ => pure (npReal o)) := by
  rw [finishPfo, him, lastLine]
  rfl

theorem leftover_numbered (hn : Spec.IsNumbered G) : leftover G = 0 := by
  classical
  unfold leftover
  refine Finset.sum_eq_zero fun i _ => Finset.sum_eq_zero fun j _ => ?_
  split_ifs with h
  · rfl
  · rw [adjacency_numbered hn, if_neg h, mul_zero]

theorem lastLine_numbered (hn : Spec.IsNumbered G) : lastLine G = "Complete pfo" := by
  rw [lastLine, leftover_numbered hn, if_neg (by norm_num)]

theorem pfoOut_ok {nx : Nx} (hnx : Spec.NxContract nx) (c : Ctx G cw F)
    (hT : Spec.IsSpanningTree G (nx.maximumSpanningTree G))
    (hup : ∀ e ∈ edgesNotInT G (nx.maximumSpanningTree G), e.1 < e.2) (hp : (nx.checkPlanarity G).isSome)
    (hF : faces nx G (nx.checkPlanarity G) = .ok (some F)) (vb : Bool) :
    ∃ es O, pfoAlgorithmOut nx G vb = ⟨es ++ [.print (lastLine G)] ++
        (if vb then (plotPlanarEmbedding nx G (some O) (some "Constructed PFO")).events else []), .ok O⟩ ∧
      Spec.printed es = (if vb then faceLines F else []) ∧ Spec.figures es = (if vb then F.length + 2 else 0) ∧
      (vb = false → es = []) ∧
      (vb = true → ∃ (H : NxGraph ℕ) (f1 f2 f3 : List Event) (fs : List (List Event)) (order : List ℕ),
        c.DualSpec (nx.maximumSpanningTree G) H ∧ (nx.checkPlanarity H).isSome ∧ Spec.IsSimple H ∧
        f1 = (plotPlanarEmbedding nx G (some fun i j => -10 * treeArray G (nx.maximumSpanningTree G) i j) (some "T")).events ∧
        f2 = (plotPlanarEmbedding (m := 0) (n := 0) nx H none (some "H")).events ∧
        f3 = (plotPlanarEmbedding nx G (some (npReal (treeArr (nx.maximumSpanningTree G) fun i j =>
          (G.adjacency i j : ℂ) * (99 * Complex.I)))) none).events ∧ order.Perm (List.range (F.length - 1)) ∧
        fs.map Spec.titleAfter = order.map (fun a => some (faceTitle F a)) ∧
        Spec.shown (pfoAlgorithmOut nx G vb).events = [f1, f2, (faceLines F).map .print ++ f3] ++ fs ++
          [.print (lastLine G) :: (plotPlanarEmbedding nx G (some O) (some "Constructed PFO")).events]) := by
  classical
  obtain ⟨P⟩ := c.exists_plan hT
  have ho := hnx.setOrder
  have hH := c.dual_spec hT hup nx ho
  have hFpos := c.faces.pos c.ne
  have hn := c.pos
  set T := nx.maximumSpanningTree G with hTdef
  set H := dualGraphH nx G F T with hHd
  have hinv := c.start nx hT hup ho P
  rw [← hHd] at hinv
  obtain ⟨el, H', o', hloop, h', hlen, hpr, hfi, hes, hfigs⟩ := leafLoopOut_ok c hH vb hp _ _ _ hinv (le_refl _)
  have hdone : ∀ i, i < F.length - 1 → i ∉ H'.nodes := by
    intro i hi hm
    have hr := h'.root
    match hn' : H'.nodes, hlen with
    | [], _ => rw [hn'] at hm; simp at hm
    | [y], _ =>
      rw [hn', List.mem_singleton] at hm hr
      omega
  have hedge : ∀ d : Dart, G.hasEdge d.1 d.2 → upper o' d = 1 ∨ upper o' d = -1 := by
    intro d hd
    rcases h'.status c hd with h | ⟨j, hj, hjr, _⟩
    · exact h
    · exact absurd hj (hdone j hjr)
  have hedge2 : ∀ u v : Fin G.nodes.length, G.hasEdge u v → o' u v = 1 ∨ o' u v = -1 := by
    intro u v huv
    have hne : u ≠ v := by rintro rfl; exact c.simple.irrefl _ huv
    rcases lt_or_gt_of_ne hne with hlt | hlt
    · rw [← upper_eq o' hlt]
      exact hedge (u.1, v.1) huv
    · by_cases ht : inT T u v
      · exact Or.inr (h'.tree v u hlt ht.symm).2
      · rw [h'.symm u v ht, ← upper_eq o' hlt]
        exact hedge (v.1, u.1) (NxGraph.hasEdge_symm huv)
  have him : ∑ i, ∑ j, (o' i j).im = leftover G := by
    unfold leftover
    refine Finset.sum_congr rfl fun i _ => Finset.sum_congr rfl fun j _ => ?_
    split_ifs with he
    · rcases hedge2 i j he with h | h <;> rw [h] <;> simp
    · rw [h'.nonedge i j he]
      simp
      ring
  have hHs : Spec.IsSimple H := c.dual_simple hH (by rw [hHd, dualGraphH]; exact fold_weight _ _)
  have hHp : (nx.checkPlanarity H).isSome := by
    by_cases hE : H.edges = []
    · exact hnx.edgeless _ hHs hE
    · obtain ⟨cw', hcw'⟩ := tree_planar hHs hH.tree hE
      exact hnx.complete _ _ hHs hH.tree.2 hE hcw'
  have hA : adjacencyMatrix G = .ok G.adjacency := by rw [adjacencyMatrix, if_neg (by omega)]
  have hmax : maxNode H.nodes = .ok (F.length - 1) := by rw [hH.nodes, maxNode_range hFpos]
  have hb : ∀ e ∈ G.edges, e.1 < G.nodes.length ∧ e.2 < G.nodes.length := fun e he => c.lt_of_edge (Or.inl he)
  have P1 := plotOk_some hp (fun i j => -10 * treeArray G T i j) hb (some "T")
  have P2 := plotOk_none (m := 0) (n := 0) hHp (some "H")
  have P3 := plotOk_some hp (npReal (treeArr T fun i j => (G.adjacency i j : ℂ) * (99 * Complex.I))) hb none
  have P4 := plotOk_some hp (npReal o') hb (some "Constructed PFO")
  have hD : plotDual nx F H = ⟨(plotPlanarEmbedding (m := 0) (n := 0) nx H none (some "H")).events ++
      (faceLines F).map .print, .ok ()⟩ := by
    rw [plotDual, forEach_print (fun f : List Dart × ℕ => "F[" ++ toString f.2 ++ "] " ++ showDarts f.1), out_eta P2.result,
      out_bind_ok]
    simp [emit, out_bind_ok, faceLines, showDarts_eq]
  have hot := c.orient nx hT (fun i j => (G.adjacency i j : ℂ) * (99 * Complex.I))
  rw [← hTdef] at hot
  have hbody : pfoAlgorithmOut nx G vb = ⟨(if vb then
      (plotPlanarEmbedding nx G (some fun i j => -10 * treeArray G T i j) (some "T")).events ++
      (plotDual nx F H).events ++ (plotPlanarEmbedding nx G (some (npReal (treeArr T fun i j =>
        (G.adjacency i j : ℂ) * (99 * Complex.I)))) none).events else []) ++ el ++ [.print (lastLine G)] ++
      (if vb then (plotPlanarEmbedding nx G (some (npReal o')) (some "Constructed PFO")).events else []),
      .ok (npReal o')⟩ := by
    rw [pfoAlgorithmOut, hA, hF]
    cases vb with
    | false =>
      rw [when_false, out_bind_ok]
      simp only [quiet, out_bind_ok, pfoFromFaces]
      rw [← hTdef, ← hHd, when_false, out_bind_ok, if_neg (not_not.2 hH.tree)]
      erw [hot]
      rw [out_bind_ok, when_false, out_bind_ok, hmax, out_bind_ok, hloop, out_bind_ok, finishPfo_ok _ _ him,
        when_false, out_bind_ok, out_bind_ok]
      simp [out_pure]
    | true =>
      rw [when_true, ← hTdef, out_eta P1.result, out_bind_ok]
      simp only [quiet, out_bind_ok, pfoFromFaces]
      rw [← hTdef, ← hHd, when_pos trivial, hD, out_bind_ok, if_neg (not_not.2 hH.tree)]
      erw [hot]
      rw [out_bind_ok, when_pos trivial, out_eta P3.result, out_bind_ok, hmax, out_bind_ok, hloop, out_bind_ok,
        finishPfo_ok _ _ him, when_true, out_eta P4.result, out_bind_ok, out_bind_ok]
      simp [out_pure]
  refine ⟨_, npReal o', hbody, ?_, ?_, ?_, ?_⟩
  · cases vb with
    | false => simpa using hpr
    | true =>
      simp only [if_true, printed_append, hpr, P1.printed, P3.printed, hD, P2.printed, printed_print]
      simp
  · rw [hH.nodes, List.length_range] at hfi
    cases vb with
    | false => simpa using hfi
    | true =>
      simp only [if_true] at hfi ⊢
      simp only [figures_append, hfi, P1.figures, P3.figures, hD, P2.figures, figures_print]
      omega
  · rintro rfl
    simpa using hes rfl
  · rintro rfl
    obtain ⟨fs, order, a1, a2, a3, a4, a5⟩ := hfigs rfl
    refine ⟨H, _, _, _, fs, order, hH, hHp, hHs, rfl, rfl, rfl, ?_, a5, ?_⟩
    · rw [List.perm_ext_iff_of_nodup a3 List.nodup_range]
      intro i
      rw [a4, hH.nodes, List.mem_range, List.mem_range]
      omega
    · rw [hbody, if_pos rfl, if_pos rfl, hD, a1]
      simp only [List.append_assoc]
      rw [shown_closed P1.closed, shown_closed P2.closed, ← List.append_assoc ((faceLines F).map _),
        shown_closed (P3.closed.cons_prints (figures_print _)), shown_flatten a2,
        ← List.append_nil (plotPlanarEmbedding nx G (some (npReal o')) (some "Constructed PFO")).events, ← List.append_assoc,
        shown_closed (P4.closed.cons_prints rfl)]
      simp [Spec.shown]

end FF
