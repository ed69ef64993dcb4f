import Verif.Spec.Graph
import Mathlib.Data.List.Iterate
import Mathlib.Data.List.Nodup
import Mathlib.Data.List.Perm.Basic
import Mathlib.Tactic.Linarith

/-! # The loop of `faces` -/

namespace FF

theorem minDart_mem {l : List Dart} {m : Dart} (h : minDart l = some m) : m ∈ l := by
  cases l with
  | nil => simp [minDart] at h
  | cons d ds =>
    simp only [minDart, Option.some.injEq] at h
    subst h
    have : ∀ (ds : List Dart) (d : Dart),
        ds.foldl (fun m e => if dartLt e m then e else m) d ∈ d :: ds := by
      intro ds
      induction ds with
      | nil => intro d; simp
      | cons x xs ih =>
        intro d
        rw [List.foldl_cons]
        have := ih (if dartLt x d then x else d)
        rcases List.mem_cons.1 this with h | h
        · rw [h]; split <;> simp
        · exact List.mem_cons_of_mem _ (List.mem_cons_of_mem _ h)
    exact this ds d

theorem minDart_isSome {l : List Dart} (h : l ≠ []) : ∃ m, minDart l = some m := by
  cases l with
  | nil => exact absurd rfl h
  | cons d ds => exact ⟨_, rfl⟩

theorem minDart_eq_none {l : List Dart} : minDart l = none ↔ l = [] := by
  cases l <;> simp [minDart]

/-- a piece of an orbit -/
def IsPath (nxt : Dart → Dart) (p : List Dart) : Prop := ∃ d k, p = List.iterate nxt d (k + 1)

/-- a complete orbit -/
def IsCyc (nxt : Dart → Dart) (p : List Dart) : Prop :=
  ∃ d k, p = List.iterate nxt d (k + 1) ∧ nxt^[k + 1] d = d

structure FInv (nxt : Dart → Dart) (D es : List Dart) (F : List (List Dart)) (path : List Dart) : Prop where
  perm : (es ++ path ++ F.flatten).Perm D
  path : IsPath nxt path
  cyc : ∀ f ∈ F, IsCyc nxt f

theorem iterate_getLast? {nxt : Dart → Dart} (d : Dart) (k : ℕ) :
    (List.iterate nxt d (k + 1)).getLast? = some (nxt^[k] d) := by
  rw [List.iterate_add]
  simp [List.iterate]

theorem iterate_head? {nxt : Dart → Dart} (d : Dart) (k : ℕ) :
    (List.iterate nxt d (k + 1)).head? = some d := by simp [List.iterate]

theorem FInv.step {nxt : Dart → Dart} {D es : List Dart} {F : List (List Dart)} {d : Dart} {k : ℕ}
    (hD : D.Nodup) (hcl : ∀ x ∈ D, nxt x ∈ D) (hinj : ∀ x ∈ D, ∀ y ∈ D, nxt x = nxt y → x = y)
    (h : FInv nxt D es F (List.iterate nxt d (k + 1))) :
    nxt (nxt^[k] d) = d ∨ nxt (nxt^[k] d) ∈ es := by
  have hnd : (es ++ List.iterate nxt d (k + 1) ++ F.flatten).Nodup := h.perm.nodup_iff.2 hD
  have hmem : ∀ x, x ∈ es ++ List.iterate nxt d (k + 1) ++ F.flatten ↔ x ∈ D := fun x => h.perm.mem_iff
  have hpm : ∀ x ∈ List.iterate nxt d (k + 1), x ∈ D := fun x hx =>
    (hmem x).1 (List.mem_append_left _ (List.mem_append_right _ hx))
  have hfm : ∀ f ∈ F, ∀ x ∈ f, x ∈ D := fun f hf x hx =>
    (hmem x).1 (List.mem_append_right _ (List.mem_flatten.2 ⟨f, hf, hx⟩))
  have hlast : nxt^[k] d ∈ List.iterate nxt d (k + 1) := List.mem_iterate.2 ⟨k, by omega, rfl⟩
  have he := hcl _ (hpm _ hlast)
  rw [← hmem, List.mem_append, List.mem_append] at he
  rcases he with (he | he) | he
  · exact Or.inr he
  · left
    obtain ⟨j, hj, hje⟩ := List.mem_iterate.1 he
    cases j with
    | zero => exact hje
    | succ j =>
      exfalso
      rw [Function.iterate_succ_apply'] at hje
      have h1 := hinj _ (hpm _ hlast) _ (hpm _ (List.mem_iterate.2 ⟨j, by omega, rfl⟩)) hje
      have hpn : (List.iterate nxt d (k + 1)).Nodup :=
        (List.nodup_append.1 (List.nodup_append.1 hnd).1).2.1
      have := hpn.getElem_inj_iff (i := k) (hi := by simp) (j := j) (hj := by simp; omega)
      simp only [List.getElem_iterate] at this
      have := this.1 h1
      omega
  · exfalso
    obtain ⟨f, hf, hfe⟩ := List.mem_flatten.1 he
    obtain ⟨d', k', rfl, hclose⟩ := h.cyc f hf
    have hpred : ∃ y ∈ List.iterate nxt d' (k' + 1), nxt y = nxt (nxt^[k] d) := by
      obtain ⟨j, hj, hje⟩ := List.mem_iterate.1 hfe
      cases j with
      | zero =>
        refine ⟨nxt^[k'] d', List.mem_iterate.2 ⟨k', by omega, rfl⟩, ?_⟩
        rw [← Function.iterate_succ_apply' nxt, hclose, hje]; rfl
      | succ j =>
        exact ⟨nxt^[j] d', List.mem_iterate.2 ⟨j, by omega, rfl⟩, by
          rw [hje, Function.iterate_succ_apply']⟩
    obtain ⟨y, hy, hye⟩ := hpred
    have := hinj _ (hfm _ hf _ hy) _ (hpm _ hlast) hye
    subst this
    exact (List.nodup_append.1 hnd).2.2 _ (List.mem_append_right _ hlast) _
      (List.mem_flatten.2 ⟨_, hf, hy⟩) rfl

theorem facesLoop_ok (cw : ℕ → ℕ → ℕ) {D : List Dart} (hD : D.Nodup)
    (hcl : ∀ x ∈ D, nextDart cw x ∈ D)
    (hinj : ∀ x ∈ D, ∀ y ∈ D, nextDart cw x = nextDart cw y → x = y) :
    ∀ (fuel : ℕ) (es : List Dart) (F : List (List Dart)) (path : List Dart), es.length ≤ fuel →
      FInv (nextDart cw) D es F path →
      ∃ F' path', facesLoop cw fuel es F path = .ok (F', path') ∧
        FInv (nextDart cw) D [] F' path' ∧ F <+: F' := by
  intro fuel
  induction fuel with
  | zero =>
    intro es F path hl h
    have : es = [] := List.length_eq_zero_iff.1 (by omega)
    subst this
    exact ⟨F, path, rfl, h, List.prefix_refl _⟩
  | succ fuel ih =>
    intro es F path hl h
    cases es with
    | nil => exact ⟨F, path, rfl, h, List.prefix_refl _⟩
    | cons x xs =>
      obtain ⟨d, k, rfl⟩ := h.path
      have hst := h.step hD hcl hinj
      rw [facesLoop, iterate_getLast?]
      simp only [iterate_head?]
      by_cases hc : some d = some (nextDart cw ((nextDart cw)^[k] d))
      · rw [if_pos hc]
        obtain ⟨m, hm⟩ := minDart_isSome (l := x :: xs) (by simp)
        rw [hm]
        have hmm := minDart_mem hm
        simp only
        obtain ⟨F', path', h1, h2, h3⟩ := ih ((x :: xs).erase m) (F ++ [List.iterate (nextDart cw) d (k + 1)]) [m]
          (by rw [List.length_erase_of_mem hmm]; simp at hl ⊢; omega)
          ⟨by
            refine List.Perm.trans ?_ h.perm
            rw [List.flatten_append]
            simp only [List.flatten_cons, List.flatten_nil, List.append_nil]
            have h1 : ((x :: xs).erase m ++ [m]).Perm (x :: xs) :=
              (List.perm_append_singleton _ _).trans (List.perm_cons_erase hmm).symm
            refine (h1.append_right _).trans ?_
            rw [List.append_assoc]
            exact List.Perm.append_left _ List.perm_append_comm, ⟨m, 0, rfl⟩, by
            intro f hf
            rcases List.mem_append.1 hf with hf | hf
            · exact h.cyc f hf
            · rw [List.mem_singleton] at hf
              subst hf
              refine ⟨d, k, rfl, ?_⟩
              rw [Function.iterate_succ_apply']
              exact (Option.some.inj hc).symm⟩
        exact ⟨F', path', h1, h2, (List.prefix_append _ _).trans h3⟩
      · rw [if_neg hc]
        have hmem : nextDart cw ((nextDart cw)^[k] d) ∈ x :: xs := by
          rcases hst with h1 | h1
          · exact absurd (by rw [h1]) hc
          · exact h1
        have hp : List.iterate (nextDart cw) d (k + 1) ++ [nextDart cw ((nextDart cw)^[k] d)]
            = List.iterate (nextDart cw) d (k + 1 + 1) := by
          rw [List.iterate_add _ _ (k + 1) 1]
          simp [List.iterate, Function.iterate_succ_apply']
        rw [hp]
        refine ih ((x :: xs).erase _) F _ (by rw [List.length_erase_of_mem hmem]; simp at hl ⊢; omega)
          ⟨?_, ⟨d, k + 1, rfl⟩, h.cyc⟩
        refine List.Perm.trans ?_ h.perm
        refine List.Perm.append_right _ ?_
        rw [← hp]
        have h1 : (nextDart cw ((nextDart cw)^[k] d) :: (x :: xs).erase (nextDart cw ((nextDart cw)^[k] d))).Perm
            (x :: xs) := (List.perm_cons_erase hmem).symm
        refine List.Perm.trans ?_ (h1.append_right _)
        rw [← List.append_assoc]
        exact List.perm_append_singleton _ _

theorem FInv.closed {nxt : Dart → Dart} {D : List Dart} {F : List (List Dart)} {path : List Dart}
    (hD : D.Nodup) (hcl : ∀ x ∈ D, nxt x ∈ D) (hinj : ∀ x ∈ D, ∀ y ∈ D, nxt x = nxt y → x = y)
    (h : FInv nxt D [] F path) : IsCyc nxt path := by
  obtain ⟨d, k, rfl⟩ := h.path
  rcases h.step hD hcl hinj with h1 | h1
  · exact ⟨d, k, rfl, by rw [Function.iterate_succ_apply']; exact h1⟩
  · simp at h1

theorem mem_edgeset {G : NxGraph ℕ} {d : Dart} : d ∈ G.edgeset ↔ G.hasEdge d.1 d.2 := by
  obtain ⟨u, v⟩ := d
  simp only [NxGraph.edgeset, List.mem_dedup, List.mem_flatMap, NxGraph.hasEdge, List.mem_cons,
    List.not_mem_nil, or_false, Prod.mk.injEq]
  constructor
  · rintro ⟨⟨a, b⟩, h, ⟨rfl, rfl⟩ | ⟨rfl, rfl⟩⟩
    · exact Or.inl h
    · exact Or.inr h
  · rintro (h | h)
    · exact ⟨_, h, Or.inl ⟨rfl, rfl⟩⟩
    · exact ⟨_, h, Or.inr ⟨rfl, rfl⟩⟩

theorem edgeset_nodup (G : NxGraph ℕ) : G.edgeset.Nodup := List.nodup_dedup _

theorem NxGraph.hasEdge_symm {α : Type} {G : NxGraph α} {u v : α} (h : G.hasEdge u v) : G.hasEdge v u := Or.symm h

theorem next_closed {G : NxGraph ℕ} {cw : ℕ → ℕ → ℕ} (hm : ∀ v u, G.hasEdge v u → G.hasEdge v (cw v u)) :
    ∀ x ∈ G.edgeset, nextDart cw x ∈ G.edgeset := by
  intro x hx
  rw [mem_edgeset] at hx ⊢
  exact hm _ _ (NxGraph.hasEdge_symm hx)

theorem next_inj {G : NxGraph ℕ} {cw : ℕ → ℕ → ℕ}
    (hi : ∀ v u u', G.hasEdge v u → G.hasEdge v u' → cw v u = cw v u' → u = u') :
    ∀ x ∈ G.edgeset, ∀ y ∈ G.edgeset, nextDart cw x = nextDart cw y → x = y := by
  rintro ⟨a, b⟩ hx ⟨c, d⟩ hy h
  rw [mem_edgeset] at hx hy
  simp only [nextDart, Prod.mk.injEq] at h hx hy
  obtain ⟨rfl, h⟩ := h
  rw [hi b a c (NxGraph.hasEdge_symm hx) (NxGraph.hasEdge_symm hy) h]

/-- What tracing the faces yields. -/
structure IsFaceList (G : NxGraph ℕ) (cw : ℕ → ℕ → ℕ) (F : List (List Dart)) : Prop where
  perm : F.flatten.Perm G.edgeset
  cyc : ∀ f ∈ F, IsCyc (nextDart cw) f

theorem traceFaces_ok {G : NxGraph ℕ} {cw : ℕ → ℕ → ℕ} (hE : G.edges ≠ [])
    (hm : ∀ v u, G.hasEdge v u → G.hasEdge v (cw v u))
    (hi : ∀ v u u', G.hasEdge v u → G.hasEdge v u' → cw v u = cw v u' → u = u') :
    ∃ F, traceFaces cw G = .ok F ∧ IsFaceList G cw F := by
  have hne : G.edgeset ≠ [] := by
    obtain ⟨e, es, he⟩ := List.exists_cons_of_ne_nil hE
    intro h
    have : (e.1, e.2) ∈ G.edgeset := mem_edgeset.2 (Or.inl (by rw [he]; simp))
    rw [h] at this
    simp at this
  obtain ⟨m, hmin⟩ := minDart_isSome hne
  have hmm := minDart_mem hmin
  have hD := edgeset_nodup G
  have hcl := next_closed hm
  have hinj := next_inj hi
  obtain ⟨F, path, h1, h2, -⟩ := facesLoop_ok cw hD hcl hinj G.edgeset.length (G.edgeset.erase m) [] [m]
    (by rw [List.length_erase_of_mem hmm]; omega)
    ⟨by simpa using (List.perm_append_singleton _ _).trans (List.perm_cons_erase hmm).symm, ⟨m, 0, rfl⟩, by simp⟩
  have hc := h2.closed hD hcl hinj
  have hp : path ≠ [] := by
    obtain ⟨d, k, rfl, _⟩ := hc
    simp [List.iterate]
  refine ⟨F ++ [path], ?_, ?_, ?_⟩
  · unfold traceFaces
    rw [hmin]
    simp only [h1, bind, Except.bind, if_pos hp, pure, Except.pure]
  · refine List.Perm.trans ?_ h2.perm
    rw [List.flatten_append]
    simp only [List.flatten_cons, List.flatten_nil, List.append_nil, List.nil_append]
    exact List.perm_append_comm
  · intro f hf
    rcases List.mem_append.1 hf with hf | hf
    · exact h2.cyc f hf
    · rw [List.mem_singleton] at hf; subst hf; exact hc

theorem moveOuter_perm (outer : List ℕ) (F : List (List Dart)) : (moveOuter outer F).Perm F := by
  unfold moveOuter
  split
  · exact List.Perm.refl _
  · rename_i f hf
    exact (List.perm_append_singleton _ _).trans (List.perm_cons_erase (List.mem_of_find?_eq_some hf)).symm

theorem IsFaceList.of_perm {G : NxGraph ℕ} {cw : ℕ → ℕ → ℕ} {F F' : List (List Dart)} (h : IsFaceList G cw F)
    (hp : F'.Perm F) : IsFaceList G cw F' :=
  ⟨(List.Perm.flatten hp).trans h.perm, fun f hf => h.cyc f (hp.mem_iff.1 hf)⟩

theorem IsCyc.walk {cw : ℕ → ℕ → ℕ} {f : List Dart} (h : IsCyc (nextDart cw) f) : Spec.IsFaceWalk cw f := by
  obtain ⟨d, k, rfl, hc⟩ := h
  refine ⟨by simp [List.iterate], fun i hi => ?_⟩
  have hi' : i < k + 1 := by simpa using hi
  simp only [List.getElem_iterate, List.length_iterate]
  change _ = nextDart cw _
  rw [← Function.iterate_succ_apply' (nextDart cw)]
  by_cases h1 : i + 1 < k + 1
  · rw [Nat.mod_eq_of_lt h1]
  · have h2 : i = k := by omega
    subst h2
    rw [Nat.mod_self]
    exact hc.symm

theorem faces_ok (nx : Nx) {G : NxGraph ℕ} {cw : ℕ → ℕ → ℕ} (hE : G.edges ≠ [])
    (hm : ∀ v u, G.hasEdge v u → G.hasEdge v (cw v u))
    (hi : ∀ v u u', G.hasEdge v u → G.hasEdge v u' → cw v u = cw v u' → u = u') :
    ∃ F, traceFaces cw G = .ok F ∧ faces nx G (some cw) = .ok (some (moveOuter (nx.outerFace cw) F)) ∧
      IsFaceList G cw F := by
  obtain ⟨F, h1, h2⟩ := traceFaces_ok hE hm hi
  refine ⟨F, h1, ?_, h2⟩
  unfold faces
  have hne : G.edgeset ≠ [] := by
    obtain ⟨e, es, he⟩ := List.exists_cons_of_ne_nil hE
    intro h
    have : (e.1, e.2) ∈ G.edgeset := mem_edgeset.2 (Or.inl (by rw [he]; simp))
    rw [h] at this
    simp at this
  obtain ⟨m, hmin⟩ := minDart_isSome hne
  have ho : (some cw <|> nx.checkPlanarity G) = some cw := rfl
  simp only [hmin, ho, h1, bind, Except.bind]
  rfl

end FF
