import Verif.Proofs.Memory

/-! # Helper lemmas: the functions on arrays in memory refine the functions on values -/

namespace FF

open Matrix

theorem mat_add {m n : ℕ} {h h' : Heap} {a : Nd (Fin m × Fin n)} {x : Fin m × Fin n → ℂ} (hv : a.val h' = a.val h + x) :
    a.mat h' = a.mat h + Matrix.of fun i j => x (i, j) := by
  ext i j
  simp [Nd.mat, hv]

theorem listGet_map {α β : Type} (f : α → β) (l : List α) (i : ℕ) : listGet (l.map f) i = (listGet l i).map f := by
  rw [listGet, listGet, List.getElem?_map]
  cases l[i]? <;> rfl

theorem listGet_mem {α : Type} {l : List α} {i : ℕ} {x : α} (h : listGet l i = .ok x) : x ∈ l := by
  rw [listGet] at h
  cases hx : l[i]? with
  | none => rw [hx] at h; cases h
  | some y =>
    rw [hx] at h
    cases h
    exact List.mem_of_getElem? hx

section
variable {m k d : ℕ} (C : Nd (Fin m × Fin k)) (alphas : List (Nd (Fin d × Fin d))) {h0 : Heap}

theorem rotation_step (hC : C.buf < h0.next) (hal : ∀ a ∈ alphas, a.buf < h0.next) (j : ℕ) {b : Nd (Fin d × Fin d)} (hb : Plain b)
    (hb0 : h0.next ≤ b.buf) {h : Heap} (hu : Spec.Untouched h0 h) (i : ℕ) :
    ∃ h', (rotationStepM C alphas j b i).exec h = (Except.map (fun _ => ()) (do
        let c ← get2 (C.mat h0) j i
        if ‖c‖ < 1e-9 then pure (b.mat h)
        else do
          let a ← listGet (alphas.map fun a : Nd (Fin d × Fin d) => a.mat h0) i
          pure (b.mat h + c • a)), h') ∧ OnlyBuf b.buf h h' ∧ ∀ y, (do
        let c ← get2 (C.mat h0) j i
        if ‖c‖ < 1e-9 then pure (b.mat h)
        else do
          let a ← listGet (alphas.map fun a : Nd (Fin d × Fin d) => a.mat h0) i
          pure (b.mat h + c • a) : Except PyErr (Op d)) = .ok y → b.mat h' = y := by
  have hCv : C.mat h = C.mat h0 := mat_of_val (hu.val hC)
  rw [rotationStepM, exec_bind_ok (exec_readArr C h)]
  have hg : getEntry (C.val h) j i = get2 (C.mat h0) j i := by rw [← hCv]; rfl
  cases hc : get2 (C.mat h0) j i with
  | error e =>
    rw [hc] at hg
    exact ⟨h, by rw [hg]; rfl, OnlyBuf.refl _ _, fun y hy => by simp [bind, Except.bind] at hy⟩
  | ok c =>
    rw [hc] at hg
    rw [exec_bind_ok (exec_noDraw_ok hg h)]
    by_cases hs : ‖c‖ < 1e-9
    · rw [if_pos hs]
      simp only [bind, Except.bind, if_pos hs]
      exact ⟨h, rfl, OnlyBuf.refl _ _, fun y hy => by simpa [pure, Except.pure] using hy⟩
    · rw [if_neg hs]
      simp only [bind, Except.bind, if_neg hs, listGet_map]
      cases ha : listGet alphas i with
      | error e => exact ⟨h, exec_bind_error (exec_noDraw _ h), OnlyBuf.refl _ _, fun y hy => by simp [Except.map] at hy⟩
      | ok a =>
        have hain := hal a (listGet_mem ha)
        obtain ⟨h', e1, e2, e3⟩ := exec_addInto hb (c • a.val h) h
        refine ⟨h', ?_, e2, fun y hy => ?_⟩
        · refine (exec_bind_ok (exec_noDraw_ok rfl h)).trans ?_
          refine (exec_bind_ok (exec_readArr a h)).trans ?_
          rw [e1]
          rfl
        · simp only [Except.map, pure, Except.pure, Except.ok.injEq] at hy
          rw [← hy, mat_add e3, ← mat_of_val (hu.val hain)]
          rfl

theorem rotation_refine (hC : C.buf < h0.next) (hal : ∀ a ∈ alphas, a.buf < h0.next) :
    ∃ r h', (performRotationM C alphas).exec h0 = (r, h') ∧ Spec.Untouched h0 h' ∧
      performRotation (C.mat h0) (alphas.map fun a => a.mat h0) = r.map (fun bs => bs.map fun b => b.mat h') ∧
      ∀ bs, r = .ok bs → (∀ b ∈ bs, h0.next ≤ b.buf ∧ b.buf < h'.next) ∧ bs.Pairwise fun b c => b.buf ≠ c.buf := by
  rw [performRotationM, performRotation, List.length_map]
  refine mapM_refine _ _ h0 (fun h hu j => ?_) _ h0 (untouched_refl h0)
  obtain ⟨b, h1, e1, e2, e3, e4, e5, e6⟩ := exec_newArr true (0 : Fin d × Fin d → ℂ) h
  have hb0 : h0.next ≤ b.buf := by rw [e2]; exact hu.1
  have hzero : b.mat h1 = 0 := by ext p q; simp [Nd.mat, e5]
  obtain ⟨h', f1, f2, f3⟩ := forM_refine (OnlyBuf b.buf) (OnlyBuf.refl _) OnlyBuf.trans (fun h => b.mat h)
    (rotationStepM C alphas j b) (fun X i => do
        let c ← get2 (C.mat h0) j i
        if ‖c‖ < 1e-9 then pure X
        else do
          let a ← listGet (alphas.map fun a : Nd (Fin d × Fin d) => a.mat h0) i
          pure (X + c • a)) h1
    (fun h2 hg i => rotation_step C alphas hC hal j e6 hb0 (onlyBuf_untouched (hu.trans e4) hb0 hg) i)
    (List.range alphas.length) h1 (OnlyBuf.refl _ _)
  rw [hzero] at f1 f3
  have hu' : Spec.Untouched h h' := onlyBuf_untouched e4 (by rw [e2]) f2
  rw [exec_bind_ok e1]
  cases hr : (List.range alphas.length).foldlM (fun X i => do
        let c ← get2 (C.mat h0) j i
        if ‖c‖ < 1e-9 then pure X
        else do
          let a ← listGet (alphas.map fun a : Nd (Fin d × Fin d) => a.mat h0) i
          pure (X + c • a)) (0 : Op d) with
  | error e =>
    rw [hr] at f1
    exact ⟨.error e, h', exec_bind_error f1, hu', rfl, fun b hb => by cases hb⟩
  | ok y =>
    rw [hr] at f1
    refine ⟨.ok b, h', by rw [exec_bind_ok f1]; rfl, hu', ?_, ?_⟩
    · rw [Except.map, f3 y hr]
    · rintro _ ⟨⟩
      rw [e2, f2.1, e3]
      exact ⟨le_rfl, Nat.lt_succ_self _⟩

end

section
variable {m k d : ℕ} (R : Nd (Fin m × Fin k)) (alphas : List (Nd (Fin d × Fin d))) {h0 : Heap}

/-- The step of `build_op` on values. -/
noncomputable def opStep (R : Matrix (Fin m) (Fin k) ℂ) (alphas : List (Op d)) (direct : Bool) (acc : Op d) (i j : ℕ) :
    Except PyErr (Op d) :=
  open Classical in do
  let r ← get2 R i j
  if ‖r‖ < 1e-10 then pure acc
  else do
    let ai ← listGet alphas i
    let aj ← listGet alphas j
    if direct then pure (acc + r • (ai * aj))
    else pure (acc + r • (ai.conjTranspose * aj))

theorem op_step (hR : R.buf < h0.next) (hal : ∀ a ∈ alphas, a.buf < h0.next) (direct : Bool) {b : Nd (Fin d × Fin d)}
    (hb : Plain b) {h : Heap} (hu : Spec.Untouched h0 h) (i j : ℕ) :
    ∃ h', (opStepM R alphas direct b i j).exec h =
        ((opStep (R.mat h0) (alphas.map fun a => a.mat h0) direct (b.mat h) i j).map fun _ => (), h') ∧ OnlyBuf b.buf h h' ∧
      ∀ y, opStep (R.mat h0) (alphas.map fun a => a.mat h0) direct (b.mat h) i j = .ok y → b.mat h' = y := by
  have hRv : R.mat h = R.mat h0 := mat_of_val (hu.val hR)
  rw [opStepM, opStep, exec_bind_ok (exec_readArr R h)]
  have hg : getEntry (R.val h) i j = get2 (R.mat h0) i j := by rw [← hRv]; rfl
  cases hc : get2 (R.mat h0) i j with
  | error e =>
    rw [hc] at hg
    exact ⟨h, by rw [hg]; rfl, OnlyBuf.refl _ _, fun y hy => by simp [bind, Except.bind] at hy⟩
  | ok c =>
    rw [hc] at hg
    rw [exec_bind_ok (exec_noDraw_ok hg h)]
    by_cases hs : ‖c‖ < 1e-10
    · rw [if_pos hs]
      simp only [bind, Except.bind, if_pos hs]
      exact ⟨h, rfl, OnlyBuf.refl _ _, fun y hy => by simpa [pure, Except.pure] using hy⟩
    · rw [if_neg hs]
      simp only [bind, Except.bind, if_neg hs, listGet_map]
      cases ha : listGet alphas i with
      | error e => exact ⟨h, exec_bind_error (exec_noDraw _ h), OnlyBuf.refl _ _, fun y hy => by simp [Except.map] at hy⟩
      | ok a =>
        cases ha' : listGet alphas j with
        | error e =>
          exact ⟨h, (exec_bind_ok (exec_noDraw_ok rfl h)).trans (exec_bind_error (exec_noDraw _ h)), OnlyBuf.refl _ _,
            fun y hy => by simp [Except.map] at hy⟩
        | ok a' =>
          have hain := mat_of_val (hu.val (hal a (listGet_mem ha)))
          have hain' := mat_of_val (hu.val (hal a' (listGet_mem ha')))
          cases direct with
          | true =>
            obtain ⟨h', e1, e2, e3⟩ := exec_addInto hb (fun pq => (c • (a.mat h * a'.mat h)) pq.1 pq.2) h
            refine ⟨h', ?_, e2, fun y hy => ?_⟩
            · refine (exec_bind_ok (exec_noDraw_ok rfl h)).trans ((exec_bind_ok (exec_noDraw_ok rfl h)).trans ?_)
              exact (exec_bind_ok (exec_readArr a h)).trans ((exec_bind_ok (exec_readArr a' h)).trans e1)
            · simp only [Except.map, pure, Except.pure, if_true, Except.ok.injEq] at hy
              rw [← hy, mat_add e3, ← hain, ← hain']
              rfl
          | false =>
            obtain ⟨h', e1, e2, e3⟩ := exec_addInto hb (fun pq => (c • ((a.mat h)ᴴ * a'.mat h)) pq.1 pq.2) h
            refine ⟨h', ?_, e2, fun y hy => ?_⟩
            · refine (exec_bind_ok (exec_noDraw_ok rfl h)).trans ((exec_bind_ok (exec_noDraw_ok rfl h)).trans ?_)
              exact (exec_bind_ok (exec_readArr a h)).trans ((exec_bind_ok (exec_readArr a' h)).trans e1)
            · simp only [Except.map, pure, Except.pure, Bool.false_eq_true, if_false, Except.ok.injEq] at hy
              rw [← hy, mat_add e3, ← hain, ← hain']
              rfl

theorem buildOp_refine (hR : R.buf < h0.next) (hal : ∀ a ∈ alphas, a.buf < h0.next) (n : ℕ) (direct : Bool) :
    ∃ r h', (buildOpM n R alphas direct).exec h0 = (r, h') ∧ Spec.Untouched h0 h' ∧
      buildOp n (R.mat h0) (alphas.map fun a => a.mat h0) direct = r.map (fun b => b.mat h') ∧
      ∀ b, r = .ok b → h0.next ≤ b.buf ∧ b.buf < h'.next := by
  have hop : buildOp n (R.mat h0) (alphas.map fun a => a.mat h0) direct = (do
      let _ ← listGet (alphas.map fun a => a.mat h0) 0
      (List.range (2 * n)).foldlM (fun acc i => (List.range (2 * n)).foldlM (fun acc j =>
        opStep (R.mat h0) (alphas.map fun a => a.mat h0) direct acc i j) acc) 0) := rfl
  rw [buildOpM, hop, listGet_map]
  cases ha : listGet alphas 0 with
  | error e => exact ⟨.error e, h0, exec_bind_error (exec_noDraw _ h0), untouched_refl _, rfl, fun b hb => by cases hb⟩
  | ok a =>
    rw [exec_bind_ok (exec_noDraw_ok rfl h0)]
    obtain ⟨b, h1, e1, e2, e3, e4, e5, e6⟩ := exec_newArr true (0 : Fin d × Fin d → ℂ) h0
    have hzero : b.mat h1 = 0 := by ext p q; simp [Nd.mat, e5]
    have hb0 : h0.next ≤ b.buf := by rw [e2]
    obtain ⟨h', f1, f2, f3⟩ := forM_refine (OnlyBuf b.buf) (OnlyBuf.refl _) OnlyBuf.trans (fun h => b.mat h)
      (fun i => (List.range (2 * n)).forM fun j => opStepM R alphas direct b i j)
      (fun acc i => (List.range (2 * n)).foldlM (fun acc j =>
        opStep (R.mat h0) (alphas.map fun a => a.mat h0) direct acc i j) acc) h1
      (fun h2 hg i => forM_refine (OnlyBuf b.buf) (OnlyBuf.refl _) OnlyBuf.trans (fun h => b.mat h)
        (fun j => opStepM R alphas direct b i j) (fun acc j => opStep (R.mat h0) (alphas.map fun a => a.mat h0) direct acc i j)
        h1 (fun h3 hg3 j => op_step R alphas hR hal direct e6 (onlyBuf_untouched e4 hb0 hg3) i j) _ h2 hg)
      (List.range (2 * n)) h1 (OnlyBuf.refl _ _)
    rw [hzero] at f1 f3
    have hu' : Spec.Untouched h0 h' := onlyBuf_untouched e4 hb0 f2
    rw [exec_bind_ok e1]
    simp only [Except.map, bind, Except.bind]
    cases hr : (List.range (2 * n)).foldlM (fun acc i => (List.range (2 * n)).foldlM (fun acc j =>
        opStep (R.mat h0) (alphas.map fun a => a.mat h0) direct acc i j) acc) (0 : Op d) with
    | error e =>
      rw [hr] at f1
      exact ⟨.error e, h', exec_bind_error f1, hu', rfl, fun b hb => by cases hb⟩
    | ok y =>
      rw [hr] at f1
      refine ⟨.ok b, h', (exec_bind_ok f1).trans rfl, hu', ?_, ?_⟩
      · simp only
        rw [f3 y hr]
      · rintro _ ⟨⟩
        rw [e2, f2.1, e3]
        exact ⟨le_rfl, Nat.lt_succ_self _⟩

end

end FF
