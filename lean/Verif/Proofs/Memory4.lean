import Verif.Proofs.Memory3

/-! # Helper lemmas: rotations, cleaning, faces and paths in memory -/

namespace FF

open Matrix

theorem rotate_refine {m k d : ℕ} (C : Nd (Fin m × Fin k)) (alphas : List (Nd (Fin d × Fin d))) (left : Bool) (h : Heap)
    (hC : C.buf < h.next) (hal : ∀ a ∈ alphas, a.buf < h.next) :
    ∃ r h', (rotateOperatorsM C alphas left).exec h = (r, h') ∧ Spec.Untouched h h' ∧
      rotateOperators (.matrixFirst (C.mat h) (alphas.map fun a => a.mat h)) left =
        r.map (fun o => o.map fun bs => bs.map fun b => b.mat h') ∧
      ∀ bs, r = .ok (some bs) → (∀ b ∈ bs, h.next ≤ b.buf ∧ b.buf < h'.next) ∧ bs.Pairwise fun b c => b.buf ≠ c.buf := by
  rw [rotateOperatorsM, rotateOperators]
  simp only [List.length_map]
  by_cases hs : m ≠ alphas.length ∧ k ≠ alphas.length ∧ ¬ (m > alphas.length ∧ k > alphas.length)
  · rw [if_pos hs, if_pos hs]
    exact ⟨.ok none, h, rfl, untouched_refl h, rfl, by rintro bs ⟨⟩⟩
  · rw [if_neg hs, if_neg hs]
    cases left with
    | false =>
      simp only [Bool.false_eq_true, if_false]
      obtain ⟨r, h', e1, e2, e3, e4⟩ := rotation_refine C alphas hC hal
      rw [e3]
      cases r with
      | error e => exact ⟨.error e, h', exec_bind_error e1, e2, rfl, by rintro bs ⟨⟩⟩
      | ok bs =>
        refine ⟨.ok (some bs), h', exec_bind_ok e1, e2, rfl, ?_⟩
        rintro _ ⟨⟩
        exact e4 bs rfl
    | true =>
      simp only [if_true]
      obtain ⟨C', h1, f1, f2, f3, f4, f5, f6⟩ := exec_newArr C.cplx (fun ij => star (C.val h ij)) h
      have hC' : (C'.view fun ij : Fin k × Fin m => (ij.2, ij.1)).mat h1 = (C.mat h)ᴴ := by
        ext i j
        exact congrFun f5 (j, i)
      obtain ⟨r, h', e1, e2, e3, e4⟩ := rotation_refine (C'.view fun ij : Fin k × Fin m => (ij.2, ij.1)) alphas (h0 := h1)
        (by show C'.buf < _; omega) (fun a ha => (hal a ha).trans_le f4.1)
      have hal1 : (alphas.map fun a => a.mat h1) = alphas.map fun a : Nd (Fin d × Fin d) => a.mat h :=
        List.map_congr_left fun a ha => mat_of_val (f4.val (hal a ha))
      rw [hC', hal1] at e3
      rw [e3, exec_bind_ok (exec_readArr C h), exec_bind_ok f1]
      cases r with
      | error e => exact ⟨.error e, h', exec_bind_error e1, f4.trans e2, rfl, by rintro bs ⟨⟩⟩
      | ok bs =>
        refine ⟨.ok (some bs), h', exec_bind_ok e1, f4.trans e2, rfl, ?_⟩
        rintro _ ⟨⟩
        exact ⟨fun b hb => ⟨f4.1.trans ((e4 bs rfl).1 b hb).1, ((e4 bs rfl).1 b hb).2⟩, (e4 bs rfl).2⟩

theorem clean_refine {n : ℕ} (nd : ℤ) (thr : ℝ) (obj : Nd (Fin n)) (h : Heap) :
    ∃ b h', (cleanArrM nd thr obj).exec h = (.ok b, h') ∧ Spec.Untouched h h' ∧
      cleanWith nd thr (.array (List.ofFn (obj.val h))) = .ok (.array (List.ofFn (b.val h'))) ∧
      h.next ≤ b.buf ∧ b.buf < h'.next := by
  rw [cleanArrM, exec_bind_ok (exec_readArr obj h), cleanWith]
  have hall : (∀ z ∈ List.ofFn (obj.val h), |z.im| < thr) ↔ ∀ i, |(obj.val h i).im| < thr := by
    simp [List.mem_ofFn]
  by_cases hc : ∀ i, |(obj.val h i).im| < thr
  · rw [if_pos hc, if_pos (hall.2 hc)]
    obtain ⟨b, h', e1, e2, e3, e4, e5, -⟩ := exec_newArr false (fun i => ((npRound nd (obj.val h i).re : ℝ) : ℂ)) h
    refine ⟨b, h', e1, e4, ?_, e2.ge, by omega⟩
    rw [e5, List.map_ofFn]
    rfl
  · rw [if_neg hc, if_neg (fun hx => hc (hall.1 hx))]
    obtain ⟨b, h1, e1, e2, e3, e4, e5, e6⟩ := exec_newArr obj.cplx (fun i => npRoundC nd (obj.val h i)) h
    obtain ⟨h', g1, g2, g3, g4⟩ := exec_write_view e6 (fun i : {i : Fin n // ‖b.val h1 i‖ < thr} => i.1)
      Subtype.val_injective (fun _ => 0) h1
    refine ⟨b, h', ?_, onlyBuf_untouched e4 e2.ge g2, ?_, e2.ge, by rw [g2.1]; omega⟩
    · exact (exec_bind_ok e1).trans ((exec_bind_ok (exec_readArr b h1)).trans ((exec_bind_ok g1).trans rfl))
    · congr 2
      rw [roundAndZero, List.map_ofFn, List.map_ofFn]
      congr 1
      funext i
      simp only [Function.comp]
      by_cases hi : ‖b.val h1 i‖ < thr
      · rw [show b.val h' i = 0 from g3 ⟨i, hi⟩, if_pos (by rw [e5] at hi; exact hi)]
      · rw [g4 i (by rintro ⟨k, hk⟩ rfl; exact hi hk), e5, if_neg (by rw [e5] at hi; exact hi)]

/-! ## faces -/

theorem setEntry_refine {n : ℕ} {pfo : Nd (Fin n × Fin n)} (ha : Plain pfo) (u v : ℕ) (x : ℂ) (h : Heap) :
    ∃ h', (setEntryM pfo u v x).exec h = ((setEntry (pfo.mat h) u v x).map fun _ => (), h') ∧ OnlyBuf pfo.buf h h' ∧
      ∀ y, setEntry (pfo.mat h) u v x = .ok y → pfo.mat h' = y := by
  rw [setEntryM, setEntry]
  by_cases huv : u < n ∧ v < n
  · rw [dif_pos huv, if_pos huv]
    obtain ⟨h', e1, e2, e3, e4⟩ := exec_write_view ha (fun _ : Unit => ((⟨u, huv.1⟩, ⟨v, huv.2⟩) : Fin n × Fin n))
      (fun _ _ _ => rfl) (fun _ => x) h
    refine ⟨h', e1, e2, ?_⟩
    rintro _ ⟨⟩
    ext a b
    by_cases hab : a.1 = u ∧ b.1 = v
    · rw [if_pos hab]
      have : (a, b) = ((⟨u, huv.1⟩, ⟨v, huv.2⟩) : Fin n × Fin n) := by
        ext1
        · exact Fin.ext hab.1
        · exact Fin.ext hab.2
      rw [Nd.mat, of_apply, this]
      exact e3 ()
    · rw [if_neg hab]
      refine e4 (a, b) fun _ hx => hab ?_
      cases hx
      exact ⟨rfl, rfl⟩
  · rw [dif_neg huv, if_neg huv]
    exact ⟨h, rfl, OnlyBuf.refl _ h, fun y hy => by cases hy⟩

theorem face_refine {n : ℕ} {pfo : Nd (Fin n × Fin n)} (ha : Plain pfo) (edges : List Dart) (h : Heap) :
    ∃ r h', (completeFaceM pfo edges).exec h = (r, h') ∧ OnlyBuf pfo.buf h h' ∧ (∀ o b, r = .ok o → o = some b → b = pfo) ∧
      completeFace (pfo.mat h) edges = r.map fun o => (pfo.mat h', o.isSome) := by
  rw [completeFaceM, completeFace, exec_bind_ok (exec_readArr pfo h)]
  show ∃ r h', Rand.exec (noDraw (scanFace (pfo.mat h) edges) >>= _) h = (r, h') ∧ _
  cases hs : scanFace (pfo.mat h) edges with
  | error e => exact ⟨.error e, h, exec_bind_error (exec_noDraw _ h), OnlyBuf.refl _ h, by rintro o b ⟨⟩, rfl⟩
  | ok s =>
    rw [exec_bind_ok (exec_noDraw_ok rfl h)]
    simp only [bind, Except.bind]
    cases hl : s.2.getLast? with
    | none => exact ⟨.ok none, h, rfl, OnlyBuf.refl _ h, by rintro o b ⟨⟩ ⟨⟩, rfl⟩
    | some e =>
      simp only
      generalize (if s.1 = -1 then prefixSign e else -1 * prefixSign e) = x
      obtain ⟨h1, e1, e2, e3⟩ := setEntry_refine ha (min e.1 e.2) (max e.1 e.2) x h
      cases hy : setEntry (pfo.mat h) (min e.1 e.2) (max e.1 e.2) x with
      | error er =>
        rw [hy] at e1
        exact ⟨.error er, h1, exec_bind_error e1, e2, by rintro o b ⟨⟩, rfl⟩
      | ok y =>
        rw [hy] at e1
        obtain rfl := e3 y hy
        obtain ⟨h2, f1, f2, f3⟩ := setEntry_refine ha (max e.1 e.2) (min e.1 e.2) x h1
        simp only
        cases hz : setEntry (pfo.mat h1) (max e.1 e.2) (min e.1 e.2) x with
        | error er =>
          rw [hz] at f1
          exact ⟨.error er, h2, (exec_bind_ok e1).trans (exec_bind_error f1), e2.trans f2, by rintro o b ⟨⟩, rfl⟩
        | ok z =>
          rw [hz] at f1
          obtain rfl := f3 z hz
          exact ⟨.ok (some pfo), h2, (exec_bind_ok e1).trans ((exec_bind_ok f1).trans rfl), e2.trans f2,
            by rintro o b ⟨⟩ ⟨⟩; rfl, rfl⟩

/-! ## paths -/

theorem path_refine {n : ℕ} (w v : Nd (Fin n)) (h : Heap) :
    ∃ P h', (buildLinearPathM w v).exec h = (.ok P, h') ∧ Spec.Untouched h h' ∧
      P.w.val h' = ((vnorm (w.val h) : ℝ) : ℂ)⁻¹ • w.val h ∧ P.v.val h' = ((vnorm (v.val h) : ℝ) : ℂ)⁻¹ • v.val h ∧
      (h.next ≤ P.w.buf ∧ P.w.buf < h'.next) ∧ (h.next ≤ P.v.buf ∧ P.v.buf < h'.next) := by
  obtain ⟨a, h1, e1, e2, e3, e4, e5, -⟩ := exec_newArr w.cplx (((vnorm (w.val h) : ℝ) : ℂ)⁻¹ • w.val h) h
  obtain ⟨b, h2, f1, f2, f3, f4, f5, -⟩ := exec_newArr v.cplx (((vnorm (v.val h) : ℝ) : ℂ)⁻¹ • v.val h) h1
  refine ⟨⟨a, b⟩, h2, ?_, e4.trans f4, ?_, f5, ⟨e2.ge, by show a.buf < _; omega⟩, ⟨by show _ ≤ b.buf; omega, by show b.buf < _; omega⟩⟩
  · rw [buildLinearPathM, exec_bind_ok (exec_readArr w h), exec_bind_ok (exec_readArr v h), exec_bind_ok e1, exec_bind_ok f1]
    rfl
  · show a.val h2 = _
    rw [f4.val (by omega), e5]

theorem call_refine {n : ℕ} (P : LinearPath n) (s : ℝ) (h : Heap) :
    ∃ b h', (P.call s).exec h = (.ok b, h') ∧ Spec.Untouched h h' ∧
      b.val h' = ((vnorm ((s : ℂ) • P.v.val h + (1 - (s : ℂ)) • P.w.val h) : ℝ) : ℂ)⁻¹ •
        ((s : ℂ) • P.v.val h + (1 - (s : ℂ)) • P.w.val h) ∧ h.next ≤ b.buf ∧ b.buf < h'.next := by
  obtain ⟨a, h1, e1, e2, e3, e4, e5, -⟩ := exec_newArr (P.w.cplx || P.v.cplx)
    (((vnorm ((s : ℂ) • P.v.val h + (1 - (s : ℂ)) • P.w.val h) : ℝ) : ℂ)⁻¹ •
        ((s : ℂ) • P.v.val h + (1 - (s : ℂ)) • P.w.val h)) h
  refine ⟨a, h1, ?_, e4, e5, e2.ge, by omega⟩
  rw [LinearPath.call, exec_bind_ok (exec_readArr P.w h), exec_bind_ok (exec_readArr P.v h)]
  exact e1

end FF
