import Verif.Proofs.Memory2

/-! # Helper lemmas: casts, blocks, partial traces and faces in memory -/

namespace FF

open Matrix

/-! ## casts -/

theorem exec_asComplex {ι : Type} [Encodable ι] (a : Nd ι) (h : Heap) (ha : a.buf < h.next) :
    ∃ b h', (asComplex a).exec h = (.ok b, h') ∧ Spec.Untouched h h' ∧ b.val h' = a.val h ∧ b.buf < h'.next ∧
      ((a.cplx = true ∧ b = a ∧ h' = h) ∨ (a.cplx = false ∧ h.next ≤ b.buf)) := by
  rw [asComplex]
  cases hc : a.cplx with
  | true => exact ⟨a, h, rfl, untouched_refl h, rfl, ha, .inl ⟨rfl, rfl, rfl⟩⟩
  | false =>
    obtain ⟨b, h', e1, e2, e3, e4, e5, -⟩ := exec_newArr true (a.val h) h
    refine ⟨b, h', ?_, e4, e5, by omega, .inr ⟨rfl, e2.ge⟩⟩
    simp only [Bool.false_eq_true, if_false]
    rw [exec_bind_ok (exec_readArr a h)]
    exact e1

/-- A new array with the entries of a matrix, as the last step. -/
theorem exec_newMat (r : Σ d : ℕ, Op d) (h : Heap) :
    ∃ (b : Nd (Fin r.1 × Fin r.1)) (h' : Heap), ((do
        let b ← newArr true fun ij : Fin r.1 × Fin r.1 => r.2 ij.1 ij.2
        pure (⟨r.1, b⟩ : Σ d : ℕ, Nd (Fin d × Fin d)) : Mem _)).exec h = (.ok ⟨r.1, b⟩, h') ∧
      Spec.Untouched h h' ∧ b.mat h' = r.2 ∧ h.next ≤ b.buf ∧ b.buf < h'.next := by
  obtain ⟨b, h', e1, e2, e3, e4, e5, -⟩ := exec_newArr true (fun ij : Fin r.1 × Fin r.1 => r.2 ij.1 ij.2) h
  refine ⟨b, h', by rw [exec_bind_ok e1]; rfl, e4, ?_, e2.ge, by omega⟩
  ext i j
  simp [Nd.mat, e5]

/-- What the memory version of `cast_to_density_matrix` does. -/
def CastSpec (rho : NdAny) (h : Heap) (r : Except PyErr (Σ d : ℕ, Nd (Fin d × Fin d))) (h' : Heap) : Prop :=
  Spec.Untouched h h' ∧ castToDensityMatrix (rho.value h) = r.map (fun x => ⟨x.1, x.2.mat h'⟩) ∧
    ∀ x, r = .ok x → x.2.buf < h'.next

theorem cast_vector {n : ℕ} (x : Fin n → ℂ) (h : Heap) : ∃ r h', ((do
      let r ← noDraw (castVector x)
      let b ← newArr true fun ij : Fin r.1 × Fin r.1 => r.2 ij.1 ij.2
      pure ⟨r.1, b⟩ : Mem (Σ d : ℕ, Nd (Fin d × Fin d)))).exec h = (r, h') ∧ Spec.Untouched h h' ∧
      castVector x = r.map (fun y => ⟨y.1, y.2.mat h'⟩) ∧ ∀ y, r = .ok y → h.next ≤ y.2.buf ∧ y.2.buf < h'.next := by
  cases hx : castVector x with
  | error e => exact ⟨.error e, h, exec_bind_error (exec_noDraw _ h), untouched_refl h, rfl, fun y hy => by cases hy⟩
  | ok r =>
    obtain ⟨b, h', e1, e2, e3, e4, e5⟩ := exec_newMat r h
    refine ⟨.ok ⟨r.1, b⟩, h', (exec_bind_ok (exec_noDraw_ok rfl h)).trans e1, e2, ?_, ?_⟩
    · simp only [Except.map, e3]
    · rintro _ ⟨⟩; exact ⟨e4, e5⟩

theorem validate_ok {m n : ℕ} {A : Matrix (Fin m) (Fin n) ℂ} {y : Σ d : ℕ, Op d} (h : validateDM A = .ok y) :
    ∃ hmn : n = m, y = ⟨m, A.submatrix id (Fin.cast hmn.symm)⟩ := by
  rw [validateDM] at h
  by_cases hmn : m ≠ n
  · rw [dif_pos hmn] at h; cases h
  · rw [dif_neg hmn] at h
    refine ⟨(not_not.1 hmn).symm, ?_⟩
    dsimp only at h
    split_ifs at h
    cases h
    rfl

/-- The density matrix cast. -/
theorem cast_refine (rho : NdAny) (h : Heap) (hin : Spec.InUseAny h rho) :
    ∃ r h', (castToDensityMatrixM rho).exec h = (r, h') ∧ Spec.Untouched h h' ∧
      castToDensityMatrix (rho.value h) = r.map (fun x => ⟨x.1, x.2.mat h'⟩) ∧
      ∀ x, r = .ok x → x.2.buf < h'.next ∧ (h.next ≤ x.2.buf ∨
        ∃ (d : ℕ) (a : Nd (Fin d × Fin d)), rho = .mat d d a ∧ a.cplx = true ∧ d ≠ 1 ∧ x = ⟨d, a⟩ ∧ h' = h) := by
  cases rho with
  | vec n a =>
    obtain ⟨b, h1, e1, e2, e3, -, -⟩ := exec_asComplex a h hin
    obtain ⟨r, h', f1, f2, f3, f4⟩ := cast_vector (b.val h1) h1
    refine ⟨r, h', ?_, e2.trans f2, ?_, fun x hx => ⟨(f4 x hx).2, .inl (e2.1.trans (f4 x hx).1)⟩⟩
    · rw [castToDensityMatrixM, exec_bind_ok e1, exec_bind_ok (exec_readArr b h1)]
      exact f1
    · rw [← f3, e3]; rfl
  | mat m n a =>
    obtain ⟨b, h1, e1, e2, e3, e4, e5⟩ := exec_asComplex a h hin
    have hA : (Matrix.of fun i j => b.val h1 (i, j)) = a.mat h := by rw [e3]; rfl
    by_cases hmin : min m n = 1
    · obtain ⟨r, h', f1, f2, f3, f4⟩ := cast_vector (Arr.mat m n (Matrix.of fun i j => b.val h1 (i, j))).flatten.2 h1
      refine ⟨r, h', ?_, e2.trans f2, ?_, fun x hx => ⟨(f4 x hx).2, .inl (e2.1.trans (f4 x hx).1)⟩⟩
      · rw [castToDensityMatrixM, exec_bind_ok e1, exec_bind_ok (exec_readArr b h1), if_pos hmin]
        exact f1
      · rw [← f3, hA]
        exact if_pos hmin
    · have hval : castToDensityMatrix ((NdAny.mat m n a).value h) = validateDM (a.mat h) := if_neg hmin
      rw [hval, castToDensityMatrixM, exec_bind_ok e1, exec_bind_ok (exec_readArr b h1), if_neg hmin, hA]
      cases hv : validateDM (a.mat h) with
      | error e => exact ⟨.error e, h1, exec_bind_error (exec_noDraw _ h1), e2, rfl, fun y hy => by cases hy⟩
      | ok y =>
        obtain ⟨hmn, rfl⟩ := validate_ok hv
        subst hmn
        refine ⟨.ok ⟨n, b⟩, h1, ?_, e2, ?_, ?_⟩
        · rw [exec_bind_ok (exec_noDraw_ok rfl h1), dif_pos rfl]
          rfl
        · simp only [Except.map]
          rw [← hA]
          rfl
        · rintro _ ⟨⟩
          refine ⟨e4, ?_⟩
          rcases e5 with ⟨g1, g2, g3⟩ | ⟨g1, g2⟩
          · exact .inr ⟨n, a, rfl, g1, fun hn => hmin (by rw [hn]; rfl), by rw [g2], g3⟩
          · exact .inl g2

theorem pdf_refine (rho : NdAny) (h : Heap) (hin : Spec.InUseAny h rho) :
    ∃ r h', (castToPdfM rho).exec h = (r, h') ∧ Spec.Untouched h h' ∧
      (∀ x : Σ d : ℕ, Nd (Fin d), r = .ok x → ∀ i, (x.2.val h' i).im = 0) ∧
      castToPdf (rho.value h) = r.map (fun x => ⟨x.1, fun i => (x.2.val h' i).re⟩) ∧
      ∀ x, r = .ok x → x.2.buf < h'.next ∧ (h.next ≤ x.2.buf ∨
        ∃ (d : ℕ) (a : Nd (Fin d × Fin d)), rho = .mat d d a ∧ a.cplx = true ∧ d ≠ 1 ∧
          x = ⟨d, ⟨a.buf, fun i => a.pos (i, i), false, true, false⟩⟩ ∧ h' = h) := by
  obtain ⟨r, h', e1, e2, e3, e4⟩ := cast_refine rho h hin
  rw [castToPdfM, castToPdf, e3]
  cases r with
  | error e => exact ⟨.error e, h', exec_bind_error e1, e2, fun _ hx => (nomatch hx), rfl, fun _ hx => (nomatch hx)⟩
  | ok x =>
    obtain ⟨d, b⟩ := x
    rw [exec_bind_ok e1, exec_bind_ok (exec_readArr _ h')]
    have hv : (fun i : Fin d => b.mat h' i i) =
        Nd.val { b.view (fun i => (i, i)) with writable := false } h' := rfl
    simp only [Except.map, bind, Except.bind]
    by_cases hc : allclose1 (fun i : Fin d => b.mat h' i i) (fun i => ((b.mat h' i i).re : ℂ))
    · refine ⟨.ok ⟨d, _⟩, h', congrArg (fun z : Mem _ => Rand.exec z h') (if_pos (by exact hc)), e2, ?_, ?_, ?_⟩
      · rintro _ ⟨⟩ i
        simp [Nd.val]
      · rw [if_pos hc]
        congr 2
        funext i
        simp only [Nd.val, if_true, Complex.ofReal_re, Nd.mat, of_apply, Nd.view, Function.comp]
        split_ifs <;> simp
      · rintro _ ⟨⟩
        obtain ⟨g1, g2⟩ := e4 _ rfl
        refine ⟨g1, g2.imp id ?_⟩
        rintro ⟨d', a, rfl, k1, k2, k3, k4⟩
        cases k3
        exact ⟨d, b, rfl, k1, k2, rfl, k4⟩
    · exact ⟨.error .valueError, h', congrArg (fun z : Mem _ => Rand.exec z h') (if_neg (by exact hc)), e2, fun _ hx => (nomatch hx),
        by rw [if_neg hc], fun _ hx => (nomatch hx)⟩

/-! ## blocks -/

theorem buildH_refine {n : ℕ} (A : Nd (Fin n × Fin n)) (B : Option (Nd (Fin n × Fin n))) (h : Heap) (hA : A.buf < h.next)
    (hB : ∀ b, B = some b → b.buf < h.next) :
    ∃ H h', (buildHM n A B).exec h = (.ok H, h') ∧ Spec.Untouched h h' ∧
      H.mat h' = buildH n (A.mat h) (B.map fun b => b.mat h) ∧ h.next ≤ H.buf ∧ H.buf < h'.next := by
  have hB' : ∃ b h1, (orZeros A B).exec h = (.ok b, h1) ∧
      Spec.Untouched h h1 ∧ b.mat h1 = (B.map fun b => b.mat h).getD 0 ∧ b.buf < h1.next := by
    cases B with
    | some b => exact ⟨b, h, rfl, untouched_refl h, rfl, hB b rfl⟩
    | none =>
      obtain ⟨b, h1, e1, e2, e3, e4, e5, -⟩ := exec_newArr A.cplx (0 : Fin n × Fin n → ℂ) h
      exact ⟨b, h1, e1, e4, by ext i j; simp [Nd.mat, e5], by omega⟩
  obtain ⟨b, h1, e1, e2, e3, e4⟩ := hB'
  obtain ⟨H, h2, f1, f2, f3, f4, f5, f6⟩ := exec_newArr true (0 : Fin (n + n) × Fin (n + n) → ℂ) h1
  have hA2 : A.buf ≠ H.buf := by have := e2.1; omega
  have hb2 : b.buf ≠ H.buf := by omega
  obtain ⟨h3, g1, g2, g3, g4⟩ := exec_write_view f6 (fun ij : Fin n × Fin n => (Fin.castAdd n ij.1, Fin.castAdd n ij.2))
    (by rintro ⟨i, j⟩ ⟨i', j'⟩ hij; simpa using hij) (fun ij => -star (A.val h2 ij)) h2
  obtain ⟨h4, k1, k2, k3, k4⟩ := exec_write_view f6 (fun ij : Fin n × Fin n => (Fin.castAdd n ij.1, Fin.natAdd n ij.2))
    (by rintro ⟨i, j⟩ ⟨i', j'⟩ hij; simpa using hij) (b.val h3) h3
  obtain ⟨h5, l1, l2, l3, l4⟩ := exec_write_view f6 (fun ij : Fin n × Fin n => (Fin.natAdd n ij.1, Fin.castAdd n ij.2))
    (by rintro ⟨i, j⟩ ⟨i', j'⟩ hij; simpa using hij) (fun ij => -star (b.val h4 ij)) h4
  obtain ⟨h6, m1, m2, m3, m4⟩ := exec_write_view f6 (fun ij : Fin n × Fin n => (Fin.natAdd n ij.1, Fin.natAdd n ij.2))
    (by rintro ⟨i, j⟩ ⟨i', j'⟩ hij; simpa using hij) (A.val h5) h5
  have hAv2 : A.val h2 = A.val h := (e2.trans f4).val hA
  have hAv5 : A.val h5 = A.val h := by rw [l2.val hA2, k2.val hA2, g2.val hA2, hAv2]
  have hbv3 : b.val h3 = b.val h1 := by rw [g2.val hb2, f4.val e4]
  have hbv4 : b.val h4 = b.val h1 := by rw [k2.val hb2, hbv3]
  have hon : OnlyBuf H.buf h2 h6 := g2.trans (k2.trans (l2.trans m2))
  have hne : ∀ i j : Fin n, Fin.castAdd n i ≠ Fin.natAdd n j := by
    intro i j hij
    have := congrArg Fin.val hij
    simp at this
    omega
  refine ⟨H, h6, ?_, onlyBuf_untouched (e2.trans f4) (by rw [f2]; exact e2.1) hon, ?_, by rw [f2]; exact e2.1,
    by rw [hon.1, f2, f3]; exact Nat.lt_succ_self _⟩
  · unfold buildHM
    refine (exec_bind_ok e1).trans ((exec_bind_ok f1).trans ((exec_bind_ok (exec_readArr A h2)).trans
      ((exec_bind_ok g1).trans ((exec_bind_ok (exec_readArr b h3)).trans ((exec_bind_ok k1).trans
      ((exec_bind_ok (exec_readArr b h4)).trans ((exec_bind_ok l1).trans ((exec_bind_ok (exec_readArr A h5)).trans
      ((exec_bind_ok m1).trans rfl)))))))))
  · rw [buildH, ← e3]
    ext i j
    refine Fin.addCases (fun i => ?_) (fun i => ?_) i <;> refine Fin.addCases (fun j => ?_) (fun j => ?_) j
    · rw [blk_11, Nd.mat, of_apply, m4, l4, k4]
      · refine (g3 (i, j)).trans ?_
        rw [hAv2]; rfl
      · rintro ⟨a, c⟩ hac; exact hne j c (Prod.mk.inj hac).2.symm
      · rintro ⟨a, c⟩ hac; exact hne i a (Prod.mk.inj hac).1.symm
      · rintro ⟨a, c⟩ hac; exact hne i a (Prod.mk.inj hac).1.symm
    · rw [blk_12, Nd.mat, of_apply, m4, l4]
      · refine (k3 (i, j)).trans ?_
        rw [hbv3]; rfl
      · rintro ⟨a, c⟩ hac; exact hne i a (Prod.mk.inj hac).1.symm
      · rintro ⟨a, c⟩ hac; exact hne i a (Prod.mk.inj hac).1.symm
    · rw [blk_21, Nd.mat, of_apply, m4]
      · refine (l3 (i, j)).trans ?_
        rw [hbv4]; rfl
      · rintro ⟨a, c⟩ hac; exact hne j c (Prod.mk.inj hac).2.symm
    · rw [blk_22, Nd.mat, of_apply]
      refine (m3 (i, j)).trans ?_
      rw [hAv5]; rfl

/-! ## partial trace -/

theorem ptrace_refine {D : ℕ} (AB : Nd (Fin D × Fin D)) (d : ℕ) (h : Heap) (hA : AB.buf < h.next) :
    ∃ r h', (partialTraceOver1M AB d).exec h = (r, h') ∧ Spec.Untouched h h' ∧
      partialTraceOver1 (AB.mat h) d = r.map (fun b => b.mat h') ∧
      ∀ b, r = .ok b → h.next ≤ b.buf ∧ b.buf < h'.next := by
  rw [partialTraceOver1M, partialTraceOver1]
  cases hd : blockCount D d with
  | error e => exact ⟨.error e, h, exec_bind_error (exec_noDraw _ h), untouched_refl _, rfl, fun b hb => by cases hb⟩
  | ok d2 =>
    rw [exec_bind_ok (exec_noDraw_ok rfl h)]
    obtain ⟨b, h1, e1, e2, e3, e4, e5, e6⟩ := exec_newArr true (0 : Fin d × Fin d → ℂ) h
    have hzero : b.mat h1 = 0 := by ext p q; simp [Nd.mat, e5]
    have hb0 : h.next ≤ b.buf := e2.ge
    obtain ⟨h', f1, f2, f3⟩ := forM_refine (OnlyBuf b.buf) (OnlyBuf.refl _) OnlyBuf.trans (fun h => b.mat h)
      (fun j => (do
        let x ← readArr AB
        addInto b fun pq => entry (Matrix.of fun a b => x (a, b)) (j * d + pq.1) (j * d + pq.2)))
      (fun A j => .ok (A + Matrix.of fun (x y : Fin d) => entry (AB.mat h) (j * d + x) (j * d + y))) h1
      (fun h2 hg j => by
        have hu := onlyBuf_untouched e4 hb0 hg
        obtain ⟨h3, g1, g2, g3⟩ := exec_addInto e6 (fun pq : Fin d × Fin d =>
          entry (Matrix.of fun a b => AB.val h2 (a, b)) (j * d + pq.1) (j * d + pq.2)) h2
        refine ⟨h3, (exec_bind_ok (exec_readArr AB h2)).trans g1, g2, ?_⟩
        rintro _ ⟨⟩
        rw [mat_add g3, hu.val hA]
        rfl)
      (List.range d2) h1 (OnlyBuf.refl _ _)
    have hfold : ∀ (l : List ℕ) (A : Op d), l.foldlM (fun A j => (.ok (A + Matrix.of fun (x y : Fin d) =>
        entry (AB.mat h) (j * d + x) (j * d + y)) : Except PyErr (Op d))) A =
        .ok (l.foldl (fun A j => A + Matrix.of fun (x y : Fin d) => entry (AB.mat h) (j * d + x) (j * d + y)) A) := by
      intro l
      induction l with
      | nil => intro A; rfl
      | cons j l ih => intro A; rw [List.foldlM_cons, List.foldl_cons, ← ih]; rfl
    rw [hzero, hfold] at f1 f3
    rw [exec_bind_ok e1, exec_bind_ok f1]
    refine ⟨.ok b, h', rfl, onlyBuf_untouched e4 hb0 f2, ?_, ?_⟩
    · simp only [Except.map, bind, Except.bind]
      rw [f3 _ rfl]
    · rintro _ ⟨⟩
      rw [e2, f2.1, e3]
      exact ⟨le_rfl, Nat.lt_succ_self _⟩

end FF
