import Verif.Proofs.Memory4
import Verif.Props.Utils

/-!
# C124: arguments keep their contents, results keep theirs

For a program that keeps using the arrays it passed in. `Untouched h h'` says that all memory in use before the call has the
same contents after it; `Own h h' a` says that later assignments to the arguments (or to anything else that does not belong to
the result) do not change the result. Both hold, and the values are those of the models without memory, for
`rotate_operators`, `build_op`, `build_H`, `partial_trace_diagblocksum`, `clean` and `build_linear_path`. The casts leave
their argument alone but may return it (`C124_cast_alias`) or a view of it (`C124_pdf_later`); `complete_face` changes its
argument.
-/

namespace FF.Props

open Matrix

/-- `rotate_operators(C, alphas)`: arguments unchanged; the results are those computed from the entries at the time of the
call, in arrays of their own that do not overlap. -/
theorem C124_rotate {m k d : ℕ} (C : Nd (Fin m × Fin k)) (alphas : List (Nd (Fin d × Fin d))) (left : Bool) (h : Heap)
    (hC : Spec.InUse h C) (hal : ∀ a ∈ alphas, Spec.InUse h a) :
    ∃ r h', (rotateOperatorsM C alphas left).exec h = (r, h') ∧ Spec.Untouched h h' ∧
      rotateOperators (.matrixFirst (C.mat h) (alphas.map fun a => a.mat h)) left =
        r.map (fun o => o.map fun bs => bs.map fun b => b.mat h') ∧
      ∀ bs, r = .ok (some bs) → (∀ b ∈ bs, Spec.Own h h' b) ∧ bs.Pairwise fun b c => b.buf ≠ c.buf := by
  obtain ⟨r, h', e1, e2, e3, e4⟩ := rotate_refine C alphas left h hC hal
  exact ⟨r, h', e1, e2, e3, fun bs hbs => ⟨fun b hb => own_of ((e4 bs hbs).1 b hb).1 ((e4 bs hbs).1 b hb).2, (e4 bs hbs).2⟩⟩

/-- `build_op(n_sites, R, alphas, direct)`. -/
theorem C124_build_op {m k d : ℕ} (n : ℕ) (R : Nd (Fin m × Fin k)) (alphas : List (Nd (Fin d × Fin d))) (direct : Bool) (h : Heap)
    (hR : Spec.InUse h R) (hal : ∀ a ∈ alphas, Spec.InUse h a) :
    ∃ r h', (buildOpM n R alphas direct).exec h = (r, h') ∧ Spec.Untouched h h' ∧
      buildOp n (R.mat h) (alphas.map fun a => a.mat h) direct = r.map (fun b => b.mat h') ∧
      ∀ b, r = .ok b → Spec.Own h h' b := by
  obtain ⟨r, h', e1, e2, e3, e4⟩ := buildOp_refine R alphas hR hal n direct
  exact ⟨r, h', e1, e2, e3, fun b hb => own_of (e4 b hb).1 (e4 b hb).2⟩

/-- `build_H(n_sites, A, B)`; `A` and `B` may be the same array. -/
theorem C124_build_H {n : ℕ} (A : Nd (Fin n × Fin n)) (B : Option (Nd (Fin n × Fin n))) (h : Heap) (hA : Spec.InUse h A)
    (hB : ∀ b, B = some b → Spec.InUse h b) :
    ∃ H h', (buildHM n A B).exec h = (.ok H, h') ∧ Spec.Untouched h h' ∧
      H.mat h' = buildH n (A.mat h) (B.map fun b => b.mat h) ∧ Spec.Own h h' H := by
  obtain ⟨H, h', e1, e2, e3, e4, e5⟩ := buildH_refine A B h hA hB
  exact ⟨H, h', e1, e2, e3, own_of e4 e5⟩

/-- `partial_trace_diagblocksum(AB, d)`. -/
theorem C124_partial_trace {D : ℕ} (AB : Nd (Fin D × Fin D)) (d : ℕ) (h : Heap) (hA : Spec.InUse h AB) :
    ∃ r h', (partialTraceOver1M AB d).exec h = (r, h') ∧ Spec.Untouched h h' ∧
      partialTraceOver1 (AB.mat h) d = r.map (fun b => b.mat h') ∧ ∀ b, r = .ok b → Spec.Own h h' b := by
  obtain ⟨r, h', e1, e2, e3, e4⟩ := ptrace_refine AB d h hA
  exact ⟨r, h', e1, e2, e3, fun b hb => own_of (e4 b hb).1 (e4 b hb).2⟩

/-- `clean(obj, threshold)` for an array: the argument keeps its small entries. -/
theorem C124_clean {n : ℕ} (nd : ℤ) (thr : ℝ) (obj : Nd (Fin n)) (h : Heap) :
    ∃ b h', (cleanArrM nd thr obj).exec h = (.ok b, h') ∧ Spec.Untouched h h' ∧
      cleanWith nd thr (.array (List.ofFn (obj.val h))) = .ok (.array (List.ofFn (b.val h'))) ∧ Spec.Own h h' b := by
  obtain ⟨b, h', e1, e2, e3, e4, e5⟩ := clean_refine nd thr obj h
  exact ⟨b, h', e1, e2, e3, own_of e4 e5⟩

/-- `path = build_linear_path(w, v)`: whatever is stored in `w` and `v` (or in any other array) afterwards, `path(s)` is the
point of the path between the original vectors. -/
theorem C124_linear_path {n : ℕ} (w v : Nd (Fin n)) (h : Heap) :
    ∃ P h', (buildLinearPathM w v).exec h = (.ok P, h') ∧ Spec.Untouched h h' ∧
      ∀ h1 : Heap, (∀ b, h.next ≤ b → b < h'.next → ∀ p, h1.mem b p = h'.mem b p) → ∀ s : ℝ,
        ∃ b h2, (P.call s).exec h1 = (.ok b, h2) ∧ Spec.Untouched h1 h2 ∧
          b.val h2 = buildLinearPath (w.val h) (v.val h) s ∧ Spec.Own h1 h2 b := by
  obtain ⟨P, h', e1, e2, e3, e4, e5, e6⟩ := path_refine w v h
  refine ⟨P, h', e1, e2, fun h1 hh s => ?_⟩
  obtain ⟨b, h2, f1, f2, f3, f4, f5⟩ := call_refine P s h1
  refine ⟨b, h2, f1, f2, ?_, own_of f4 f5⟩
  have hw : P.w.val h1 = P.w.val h' := val_congr (hh _ e5.1 e5.2)
  have hv : P.v.val h1 = P.v.val h' := val_congr (hh _ e6.1 e6.2)
  rw [f3, hw, hv, e3, e4]
  rfl

/-- `cast_to_density_matrix(rho)`: the argument is unchanged and the value is that of the model without memory. -/
theorem C124_cast_value (rho : NdAny) (h : Heap) (hin : Spec.InUseAny h rho) :
    ∃ r h', (castToDensityMatrixM rho).exec h = (r, h') ∧ Spec.Untouched h h' ∧
      castToDensityMatrix (rho.value h) = r.map (fun x => ⟨x.1, x.2.mat h'⟩) := by
  obtain ⟨r, h', e1, e2, e3, -⟩ := cast_refine rho h hin
  exact ⟨r, h', e1, e2, e3⟩

/-- A density matrix made from a vector (1-D, or 2-D with a side of length 1), or from a real array, is independent of its
origin. (The rest of the claim, for complex square arrays, is false: `C124_cast_alias`.) -/
theorem C124_cast_own_partial (rho : NdAny) (h : Heap) (hin : Spec.InUseAny h rho)
    (hv : match rho with | .vec _ _ => True | .mat m n a => min m n = 1 ∨ a.cplx = false)
    {x : Σ d : ℕ, Nd (Fin d × Fin d)} {h' : Heap} (hx : (castToDensityMatrixM rho).exec h = (.ok x, h')) :
    Spec.Own h h' x.2 := by
  obtain ⟨r, h'', e1, e2, e3, e4⟩ := cast_refine rho h hin
  rw [hx] at e1
  obtain ⟨rfl, rfl⟩ := Prod.mk.inj e1
  obtain ⟨f1, f2 | ⟨d, a, rfl, g1, g2, g3, g4⟩⟩ := e4 x rfl
  · exact own_of f2 f1
  · simp only [g1, min_self] at hv
    rcases hv with hv | hv
    · exact absurd hv g2
    · cases hv

/-- Violation: for a complex square array with a side other than 1, `cast_to_density_matrix(rho)` is `rho` itself, so that
later assignments to `rho` change the result, and assignments to the result change `rho`. -/
theorem C124_cast_alias {d : ℕ} (a : Nd (Fin d × Fin d)) (h : Heap) (hin : Spec.InUse h a) (hc : a.cplx = true) (hd : d ≠ 1)
    {x : Σ d : ℕ, Nd (Fin d × Fin d)} {h' : Heap} (hx : (castToDensityMatrixM (.mat d d a)).exec h = (.ok x, h')) :
    x = ⟨d, a⟩ ∧ h' = h := by
  obtain ⟨b, h1, e1, -, -, -, e5⟩ := exec_asComplex a h hin
  rcases e5 with ⟨-, rfl, rfl⟩ | ⟨g1, -⟩
  · rw [castToDensityMatrixM, exec_bind_ok e1, exec_bind_ok (exec_readArr b h1), if_neg (by simpa using hd)] at hx
    cases hv : validateDM (Matrix.of fun i j => b.val h1 (i, j)) with
    | error e =>
      rw [hv, exec_bind_error (exec_noDraw _ h1)] at hx
      cases (Prod.mk.inj hx).1
    | ok y =>
      rw [hv, exec_bind_ok (exec_noDraw_ok rfl h1), dif_pos rfl] at hx
      obtain ⟨p, q⟩ := Prod.mk.inj hx
      cases p
      exact ⟨rfl, q.symm⟩
  · rw [hc] at g1; cases g1

/-- Violation, for every density matrix on at least two levels stored in a complex array: the cast succeeds, its result is
the argument, and it does not have memory of its own. -/
theorem C124_cast_not_own {d : ℕ} (hd : 2 ≤ d) (a : Nd (Fin d × Fin d)) (h : Heap) (hin : Spec.InUse h a) (hc : a.cplx = true)
    (hρ : Spec.IsDensity (a.mat h)) :
    (castToDensityMatrixM (.mat d d a)).exec h = (.ok ⟨d, a⟩, h) ∧ ¬ Spec.Own h h a := by
  constructor
  · obtain ⟨r, h', e1, -, e3⟩ := C124_cast_value (.mat d d a) h hin
    rw [show (NdAny.mat d d a).value h = .mat d d (a.mat h) from rfl, C16_density d _ hρ] at e3
    cases r with
    | error e => cases e3
    | ok x =>
      obtain ⟨rfl, rfl⟩ := C124_cast_alias a h hin hc (by omega) e1
      exact e1
  · intro hown
    let i : Fin d := ⟨0, by omega⟩
    have h1 := hown ⟨h.next, fun _ _ => ((a.val h (i, i)).re + 1 : ℝ)⟩ (fun b h1 h2 => absurd h2 (by omega)) (i, i)
    have h2 := congrArg Complex.re h1
    simp only [Nd.val, Complex.ofReal_re] at h2
    split_ifs at h2 <;> simp at h2

/-- `cast_to_pdf(rho)`: the argument is unchanged and the value is that of the model without memory. -/
theorem C124_pdf_value (rho : NdAny) (h : Heap) (hin : Spec.InUseAny h rho) :
    ∃ r h', (castToPdfM rho).exec h = (r, h') ∧ Spec.Untouched h h' ∧
      castToPdf (rho.value h) = r.map (fun x => ⟨x.1, fun i => (x.2.val h' i).re⟩) ∧
      ∀ x : Σ d : ℕ, Nd (Fin d), r = .ok x → ∀ i, (x.2.val h' i).im = 0 := by
  obtain ⟨r, h', e1, e2, e3, e4, -⟩ := pdf_refine rho h hin
  exact ⟨r, h', e1, e2, e4, e3⟩

/-- Violation: for a complex square array with a side other than 1, the result of `p = cast_to_pdf(rho)` is a view of `rho`.
After `rho[i, j] = z`, the entry `p[k]` is the real part of `z` if `i = j = k`, and as before otherwise. And `p` itself cannot
be assigned to. -/
theorem C124_pdf_later {d : ℕ} (a : Nd (Fin d × Fin d)) (h : Heap) (hin : Spec.InUse h a) (hc : a.cplx = true)
    (hd : d ≠ 1) (ha : Spec.Assignable a) (hr : a.realPart = false) {x : Σ d : ℕ, Nd (Fin d)} {h' : Heap}
    (hx : (castToPdfM (.mat d d a)).exec h = (.ok x, h')) :
    ∃ p : Nd (Fin d), x = ⟨d, p⟩ ∧ (∀ i j : Fin d, ∀ z : ℂ, ∃ h'', (setItem a (i, j) z).exec h' = (.ok (), h'') ∧
      ∀ k, p.val h'' k = if i = k ∧ j = k then (z.re : ℂ) else p.val h' k) ∧
      ∀ (i : Fin d) (z : ℂ) (h0 : Heap), (setItem p i z).exec h0 = (.error .valueError, h0) := by
  have hcast : ∃ y h1, (castToDensityMatrixM (.mat d d a)).exec h = (.ok y, h1) := by
    rw [castToPdfM] at hx
    cases hy : (castToDensityMatrixM (.mat d d a)).exec h with
    | mk y h1 =>
      cases y with
      | ok y => exact ⟨y, h1, rfl⟩
      | error e => rw [exec_bind_error hy] at hx; cases (Prod.mk.inj hx).1
  obtain ⟨y, h1, hy⟩ := hcast
  obtain ⟨rfl, rfl⟩ := C124_cast_alias a h hin hc hd hy
  rw [castToPdfM, exec_bind_ok hy, exec_bind_ok (exec_readArr _ _)] at hx
  have hx' : x = ⟨d, ⟨a.buf, fun i => a.pos (i, i), false, true, false⟩⟩ ∧ h' = h1 := by
    split_ifs at hx
    · obtain ⟨p, q⟩ := Prod.mk.inj hx
      cases p
      exact ⟨rfl, q.symm⟩
    · cases (Prod.mk.inj hx).1
  obtain ⟨rfl, rfl⟩ := hx'
  refine ⟨_, rfl, fun i j z => ?_, fun i z h0 => rfl⟩
  obtain ⟨h'', e1, e2, e3, e4⟩ := exec_write_view (a := a) ⟨ha.1, ha.2, hr⟩ (fun _ : Unit => (i, j)) (fun _ _ _ => rfl)
    (fun _ => z) h'
  refine ⟨h'', e1, fun k => ?_⟩
  have hval : ∀ hh : Heap, Nd.val ⟨a.buf, fun i : Fin d => a.pos (i, i), false, true, false⟩ hh k = ((a.val hh (k, k)).re : ℂ) := by
    intro hh
    simp [Nd.val, hr]
  rw [hval, hval]
  split_ifs with hk
  · obtain ⟨rfl, rfl⟩ := hk
    rw [e3 ()]
  · rw [e4 (k, k) fun _ hik => hk ?_]
    cases hik
    exact ⟨rfl, rfl⟩

/-- `complete_face(pfo, edges)`: changes no other array than `pfo`, whose entries afterwards are those computed by the model
without memory, and returns `pfo` itself or `None`. -/
theorem C124_complete_face {n : ℕ} (pfo : Nd (Fin n × Fin n)) (ha : Spec.Assignable pfo) (hr : pfo.realPart = false)
    (edges : List Dart) (h : Heap) :
    ∃ r h', (completeFaceM pfo edges).exec h = (r, h') ∧ h'.next = h.next ∧
      (∀ c, c ≠ pfo.buf → ∀ p, h'.mem c p = h.mem c p) ∧ (∀ b, r = .ok (some b) → b = pfo) ∧
      completeFace (pfo.mat h) edges = r.map fun o => (pfo.mat h', o.isSome) := by
  obtain ⟨r, h', e1, e2, e3, e4⟩ := face_refine ⟨ha.1, ha.2, hr⟩ edges h
  exact ⟨r, h', e1, e2.1, e2.2, fun b hb => e3 _ b hb rfl, e4⟩

/-! ## the hypotheses can be met -/

/-- The memory after `np.array` has been called with the entries of `A`, and the array. -/
theorem exists_array {m n : ℕ} (A : Matrix (Fin m) (Fin n) ℂ) : ∃ (a : Nd (Fin m × Fin n)) (h : Heap), Spec.InUse h a ∧
    a.cplx = true ∧ Spec.Assignable a ∧ a.realPart = false ∧ a.mat h = A := by
  obtain ⟨a, h', e1, e2, e3, e4, e5, e6⟩ := exec_newArr true (fun ij : Fin m × Fin n => A ij.1 ij.2) ⟨0, fun _ _ => 0⟩
  refine ⟨a, h', by rw [Spec.InUse, e2, e3]; exact Nat.lt_succ_self _, ?_, ⟨e6.writable, e6.inj⟩, e6.whole, ?_⟩
  · obtain ⟨h1, -⟩ := Prod.mk.inj e1
    cases h1
    rfl
  · ext i j
    simp [Nd.mat, e5]

/-- A maximally mixed qubit, its probabilities, and what becomes of them after `rho[0, 0] = 7`. -/
example : ∃ (a : Nd (Fin 2 × Fin 2)) (h : Heap) (p : Nd (Fin 2)) (h' : Heap),
    (castToPdfM (.mat 2 2 a)).exec h = (.ok ⟨2, p⟩, h) ∧ p.val h 0 = 1 / 2 ∧
      (setItem a (0, 0) 7).exec h = (.ok (), h') ∧ p.val h' 0 = 7 ∧ p.val h' 1 = 1 / 2 := by
  have hρ : Spec.IsDensity (diagonal fun _ : Fin 2 => ((1 / 2 : ℝ) : ℂ)) :=
    { psd := diag_psd fun _ => by norm_num
      trace_one := by simp [Matrix.trace] }
  obtain ⟨a, h, h1, h2, h3, h4, h5⟩ := exists_array (diagonal fun _ : Fin 2 => ((1 / 2 : ℝ) : ℂ))
  obtain ⟨r, h', e1, e2, e3, e4⟩ := C124_pdf_value (.mat 2 2 a) h h1
  have hpdf : castToPdf ((NdAny.mat 2 2 a).value h) = .ok ⟨2, fun _ => 1 / 2⟩ := by
    rw [show (NdAny.mat 2 2 a).value h = .mat 2 2 (a.mat h) from rfl, h5]
    rw [castToPdf, C16_density 2 _ hρ]
    simp only [bind, Except.bind]
    rw [if_pos]
    · simp
    · intro i
      simpa using isclose_self _
  rw [hpdf] at e3
  cases r with
  | error e => cases e3
  | ok x =>
    obtain ⟨p, rfl, f1, -⟩ := C124_pdf_later a h h1 h2 (by norm_num) h3 h4 e1
    obtain ⟨h'', g1, g2⟩ := f1 0 0 7
    have hp : ∀ i, p.val h' i = 1 / 2 := by
      intro i
      have h6 := e4 _ rfl i
      simp only [Except.map, Except.ok.injEq, Sigma.mk.injEq, heq_eq_eq, true_and] at e3
      have h7 := (congrFun e3 i).symm
      exact Complex.ext (by rw [h7]; norm_num) (by rw [h6]; norm_num)
    have hh : h' = h := by
      obtain ⟨y, hy⟩ : ∃ y, (castToPdfM (.mat 2 2 a)).exec h = (y, h) := by
        rw [castToPdfM, exec_bind_ok (C124_cast_not_own le_rfl a h h1 h2 (h5 ▸ hρ)).1, exec_bind_ok (exec_readArr _ _)]
        split_ifs
        · exact ⟨_, rfl⟩
        · exact ⟨_, rfl⟩
      rw [hy] at e1
      exact (Prod.mk.inj e1).2.symm
    subst hh
    refine ⟨a, h', p, h'', e1, hp 0, g1, ?_, ?_⟩
    · rw [g2]; simp
    · rw [g2, if_neg (by decide), hp]

/-- `rotate_operators` and `build_op` on the two operators of one site, both arrays living in the same memory. -/
example : ∃ (C : Nd (Fin 2 × Fin 2)) (alphas : List (Nd (Fin 2 × Fin 2))) (h : Heap), Spec.InUse h C ∧
    (∀ a ∈ alphas, Spec.InUse h a) ∧ alphas.length = 2 := by
  obtain ⟨a, h, h1, -⟩ := exists_array (1 : Matrix (Fin 2) (Fin 2) ℂ)
  exact ⟨a, [a, a], h, h1, by simp [h1], rfl⟩

/-- `complete_face` on a triangle with one missing orientation assigns the missing entry of the array it was given. -/
example : ∃ (a : Nd (Fin 3 × Fin 3)) (h h' : Heap), (completeFaceM a [(0, 1), (1, 2), (2, 0)]).exec h = (.ok (some a), h') ∧
    a.mat h 0 2 = 0 ∧ a.mat h' 0 2 ≠ 0 := by
  have h12 : ∀ x y : ℂ, isclose x y ↔ ‖x - y‖ ≤ 1e-8 + 1e-5 * ‖y‖ := fun _ _ => Iff.rfl
  obtain ⟨a, h, -, -, h3, h4, h5⟩ := exists_array !![0, 1, 0; (-1 : ℂ), 0, 1; 0, -1, 0]
  obtain ⟨r, h', e1, -, -, e4, e5⟩ := C124_complete_face a h3 h4 [(0, 1), (1, 2), (2, 0)] h
  have hs : scanFace (a.mat h) [(0, 1), (1, 2), (2, 0)] = .ok (1, [(2, 0)]) := by
    rw [h5]
    have h0 : ¬ isclose (1 : ℂ) 0 := by rw [h12]; norm_num
    have h1 : isclose (0 : ℂ) 0 := isclose_self 0
    simp [scanFace, get2, prefixSign, bind, Except.bind, pure, Except.pure, h0, h1]
  have hf : ∃ M, completeFace (a.mat h) [(0, 1), (1, 2), (2, 0)] = .ok (M, true) ∧ M 0 2 ≠ 0 := by
    rw [completeFace, hs]
    refine ⟨_, rfl, ?_⟩
    have h1 : ¬ (1 : ℂ) = -1 := by norm_num
    simp [prefixSign, h1]
  obtain ⟨M, hM, hne⟩ := hf
  rw [hM] at e5
  cases r with
  | error e => cases e5
  | ok o =>
    simp only [Except.map, Except.ok.injEq, Prod.mk.injEq] at e5
    cases o with
    | none => cases e5.2
    | some b =>
      obtain rfl := e4 b rfl
      exact ⟨b, h, h', e1, by rw [h5]; rfl, by rw [← e5.1]; exact hne⟩

end FF.Props
