import Verif.Spec.Memory
import Verif.Proofs.Random

/-! # Helper lemmas: arrays in memory -/

namespace FF

open Matrix

theorem untouched_refl (h : Heap) : Spec.Untouched h h := ⟨le_rfl, fun _ _ _ => rfl⟩

theorem Spec.Untouched.trans {h h' h'' : Heap} (h1 : Spec.Untouched h h') (h2 : Spec.Untouched h' h'') : Spec.Untouched h h'' :=
  ⟨h1.1.trans h2.1, fun b hb p => (h2.2 b (hb.trans_le h1.1) p).trans (h1.2 b hb p)⟩

theorem val_congr {ι : Type} {h h' : Heap} {a : Nd ι} (hm : ∀ p, h'.mem a.buf p = h.mem a.buf p) : a.val h' = a.val h := by
  funext i
  rw [Nd.val, Nd.val, hm]

theorem Spec.Untouched.val {ι : Type} {h h' : Heap} {a : Nd ι} (hu : Spec.Untouched h h') (ha : a.buf < h.next) :
    a.val h' = a.val h := val_congr (hu.2 _ ha)

theorem mat_of_val {m n : ℕ} {h h' : Heap} {a : Nd (Fin m × Fin n)} (hv : a.val h' = a.val h) : a.mat h' = a.mat h := by
  rw [Nd.mat, Nd.mat, hv]

/-- An ordinary new array. -/
structure Plain {ι : Type} (a : Nd ι) : Prop where
  writable : a.writable = true
  inj : Function.Injective a.pos
  whole : a.realPart = false

/-- Only the buffer `b` has changed. -/
def OnlyBuf (b : ℕ) (h h' : Heap) : Prop := h'.next = h.next ∧ ∀ c, c ≠ b → ∀ p, h'.mem c p = h.mem c p

theorem OnlyBuf.refl (b : ℕ) (h : Heap) : OnlyBuf b h h := ⟨rfl, fun _ _ _ => rfl⟩

theorem OnlyBuf.trans {b : ℕ} {h h' h'' : Heap} (h1 : OnlyBuf b h h') (h2 : OnlyBuf b h' h'') : OnlyBuf b h h'' :=
  ⟨h2.1.trans h1.1, fun c hc p => (h2.2 c hc p).trans (h1.2 c hc p)⟩

theorem OnlyBuf.val {ι : Type} {b : ℕ} {h h' : Heap} {a : Nd ι} (hu : OnlyBuf b h h') (ha : a.buf ≠ b) : a.val h' = a.val h :=
  val_congr (hu.2 _ ha)

theorem exec_newArr {ι : Type} [Encodable ι] (c : Bool) (f : ι → ℂ) (h : Heap) :
    ∃ a h', (newArr c f).exec h = (.ok a, h') ∧ a.buf = h.next ∧ h'.next = h.next + 1 ∧ Spec.Untouched h h' ∧ a.val h' = f ∧
      Plain a := by
  refine ⟨_, _, rfl, rfl, rfl, ⟨Nat.le_succ _, fun b hb p => if_neg (Nat.ne_of_lt hb)⟩, ?_, rfl, Encodable.encode_injective, rfl⟩
  funext i
  simp [Nd.val, Encodable.encodek₂]

theorem exec_readArr {ι : Type} (a : Nd ι) (h : Heap) : (readArr a).exec h = (.ok (a.val h), h) := rfl

theorem exec_writeAll {ι : Type} (a : Nd ι) (x : ι → ℂ) (h : Heap) (hw : a.writable = true) (hi : Function.Injective a.pos) :
    ∃ h', (writeAll a x).exec h = (.ok (), h') ∧ OnlyBuf a.buf h h' ∧
      (∀ i, h'.mem a.buf (a.pos i) = if a.realPart then ⟨(x i).re, (h.mem a.buf (a.pos i)).im⟩ else x i) ∧
      ∀ p, (∀ i, a.pos i ≠ p) → h'.mem a.buf p = h.mem a.buf p := by
  classical
  have he : (writeAll a x).exec h = (.ok (), ⟨h.next, fun b p => if hp : b = a.buf ∧ ∃ i, a.pos i = p then
      (if a.realPart then ⟨(x hp.2.choose).re, (h.mem b p).im⟩ else x hp.2.choose) else h.mem b p⟩) := if_pos hw
  refine ⟨_, he, ⟨rfl, fun c hc p => dif_neg fun hp => hc hp.1⟩, fun i => ?_, fun p hp => dif_neg ?_⟩
  · have hp : a.buf = a.buf ∧ ∃ j, a.pos j = a.pos i := ⟨rfl, i, rfl⟩
    refine (dif_pos hp).trans ?_
    rw [hi hp.2.choose_spec]
  · rintro ⟨-, i, hi⟩
    exact hp i hi

theorem exec_write_plain {ι : Type} {a : Nd ι} (ha : Plain a) (x : ι → ℂ) (h : Heap) :
    ∃ h', (writeAll a x).exec h = (.ok (), h') ∧ OnlyBuf a.buf h h' ∧ a.val h' = x := by
  obtain ⟨h', h1, h2, h3, -⟩ := exec_writeAll a x h ha.writable ha.inj
  refine ⟨h', h1, h2, ?_⟩
  funext i
  have := h3 i
  simp only [ha.whole] at this
  simpa [Nd.val, ha.whole] using this

theorem exec_addInto {ι : Type} {a : Nd ι} (ha : Plain a) (x : ι → ℂ) (h : Heap) :
    ∃ h', (addInto a x).exec h = (.ok (), h') ∧ OnlyBuf a.buf h h' ∧ a.val h' = a.val h + x := by
  obtain ⟨h', h1, h2, h3⟩ := exec_write_plain ha (a.val h + x) h
  exact ⟨h', by rw [addInto, exec_bind_ok (exec_readArr a h)]; exact h1, h2, h3⟩

/-- Assignment through a view of an ordinary array. -/
theorem exec_write_view {ι κ : Type} {a : Nd ι} (ha : Plain a) (f : κ → ι) (hf : Function.Injective f) (x : κ → ℂ) (h : Heap) :
    ∃ h', (writeAll (a.view f) x).exec h = (.ok (), h') ∧ OnlyBuf a.buf h h' ∧ (∀ k, a.val h' (f k) = x k) ∧
      ∀ i, (∀ k, f k ≠ i) → a.val h' i = a.val h i := by
  obtain ⟨h', h1, h2, h3, h4⟩ := exec_writeAll (a.view f) x h ha.writable (ha.inj.comp hf)
  have hb : (a.view f).buf = a.buf := rfl
  have hr : (a.view f).realPart = false := ha.whole
  rw [hb] at h2 h3 h4
  refine ⟨h', h1, h2, fun k => ?_, fun i hi => ?_⟩
  · have := h3 k
    rw [hr] at this
    simpa [Nd.val, ha.whole, Nd.view] using this
  · have := h4 (a.pos i) fun k hk => hi k (ha.inj hk)
    simp [Nd.val, ha.whole, this]

theorem onlyBuf_untouched {b : ℕ} {h h1 h' : Heap} (hu : Spec.Untouched h h1) (hb : h.next ≤ b) (ho : OnlyBuf b h1 h') :
    Spec.Untouched h h' :=
  ⟨by rw [ho.1]; exact hu.1, fun c hc p => by rw [ho.2 c (by omega), hu.2 c hc]⟩

theorem own_of {ι : Type} {h h' : Heap} {a : Nd ι} (h1 : h.next ≤ a.buf) (h2 : a.buf < h'.next) : Spec.Own h h' a :=
  fun _ hh i => congrFun (val_congr fun p => hh _ h1 h2 p) i

/-! ## loops -/

/-- A loop whose rounds refine a function on values refines the loop over values. -/
theorem forM_refine {X β : Type} (Good : Heap → Heap → Prop) (hrefl : ∀ h, Good h h)
    (htrans : ∀ {a b c}, Good a b → Good b c → Good a c) (V : Heap → X) (f : β → Mem Unit) (g : X → β → Except PyErr X)
    (h1 : Heap) (step : ∀ h, Good h1 h → ∀ i, ∃ h', (f i).exec h = ((g (V h) i).map fun _ => (), h') ∧ Good h h' ∧
      ∀ y, g (V h) i = .ok y → V h' = y) : ∀ (l : List β) (h : Heap), Good h1 h →
      ∃ h', (l.forM f).exec h = ((l.foldlM g (V h)).map fun _ => (), h') ∧ Good h h' ∧
        ∀ y, l.foldlM g (V h) = .ok y → V h' = y
  | [], h, hg => ⟨h, rfl, hrefl h, fun y hy => by simpa [pure, Except.pure] using hy⟩
  | i :: l, h, hg => by
    obtain ⟨h', e1, e2, e3⟩ := step h hg i
    have hc : (i :: l).forM f = f i >>= fun _ => l.forM f := rfl
    rw [hc, List.foldlM_cons]
    cases hgi : g (V h) i with
    | error e =>
      rw [hgi] at e1
      exact ⟨h', exec_bind_error e1, e2, fun y hy => by simp [bind, Except.bind] at hy⟩
    | ok y =>
      rw [hgi] at e1
      obtain ⟨h'', f1, f2, f3⟩ := forM_refine Good hrefl htrans V f g h1 step l h' (htrans hg e2)
      rw [e3 y hgi] at f1 f3
      exact ⟨h'', by rw [exec_bind_ok e1]; exact f1, htrans e2 f2, f3⟩

theorem mapM_refine {β : Type} {d : ℕ} (f : β → Mem (Nd (Fin d × Fin d))) (g : β → Except PyErr (Op d)) (h1 : Heap)
    (step : ∀ h, Spec.Untouched h1 h → ∀ j, ∃ r h', (f j).exec h = (r, h') ∧ Spec.Untouched h h' ∧
      g j = r.map (fun b => b.mat h') ∧ ∀ b, r = .ok b → h.next ≤ b.buf ∧ b.buf < h'.next) :
    ∀ (l : List β) (h : Heap), Spec.Untouched h1 h → ∃ r h', (l.mapM f).exec h = (r, h') ∧ Spec.Untouched h h' ∧
      l.mapM g = r.map (fun bs => bs.map fun b => b.mat h') ∧
      ∀ bs, r = .ok bs → (∀ b ∈ bs, h.next ≤ b.buf ∧ b.buf < h'.next) ∧ bs.Pairwise fun b c => b.buf ≠ c.buf
  | [], h, hg => ⟨.ok [], h, rfl, untouched_refl h, rfl, by rintro bs ⟨⟩; simp⟩
  | j :: l, h, hg => by
    obtain ⟨r, h', e1, e2, e3, e4⟩ := step h hg j
    rw [List.mapM_cons, List.mapM_cons, e3]
    cases r with
    | error e => exact ⟨.error e, h', exec_bind_error e1, e2, rfl, fun bs hb => by cases hb⟩
    | ok b =>
      obtain ⟨r', h'', f1, f2, f3, f4⟩ := mapM_refine f g h1 step l h' (hg.trans e2)
      obtain ⟨hb1, hb2⟩ := e4 b rfl
      rw [exec_bind_ok e1, f3]
      cases r' with
      | error e => exact ⟨.error e, h'', exec_bind_error f1, e2.trans f2, rfl, fun bs hb => by cases hb⟩
      | ok bs =>
        obtain ⟨g1, g2⟩ := f4 bs rfl
        refine ⟨.ok (b :: bs), h'', by rw [exec_bind_ok f1]; rfl, e2.trans f2, ?_, ?_⟩
        · simp only [Except.map, bind, Except.bind, pure, Except.pure, List.map_cons]
          rw [mat_of_val (f2.val hb2)]
        · rintro _ ⟨⟩
          refine ⟨?_, List.pairwise_cons.2 ⟨fun c hc => ?_, g2⟩⟩
          · intro c hc
            rcases List.mem_cons.1 hc with rfl | hc
            · exact ⟨hb1, hb2.trans_le f2.1⟩
            · exact ⟨e2.1.trans (g1 c hc).1, (g1 c hc).2⟩
          · exact Nat.ne_of_lt (hb2.trans_le (g1 c hc).1)

end FF
