import Verif.Model.Dtypes
import Verif.Proofs.Coefficients3

/-! # Helper lemmas: accumulation in place -/

namespace FF

open Matrix

theorem foldlM_error_inv {α β : Type} {F : β → α → Except PyErr β} {e : PyErr} {P : β → Prop} {l : List α}
    (h : ∀ a ∈ l, ∀ b, P b → (∃ b', P b' ∧ F b a = .ok b') ∨ F b a = .error e) (a : α) (ha : a ∈ l)
    (he : ∀ b, P b → F b a = .error e) (b : β) (hb : P b) : l.foldlM F b = .error e := by
  induction l generalizing b with
  | nil => simp at ha
  | cons x l ih =>
    rw [List.foldlM_cons]
    rcases h x (by simp) b hb with ⟨b', hp, hx⟩ | hx
    · rw [hx]
      rcases List.mem_cons.1 ha with rfl | hm
      · rw [he b hb] at hx; cases hx
      · exact ih (fun a ha b hb => h a (List.mem_cons_of_mem _ ha) b hb) hm b' hp
    · rw [hx]; rfl

theorem foldlM_image {α β γ : Type} {F : γ → α → Except PyErr γ} {G : β → α → Except PyErr β} (ι : β → γ) {l : List α}
    (h : ∀ a ∈ l, ∀ b, F (ι b) a = (G b a).map ι) (b : β) : l.foldlM F (ι b) = (l.foldlM G b).map ι := by
  induction l generalizing b with
  | nil => rfl
  | cons x l ih =>
    rw [List.foldlM_cons, List.foldlM_cons, h x (by simp)]
    cases hG : G b x with
    | error e => rfl
    | ok b' => exact ih (fun a ha b => h a (List.mem_cons_of_mem _ ha) b) b'

open Classical in
/-- The loop of an accumulation in place. -/
theorem typed_fold {d M N : ℕ} (hM : M = N) (κ : Kind) {F : TArr d → ℕ → Except PyErr (TArr d)} (bad : Fin N → Prop)
    (g : Fin N → Op d) (h : ∀ (i : Fin N) (b : Op d), F ⟨κ, b⟩ i = if bad i then .error .typeError else .ok ⟨κ, b + g i⟩)
    (b : Op d) : (List.range M).foldlM F ⟨κ, b⟩ =
      if ∃ i, bad i then .error .typeError else .ok ⟨κ, b + ∑ i, g i⟩ := by
  subst hM
  split_ifs with hb
  · obtain ⟨i, hi⟩ := hb
    refine foldlM_error_inv (P := fun x => x.kind = κ) (fun a ha b hb => ?_) (i : ℕ) (List.mem_range.2 i.2)
      (fun b hb => ?_) _ rfl
    · obtain ⟨κ', b⟩ := b
      obtain rfl : κ' = κ := hb
      have := h ⟨a, List.mem_range.1 ha⟩ b
      split_ifs at this with hbad
      · exact .inr this
      · exact .inl ⟨_, rfl, this⟩
    · obtain ⟨κ', b⟩ := b
      obtain rfl : κ' = κ := hb
      rw [h i b, if_pos hi]
  · have := foldlM_image (F := F) (G := fun b i => .ok (b + if h : i < M then g ⟨i, h⟩ else 0)) (fun b => (⟨κ, b⟩ : TArr d))
      (l := List.range M) (fun a ha b => by
        have ha := List.mem_range.1 ha
        rw [h ⟨a, ha⟩ b, if_neg fun hx => hb ⟨_, hx⟩, dif_pos ha]
        rfl) b
    rw [this, foldlM_sum (N := M) rfl g (fun i b => by rw [dif_pos i.2])]
    rfl

theorem addInto_eq {d : ℕ} (κ : Kind) (b : Op d) (k : Kind) (x : Op d) :
    (⟨κ, b⟩ : TArr d).addInto ⟨k, x⟩ = if k.rank ≤ κ.rank then .ok ⟨κ, b + x⟩ else .error .typeError := rfl

theorem promote_rank (a b : Kind) : (a.promote b).rank = max a.rank b.rank := by
  rw [Kind.promote]
  split_ifs with h
  · rw [max_eq_right h]
  · rw [max_eq_left (not_le.1 h).le]

open Classical in
theorem rotationT_row {m k d N : ℕ} (kC : Kind) (C : Matrix (Fin m) (Fin k) ℂ) (f : Fin N → TArr d) (hm : N ≤ m) (hk : N ≤ k)
    (κ : Kind) (j : Fin N) :
    (List.range N).foldlM (fun b i => do
      let c ← get2 C j i
      if ‖c‖ < 1e-9 then pure b
      else do
        let a ← listGet (List.ofFn f) i
        b.addInto ⟨kC.promote a.kind, c • a.val⟩) (⟨κ, 0⟩ : TArr d) =
    if ∃ i : Fin N, 1e-9 ≤ ‖C (Fin.castLE hm j) (Fin.castLE hk i)‖ ∧ κ.rank < (kC.promote (f i).kind).rank then
      .error .typeError
    else .ok ⟨κ, ∑ i, Spec.dropSmall 1e-9 C (Fin.castLE hm j) (Fin.castLE hk i) • (f i).val⟩ := by
  refine (typed_fold rfl κ (fun i : Fin N => 1e-9 ≤ ‖C (Fin.castLE hm j) (Fin.castLE hk i)‖ ∧
      κ.rank < (kC.promote (f i).kind).rank)
    (fun i : Fin N => Spec.dropSmall 1e-9 C (Fin.castLE hm j) (Fin.castLE hk i) • (f i).val) (fun i b => ?_) 0).trans
    (by rw [zero_add]; split_ifs <;> rfl)
  rw [get2_lt C (j.2.trans_le hm) (i.2.trans_le hk), listGet_ofFn f i i.2]
  change (if ‖C (Fin.castLE hm j) (Fin.castLE hk i)‖ < 1e-9 then (.ok ⟨κ, b⟩ : Except PyErr (TArr d)) else
    (⟨κ, b⟩ : TArr d).addInto ⟨kC.promote (f i).kind, C (Fin.castLE hm j) (Fin.castLE hk i) • (f i).val⟩) = _
  rw [addInto_eq, dropSmall_apply]
  by_cases h1 : ‖C (Fin.castLE hm j) (Fin.castLE hk i)‖ < 1e-9
  · rw [if_pos h1, if_neg fun h => absurd h.1 (not_le.2 h1), if_pos h1, zero_smul, add_zero]
  · rw [if_neg h1, if_neg h1]
    by_cases h2 : (kC.promote (f i).kind).rank ≤ κ.rank
    · rw [if_pos h2, if_neg fun h => absurd h.2 (not_lt.2 h2)]
    · rw [if_neg h2, if_pos ⟨not_lt.1 h1, not_le.1 h2⟩]

open Classical in
theorem performRotationT_eq {m k d N : ℕ} (kC : Kind) (C : Matrix (Fin m) (Fin k) ℂ) (f : Fin N → TArr d) (hm : N ≤ m)
    (hk : N ≤ k) (hN : 0 < N) :
    performRotationT kC C (List.ofFn f) =
    if ∃ j i : Fin N, 1e-9 ≤ ‖C (Fin.castLE hm j) (Fin.castLE hk i)‖ ∧
        (f ⟨0, hN⟩).kind.rank < (kC.promote (f i).kind).rank then .error .typeError
    else .ok (List.ofFn fun j => ⟨(f ⟨0, hN⟩).kind,
      ∑ i, Spec.dropSmall 1e-9 C (Fin.castLE hm j) (Fin.castLE hk i) • (f i).val⟩) := by
  rw [performRotationT, List.length_ofFn]
  have hrow : ∀ j : Fin N, (do
      let a0 ← listGet (List.ofFn f) 0
      (List.range N).foldlM (fun b i => do
        let c ← get2 C j i
        if ‖c‖ < 1e-9 then pure b
        else do
          let a ← listGet (List.ofFn f) i
          b.addInto ⟨kC.promote a.kind, c • a.val⟩) (⟨a0.kind, 0⟩ : TArr d) : Except PyErr (TArr d)) =
      if ∃ i : Fin N, 1e-9 ≤ ‖C (Fin.castLE hm j) (Fin.castLE hk i)‖ ∧
        (f ⟨0, hN⟩).kind.rank < (kC.promote (f i).kind).rank then .error .typeError
      else .ok ⟨(f ⟨0, hN⟩).kind, ∑ i, Spec.dropSmall 1e-9 C (Fin.castLE hm j) (Fin.castLE hk i) • (f i).val⟩ := fun j => by
    rw [listGet_ofFn f 0 hN]
    exact rotationT_row kC C f hm hk (f ⟨0, hN⟩).kind j
  split_ifs with hb
  · obtain ⟨j, i, hi⟩ := hb
    refine mapM_error (fun a ha => ?_) (j : ℕ) (List.mem_range.2 j.2) ?_
    · have := hrow ⟨a, List.mem_range.1 ha⟩
      split_ifs at this
      · exact .inr this
      · exact .inl ⟨_, this⟩
    · exact (hrow j).trans (if_pos ⟨i, hi⟩)
  · rw [mapM_ok (g := fun j => if hj : j < N then (⟨(f ⟨0, hN⟩).kind,
      ∑ i, Spec.dropSmall 1e-9 C (Fin.castLE hm ⟨j, hj⟩) (Fin.castLE hk i) • (f i).val⟩ : TArr d) else ⟨.int, 0⟩)]
    · congr 1
      apply List.ext_getElem
      · simp
      · intro j h1 h2
        simp only [List.getElem_map, List.getElem_range, List.getElem_ofFn]
        rw [dif_pos (by simpa using h2)]
    · intro j hj
      have hj := List.mem_range.1 hj
      rw [dif_pos hj]
      exact (hrow ⟨j, hj⟩).trans (if_neg fun ⟨i, hi⟩ => hb ⟨_, i, hi⟩)

open Classical in
theorem buildOpT_eq {d n : ℕ} (hn : 1 ≤ n) (kR : Kind) (R : Op (n + n)) (f : Fin (n + n) → TArr d) (direct : Bool) :
    buildOpT n kR R (List.ofFn f) direct =
    if ∃ i j, 1e-10 ≤ ‖R i j‖ ∧ (f ⟨0, by omega⟩).kind.rank < (kR.promote ((f i).kind.promote (f j).kind)).rank then
      .error .typeError
    else .ok ⟨(f ⟨0, by omega⟩).kind, ∑ i, ∑ j, Spec.dropSmall 1e-10 R i j •
      ((if direct then (f i).val else (f i).valᴴ) * (f j).val)⟩ := by
  rw [buildOpT, listGet_ofFn f 0 (by omega)]
  set κ := (f ⟨0, by omega⟩).kind with hκ
  change (List.range (2 * n)).foldlM _ (⟨κ, 0⟩ : TArr d) = _
  refine (typed_fold (two_mul n) κ (fun i : Fin (n + n) => ∃ j, 1e-10 ≤ ‖R i j‖ ∧
      κ.rank < (kR.promote ((f i).kind.promote (f j).kind)).rank)
    (fun i => ∑ j, Spec.dropSmall 1e-10 R i j • ((if direct then (f i).val else (f i).valᴴ) * (f j).val))
    (fun i b => ?_) 0).trans (by rw [zero_add]; split_ifs <;> rfl)
  refine (typed_fold (two_mul n) κ (fun j : Fin (n + n) => 1e-10 ≤ ‖R i j‖ ∧
      κ.rank < (kR.promote ((f i).kind.promote (f j).kind)).rank)
    (fun j => Spec.dropSmall 1e-10 R i j • ((if direct then (f i).val else (f i).valᴴ) * (f j).val))
    (fun j b => ?_) b).trans (by split_ifs <;> rfl)
  rw [get2_lt R i.2 j.2, listGet_ofFn f i i.2, listGet_ofFn f j j.2]
  have hd : ∀ x : Op d, x = R i j • ((if direct then (f i).val else (f i).valᴴ) * (f j).val) →
      (if ‖R i j‖ < 1e-10 then (.ok ⟨κ, b⟩ : Except PyErr (TArr d)) else
        (⟨κ, b⟩ : TArr d).addInto ⟨kR.promote ((f i).kind.promote (f j).kind), x⟩) =
      if 1e-10 ≤ ‖R i j‖ ∧ κ.rank < (kR.promote ((f i).kind.promote (f j).kind)).rank then .error .typeError
      else .ok ⟨κ, b + Spec.dropSmall 1e-10 R i j • ((if direct then (f i).val else (f i).valᴴ) * (f j).val)⟩ := by
    rintro _ rfl
    rw [addInto_eq, dropSmall_apply]
    by_cases h1 : ‖R i j‖ < 1e-10
    · rw [if_pos h1, if_neg fun h => absurd h.1 (not_le.2 h1), if_pos h1, zero_smul, add_zero]
    · rw [if_neg h1, if_neg h1]
      by_cases h2 : (kR.promote ((f i).kind.promote (f j).kind)).rank ≤ κ.rank
      · rw [if_pos h2, if_neg fun hh : _ ∧ _ => absurd hh.2 (not_lt.2 h2)]
      · rw [if_neg h2, if_pos ⟨not_lt.1 h1, not_le.1 h2⟩]
  simp only [bind, Except.bind]
  cases direct
  · refine Eq.trans ?_ ((hd _ rfl).trans (by split_ifs <;> rfl))
    rfl
  · refine Eq.trans ?_ ((hd _ rfl).trans (by split_ifs <;> rfl))
    rfl

/-! ## the Kitaev chain -/

theorem foldlM_map_ok {α β γ : Type} {F : γ → α → Except PyErr γ} {g : β → α → β} (ι : β → γ) {l : List α}
    (h : ∀ a ∈ l, ∀ b, F (ι b) a = .ok (ι (g b a))) (b : β) : l.foldlM F (ι b) = .ok (ι (l.foldl g b)) := by
  induction l generalizing b with
  | nil => rfl
  | cons x l ih =>
    rw [List.foldlM_cons, h x (by simp)]
    exact ih (fun a ha b => h a (List.mem_cons_of_mem _ ha) b) _

/-- The loop that writes two off-diagonals. -/
def offLoop (n : ℕ) (u v : TNum) (A : TArr n) : Except PyErr (TArr n) :=
  (List.range (n - 1)).foldlM (fun (A : TArr n) i =>
    if h : i + 1 < n then do
      let A ← A.set ⟨i, by omega⟩ ⟨i + 1, h⟩ u
      A.set ⟨i + 1, h⟩ ⟨i, by omega⟩ v
    else pure A) A

theorem offLoop_ok {n : ℕ} {u v : TNum} {κ : Kind} (hu : ¬ (u.kind = .complex ∧ κ ≠ .complex)) (hv : v.kind = u.kind)
    (M : Op n) : offLoop n u v ⟨κ, M⟩ = .ok ⟨κ, Matrix.of fun (x y : Fin n) => if (x : ℕ) + 1 = y then u.val
      else if (y : ℕ) + 1 = x then v.val else M x y⟩ := by
  have h := foldlM_map_ok (F := fun (A : TArr n) (i : ℕ) =>
    if h : i + 1 < n then do
      let A ← A.set ⟨i, by omega⟩ ⟨i + 1, h⟩ u
      A.set ⟨i + 1, h⟩ ⟨i, by omega⟩ v
    else pure A) (g := fun A i => if h : i + 1 < n then
        set2 (set2 A ⟨i, by omega⟩ ⟨i + 1, h⟩ u.val) ⟨i + 1, h⟩ ⟨i, by omega⟩ v.val
      else A) (fun b : Op n => (⟨κ, b⟩ : TArr n)) (l := List.range (n - 1)) (fun i hi b => by
      have hi : i + 1 < n := by have := List.mem_range.1 hi; omega
      simp only [dif_pos hi, TArr.set, if_neg hu, bind, Except.bind, hv]) M
  rw [offLoop, h, tri_fold _ _ _ _ le_rfl]
  congr 2
  ext x y
  simp only [of_apply]
  split_ifs <;> first | rfl | omega

theorem offLoop_error {n : ℕ} (hn : 2 ≤ n) {u v : TNum} {κ : Kind} (hu : u.kind = .complex ∧ κ ≠ .complex) (M : Op n) :
    offLoop n u v ⟨κ, M⟩ = .error .typeError := by
  obtain ⟨m, rfl⟩ : ∃ m, n = m + 2 := ⟨n - 2, by omega⟩
  rw [offLoop, show m + 2 - 1 = m + 1 from rfl, List.range_succ_eq_map, List.foldlM_cons, dif_pos (by omega)]
  simp only [TArr.set, if_pos hu, bind, Except.bind]

theorem offLoop_short {n : ℕ} (hn : n ≤ 1) (u v : TNum) (A : TArr n) : offLoop n u v A = .ok A := by
  rw [offLoop, show n - 1 = 0 by omega]
  rfl

theorem kitaevChainT_loops (n : ℕ) (mu t delta : TNum) : kitaevChainT n mu t delta = (do
    let A ← offLoop n ⟨t.kind, -t.val⟩ ⟨t.kind, -t.val⟩ ⟨Kind.float.promote mu.kind, (-mu.val) • 1⟩
    let B ← offLoop n delta ⟨delta.kind, -delta.val⟩ ⟨.float, 0⟩
    pure (buildH n A.val (some B.val))) := rfl

theorem promote_float (k : Kind) : Kind.float.promote k = .complex ↔ k = .complex := by cases k <;> decide

open Classical in
theorem kitaevChainT_eq (n : ℕ) (mu t delta : TNum) : kitaevChainT n mu t delta =
    if 2 ≤ n ∧ (delta.kind = .complex ∨ t.kind = .complex ∧ mu.kind ≠ .complex) then .error .typeError
    else .ok (buildH n (tri n (-mu.val) (-t.val) (-t.val)) (some (tri n 0 delta.val (-delta.val)))) := by
  rw [kitaevChainT_loops]
  have eA : ∀ n, (Matrix.of fun (x y : Fin n) => if (x : ℕ) + 1 = y then -t.val else if (y : ℕ) + 1 = x then -t.val
      else ((-mu.val) • (1 : Op n)) x y) = tri n (-mu.val) (-t.val) (-t.val) := by
    intro n
    ext x y
    simp only [tri, of_apply, Matrix.smul_apply, Matrix.one_apply, smul_eq_mul, mul_ite, mul_one, mul_zero]
  have eB : ∀ n, (Matrix.of fun (x y : Fin n) => if (x : ℕ) + 1 = y then delta.val else if (y : ℕ) + 1 = x then -delta.val
      else (0 : Op n) x y) = tri n 0 delta.val (-delta.val) := by
    intro n
    ext x y
    simp only [tri, of_apply, Matrix.zero_apply, ite_self]
  by_cases hn : 2 ≤ n
  · by_cases ht : t.kind = .complex ∧ Kind.float.promote mu.kind ≠ .complex
    · rw [offLoop_error (u := ⟨t.kind, -t.val⟩) hn ht, if_pos ⟨hn, .inr ⟨ht.1, fun h => ht.2 ((promote_float _).2 h)⟩⟩]
      rfl
    · rw [offLoop_ok (u := ⟨t.kind, -t.val⟩) ht rfl]
      by_cases hd : delta.kind = .complex
      · rw [if_pos ⟨hn, .inl hd⟩]
        change (offLoop n delta _ _ >>= _) = _
        rw [offLoop_error hn ⟨hd, by decide⟩]
        rfl
      · rw [if_neg (by
          rintro ⟨-, h | ⟨h1, h2⟩⟩
          · exact hd h
          · exact ht ⟨h1, fun h => h2 ((promote_float _).1 h)⟩)]
        change (offLoop n delta _ _ >>= _) = _
        rw [offLoop_ok (v := ⟨delta.kind, -delta.val⟩) (fun h => hd h.1) rfl]
        change Except.ok (buildH n (Matrix.of _) (some (Matrix.of _))) = _
        rw [← eA, ← eB]
  · rw [offLoop_short (by omega), if_neg fun h => hn h.1]
    change (offLoop n delta _ _ >>= _) = _
    rw [offLoop_short (by omega), ← eA, ← eB]
    change Except.ok _ = _
    congr 2
    · ext x y
      rw [of_apply, if_neg (by omega), if_neg (by omega)]
    · congr 1
      ext x y
      rw [of_apply, if_neg (by omega), if_neg (by omega)]

theorem tri_hermitian {n : ℕ} (mu t : ℂ) :
    (tri n (-mu) (-t) (-t)).IsHermitian ↔ (1 ≤ n → mu.im = 0) ∧ (2 ≤ n → t.im = 0) := by
  have him : ∀ z : ℂ, star (-z) = -z ↔ z.im = 0 := fun z => by
    rw [star_neg, neg_inj]
    exact Complex.conj_eq_iff_im
  constructor
  · intro h
    constructor
    · intro hn
      have := congrFun (congrFun h ⟨0, by omega⟩) ⟨0, by omega⟩
      rw [conjTranspose_apply] at this
      simpa [tri, Complex.conj_eq_iff_im] using this
    · intro hn
      have := congrFun (congrFun h ⟨0, by omega⟩) ⟨1, by omega⟩
      rw [conjTranspose_apply] at this
      simpa [tri, Complex.conj_eq_iff_im] using this
  · rintro ⟨h1, h2⟩
    ext x y
    rw [conjTranspose_apply]
    simp only [tri, of_apply, Fin.ext_iff]
    split_ifs
    any_goals omega
    all_goals first | exact (him _).2 (h2 (by omega)) | exact (him _).2 (h1 (by omega)) | simp

end FF
