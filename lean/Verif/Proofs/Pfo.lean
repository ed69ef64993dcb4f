import Verif.Proofs.Dual

/-!
# Completing faces and the Pfaffian orientation
-/

namespace FF
open Verif.Kasteleyn

variable {n : ℕ}

/-- the entry above the diagonal of an edge -/
def upper {K : Type} [Zero K] (o : Matrix (Fin n) (Fin n) K) (e : Dart) : K :=
  if h : min e.1 e.2 < n ∧ max e.1 e.2 < n then o ⟨min e.1 e.2, h.1⟩ ⟨max e.1 e.2, h.2⟩ else 0

/-- the sign of a directed edge -/
noncomputable def dsign (o : Matrix (Fin n) (Fin n) ℂ) (e : Dart) : ℂ := upper o e * prefixSign e

/-- an edge that has not been given a sign -/
def isOpen (o : Matrix (Fin n) (Fin n) ℂ) (e : Dart) : Prop := isclose ((upper o e).re : ℂ) 0

theorem upper_sort {K : Type} [Zero K] (o : Matrix (Fin n) (Fin n) K) (e : Dart) : upper o (sortDart e) = upper o e := by
  have h1 : min (sortDart e).1 (sortDart e).2 = min e.1 e.2 := by simp [sortDart]
  have h2 : max (sortDart e).1 (sortDart e).2 = max e.1 e.2 := by simp [sortDart]
  simp only [upper, h1, h2]

theorem upper_swap {K : Type} [Zero K] (o : Matrix (Fin n) (Fin n) K) (e : Dart) : upper o (e.2, e.1) = upper o e := by
  rw [← upper_sort, sortDart_swap, upper_sort]

theorem isclose_re_one {z : ℂ} (h : z = 1 ∨ z = -1) : ¬ isclose ((z.re : ℝ) : ℂ) 0 := by
  unfold isclose
  rcases h with rfl | rfl <;> norm_num

theorem isclose_re_zero {z : ℂ} (h : z.re = 0) : isclose ((z.re : ℝ) : ℂ) 0 := by
  unfold isclose
  rw [h]; norm_num

theorem prefixSign_or (e : Dart) : prefixSign e = 1 ∨ prefixSign e = -1 := by
  unfold prefixSign; split <;> simp

theorem prefixSign_mul (e : Dart) : prefixSign e * prefixSign e = 1 := by
  rcases prefixSign_or e with h | h <;> rw [h] <;> norm_num

theorem get2_upper {o : Matrix (Fin n) (Fin n) ℂ} {e : Dart} (h : e.1 < n ∧ e.2 < n) :
    get2 o (min e.1 e.2) (max e.1 e.2) = .ok (upper o e) := by
  have h' : min e.1 e.2 < n ∧ max e.1 e.2 < n := ⟨lt_of_le_of_lt (min_le_left _ _) h.1, max_lt h.1 h.2⟩
  rw [get2, dif_pos h', upper, dif_pos h']

open Classical in
theorem scanFace_ok (o : Matrix (Fin n) (Fin n) ℂ) (edges : List Dart) (hb : ∀ e ∈ edges, e.1 < n ∧ e.2 < n) :
    scanFace o edges = .ok (((edges.filter fun e => ¬ isOpen o e).map (dsign o)).prod,
      edges.filter fun e => isOpen o e) := by
  unfold scanFace
  have key : ∀ (l : List Dart) (s : ℂ × List Dart), (∀ e ∈ l, e.1 < n ∧ e.2 < n) →
      l.foldlM (fun (s : ℂ × List Dart) e => do
        let x ← get2 o (min e.1 e.2) (max e.1 e.2)
        if isclose (x.re : ℂ) 0 then pure (s.1, s.2 ++ [e])
        else pure (s.1 * (x * prefixSign e), s.2)) s
      = (.ok (s.1 * ((l.filter fun e => ¬ isOpen o e).map (dsign o)).prod,
          s.2 ++ l.filter fun e => isOpen o e) : Except PyErr _) := by
    intro l
    induction l with
    | nil => intro s _; simp [pure, Except.pure]
    | cons e l ih =>
      intro s h
      rw [List.foldlM_cons, get2_upper (h e (by simp))]
      by_cases ho : isOpen o e
      · have ho' : isclose ((upper o e).re : ℂ) 0 := ho
        simp only [bind, Except.bind, if_pos ho', pure, Except.pure]
        have := ih (s.1, s.2 ++ [e]) (fun x hx => h x (by simp [hx]))
        simp only [bind, Except.bind, pure, Except.pure] at this
        rw [this]
        simp [ho]
      · have ho' : ¬ isclose ((upper o e).re : ℂ) 0 := ho
        simp only [bind, Except.bind, if_neg ho', pure, Except.pure]
        have := ih (s.1 * (upper o e * prefixSign e), s.2) (fun x hx => h x (by simp [hx]))
        simp only [bind, Except.bind, pure, Except.pure] at this
        rw [this]
        simp [ho, dsign, mul_assoc]
  have := key edges (1, []) hb
  simpa using this

/-- the array with the two entries of an edge set to `x` -/
def setBoth (o : Matrix (Fin n) (Fin n) ℂ) (e : Dart) (x : ℂ) : Matrix (Fin n) (Fin n) ℂ := fun a b =>
  if (a.1 = e.1 ∧ b.1 = e.2) ∨ (a.1 = e.2 ∧ b.1 = e.1) then x else o a b

theorem upper_setBoth {o : Matrix (Fin n) (Fin n) ℂ} {e : Dart} {x : ℂ} (h : e.1 < n ∧ e.2 < n) (d : Dart) :
    upper (setBoth o e x) d = if sortDart d = sortDart e then x else upper o d := by
  unfold upper
  by_cases hs : sortDart d = sortDart e
  · rw [if_pos hs]
    have h1 := congrArg Prod.fst hs
    have h2 := congrArg Prod.snd hs
    simp only [sortDart] at h1 h2
    rw [dif_pos (by omega)]
    simp only [setBoth]
    rw [if_pos (by omega)]
  · rw [if_neg hs]
    split_ifs with hd
    · simp only [setBoth]
      rw [if_neg]
      intro hc
      apply hs
      simp only [sortDart, Prod.mk.injEq]
      omega
    · rfl

theorem filter_eq_singleton_split {α : Type} {p : α → Bool} {l : List α} {e : α} (h : l.filter p = [e]) :
    ∃ a b, l = a ++ e :: b ∧ a.filter p = [] ∧ b.filter p = [] := by
  induction l with
  | nil => simp at h
  | cons x l ih =>
    by_cases hx : p x
    · rw [List.filter_cons_of_pos hx] at h
      have h' := List.cons.inj h
      rw [← h'.1]
      exact ⟨[], l, rfl, rfl, h'.2⟩
    · rw [List.filter_cons_of_neg hx] at h
      obtain ⟨a, b, rfl, ha, hb⟩ := ih h
      exact ⟨x :: a, b, rfl, by rw [List.filter_cons_of_neg hx]; exact ha, hb⟩

open Classical in
/-- completing a face with one open edge -/
theorem completeFace_ok (o : Matrix (Fin n) (Fin n) ℂ) (edges : List Dart) (e : Dart)
    (hb : ∀ d ∈ edges, d.1 < n ∧ d.2 < n) (he : (edges.filter fun d => isOpen o d) = [e])
    (hs : ∀ d ∈ edges, ¬ isOpen o d → upper o d = 1 ∨ upper o d = -1) :
    ∃ x : ℂ, (x = 1 ∨ x = -1) ∧ completeFace o edges = .ok (setBoth o e x, true) ∧
      (edges.map (dsign (setBoth o e x))).prod = -1 := by
  have hem : e ∈ edges.filter fun d => isOpen o d := by rw [he]; simp
  have heo : e ∈ edges ∧ isOpen o e := by simpa using hem
  have hbe := hb e heo.1
  obtain ⟨a, b, hab, ha, hb'⟩ := filter_eq_singleton_split he
  set s := ((edges.filter fun e => ¬ isOpen o e).map (dsign o)).prod with hsdef
  have hs1 : s = 1 ∨ s = -1 := by
    have : ∀ l : List Dart, (∀ d ∈ l, dsign o d = 1 ∨ dsign o d = -1) → (l.map (dsign o)).prod = 1 ∨ (l.map (dsign o)).prod = -1 := by
      intro l
      induction l with
      | nil => simp
      | cons d l ih =>
        intro h
        rw [List.map_cons, List.prod_cons]
        rcases h d (by simp) with h1 | h1 <;> rcases ih (fun x hx => h x (by simp [hx])) with h2 | h2 <;>
          rw [h1, h2] <;> norm_num
    apply this
    intro d hd
    rw [List.mem_filter] at hd
    have hd2 := hs d hd.1 (by simpa using hd.2)
    unfold dsign
    rcases hd2 with h1 | h1 <;> rcases prefixSign_or d with h2 | h2 <;> rw [h1, h2] <;> norm_num
  set x : ℂ := if s = -1 then prefixSign e else -1 * prefixSign e with hx
  have hx1 : x = 1 ∨ x = -1 := by
    rw [hx]
    split <;> rcases prefixSign_or e with h | h <;> rw [h] <;> norm_num
  have hsx : s * (x * prefixSign e) = -1 := by
    rcases hs1 with h | h
    · rw [hx, h, if_neg (by norm_num), mul_assoc, prefixSign_mul]; norm_num
    · rw [hx, h, if_pos rfl, prefixSign_mul]; norm_num
  refine ⟨x, hx1, ?_, ?_⟩
  · unfold completeFace
    rw [scanFace_ok o edges hb]
    simp only [bind, Except.bind]
    rw [he]
    simp only [List.getLast?_singleton]
    rw [← hsdef, ← hx]
    have h1 : min e.1 e.2 < n ∧ max e.1 e.2 < n := by omega
    have h2 : max e.1 e.2 < n ∧ min e.1 e.2 < n := by omega
    simp only [setEntry, if_pos h1, if_pos h2, pure, Except.pure]
    congr 2
    funext i j
    simp only [setBoth]
    split_ifs <;> first | rfl | omega
  · have hone : ∀ d ∈ edges, d ≠ e → isOpen o d → False := by
      intro d hd hde ho
      have : d ∈ edges.filter fun d => isOpen o d := by simp [hd, ho]
      rw [he] at this
      exact hde (by simpa using this)
    have hds : ∀ d, ¬ isOpen o d → dsign (setBoth o e x) d = dsign o d := by
      intro d hd
      unfold dsign
      rw [upper_setBoth hbe, if_neg]
      intro hc
      apply hd
      unfold isOpen
      rw [← upper_sort, hc, upper_sort]
      exact heo.2
    have hde : dsign (setBoth o e x) e = x * prefixSign e := by
      unfold dsign
      rw [upper_setBoth hbe, if_pos rfl]
    have hopen : ∀ l : List Dart, (l.filter fun d => decide (isOpen o d)) = [] →
        l.map (dsign (setBoth o e x)) = l.map (dsign o) ∧ (l.filter fun e => decide (¬ isOpen o e)) = l := by
      intro l hl
      have : ∀ d ∈ l, ¬ isOpen o d := by
        intro d hd ho
        have : d ∈ l.filter fun d => decide (isOpen o d) := by simp [hd, ho]
        rw [hl] at this; simp at this
      refine ⟨List.map_congr_left fun d hd => hds d (this d hd), ?_⟩
      rw [List.filter_eq_self]
      intro d hd
      simpa using this d hd
    have hsplit : s = (a.map (dsign o)).prod * (b.map (dsign o)).prod := by
      rw [hsdef, hab, List.filter_append, List.filter_cons_of_neg (by simpa using heo.2), (hopen a ha).2,
        (hopen b hb').2, List.map_append, List.prod_append]
    rw [hab, List.map_append, List.prod_append, List.map_cons, List.prod_cons, (hopen a ha).1, (hopen b hb').1, hde,
      ← hsx, hsplit]
    ring

end FF
