import Verif.Proofs.IeeeInt

/-! # Bounds on sums and products of complex floats -/

namespace FF

open Equiv

/-- A complex number with finite parts of size at most `b`. -/
def Cx.Le (b : ℝ) (z : Cx) : Prop := z.re.Le b ∧ z.im.Le b

theorem Fl.zero_mul_le {x : Fl} {b : ℝ} (h : x.Le b) : (Fl.fin 0).mul x = .fin 0 := by
  cases x <;> first | exact h.elim | simp [Fl.mul, rd64]

theorem Fl.mul_zero_le {x : Fl} {b : ℝ} (h : x.Le b) : x.mul (.fin 0) = .fin 0 := by
  cases x <;> first | exact h.elim | simp [Fl.mul, rd64]

theorem two_mul_pow_lt {p : ℕ} (h : p + 1 < 1024) : ((1 + 1 : ℕ) : ℝ) * 2 ^ p < 2 ^ (1024 : ℕ) := by
  have := pow_bound h
  rw [pow_succ] at this
  push_cast
  linarith

theorem Fl.add_le_pow {x y : Fl} {p : ℕ} (hx : x.Le (2 ^ p)) (hy : y.Le (2 ^ p)) (h : p + 1 < 1024) : (x.add y).Le (2 ^ (p + 1)) := by
  have := Fl.add_le (i := 1) (j := 1) (p := p) (by simpa using hx) (by simpa using hy) (by norm_num) (two_mul_pow_lt h)
  rw [pow_succ]
  refine Fl.le_mono ?_ this
  push_cast
  linarith

/-- Adding a zero keeps a bound. -/
theorem Fl.add_zero_le {x : Fl} {i p : ℕ} (hx : x.Le (i * 2 ^ p)) (hi : i < 2 ^ 53) (h : (i : ℝ) * 2 ^ p < 2 ^ (1024 : ℕ)) :
    (x.add (.fin 0)).Le (i * 2 ^ p) := by
  have := Fl.add_le (i := i) (j := 0) (p := p) (y := .fin 0) hx (by simp [Fl.Le]) (by simpa using hi) (by simpa using h)
  simpa using this

theorem Fl.zero_add_le {x : Fl} {i p : ℕ} (hx : x.Le (i * 2 ^ p)) (hi : i < 2 ^ 53) (h : (i : ℝ) * 2 ^ p < 2 ^ (1024 : ℕ)) :
    (Fl.add (.fin 0) x).Le (i * 2 ^ p) := by
  have := Fl.add_le (i := 0) (j := i) (p := p) (x := .fin 0) (by simp [Fl.Le]) hx (by simpa using hi) (by simpa using h)
  simpa using this

theorem Cx.mul_le {z w : Cx} {p q : ℕ} (hz : z.Le (2 ^ p)) (hw : w.Le (2 ^ q)) (h : p + q + 1 < 1024) :
    (z.mul w).Le (2 ^ (p + q + 1)) :=
  ⟨Fl.add_le_pow (Fl.mul_le hz.1 hw.1 (by omega)) (Fl.le_neg (Fl.mul_le hz.2 hw.2 (by omega))) h,
    Fl.add_le_pow (Fl.mul_le hz.1 hw.2 (by omega)) (Fl.mul_le hz.2 hw.1 (by omega)) h⟩

/-- A product with a real number of size at most 1. -/
theorem Cx.unit_mul_le {s : Fl} {z : Cx} {p : ℕ} (hs : s.Le (2 ^ 0)) (hz : z.Le (2 ^ p)) (h : p < 1024) :
    ((⟨s, .fin 0⟩ : Cx).mul z).Le (2 ^ p) := by
  have h1 := Fl.mul_le hs hz.1 (by omega)
  have h2 := Fl.mul_le hs hz.2 (by omega)
  rw [zero_add] at h1 h2
  have hb : ((1 : ℕ) : ℝ) * 2 ^ p < 2 ^ (1024 : ℕ) := by simpa using pow_bound h
  constructor
  · simp only [Cx.mul, Fl.zero_mul_le hz.2, Fl.neg, neg_zero]
    simpa using Fl.add_zero_le (i := 1) (p := p) (by simpa using h1) (by norm_num) hb
  · simp only [Cx.mul, Fl.zero_mul_le hz.1]
    simpa using Fl.add_zero_le (i := 1) (p := p) (by simpa using h2) (by norm_num) hb

theorem cx_prodOn_le (l : List Cx) {k : ℕ} (hl : ∀ x ∈ l, x.Le (2 ^ k)) (h : (k + 1) * l.length < 1024) :
    (prodOn cxArith l).Le (2 ^ ((k + 1) * l.length)) := by
  have key : ∀ (l : List Cx) (b : Cx) (p : ℕ), b.Le (2 ^ p) → (∀ x ∈ l, x.Le (2 ^ k)) → p + (k + 1) * l.length < 1024 →
      (l.foldl Cx.mul b).Le (2 ^ (p + (k + 1) * l.length)) := by
    intro l
    induction l with
    | nil => intro b p hb _ _; simpa using hb
    | cons x l ih =>
      intro b p hb hl h
      rw [List.length_cons, Nat.mul_succ] at h
      have := ih (b.mul x) (p + k + 1) (Cx.mul_le hb (hl x (by simp)) (by omega)) (fun y hy => hl y (by simp [hy])) (by omega)
      rw [List.foldl_cons, List.length_cons, Nat.mul_succ,
        show p + ((k + 1) * l.length + (k + 1)) = p + k + 1 + (k + 1) * l.length by ring]
      exact this
  have := key l ⟨rd64 ((1 : ℤ) : ℝ), .fin 0⟩ 0 ⟨rd64_le_pow (by norm_num) (by simp), by simp [Fl.Le]⟩ hl (by omega)
  rw [zero_add] at this
  exact this

theorem cx_sumOn_re (l : List Cx) : (sumOn cxArith l).re = sumOn flArith (l.map Cx.re) := by
  have key : ∀ (l : List Cx) (b : Cx), (l.foldl Cx.add b).re = (l.map Cx.re).foldl Fl.add b.re := by
    intro l
    induction l with
    | nil => intro b; rfl
    | cons x l ih => intro b; exact ih _
  exact key l ⟨rd64 ((0 : ℤ) : ℝ), .fin 0⟩

theorem cx_sumOn_im (l : List Cx) : (sumOn cxArith l).im = sumOn flArith (l.map Cx.im) := by
  have key : ∀ (l : List Cx) (b : Cx), (l.foldl Cx.add b).im = (l.map Cx.im).foldl Fl.add b.im := by
    intro l
    induction l with
    | nil => intro b; rfl
    | cons x l ih => intro b; exact ih _
  have h0 : rd64 ((0 : ℤ) : ℝ) = .fin 0 := by simp [rd64]
  have := key l ⟨rd64 ((0 : ℤ) : ℝ), .fin 0⟩
  refine this.trans ?_
  show _ = (l.map Cx.im).foldl Fl.add (rd64 ((0 : ℤ) : ℝ))
  rw [h0]

theorem cx_sumOn_le (l : List Cx) {p : ℕ} (hl : ∀ x ∈ l, x.Le (2 ^ p)) (hn : l.length < 2 ^ 53)
    (h : (l.length : ℝ) * 2 ^ p < 2 ^ (1024 : ℕ)) : (sumOn cxArith l).Le (l.length * 2 ^ p) := by
  constructor
  · rw [cx_sumOn_re]
    have := sumOn_le (l.map Cx.re) (p := p) (by
      intro x hx; obtain ⟨z, hz, rfl⟩ := List.mem_map.1 hx; exact (hl z hz).1) (by simpa using hn) (by simpa using h)
    simpa using this
  · rw [cx_sumOn_im]
    have := sumOn_le (l.map Cx.im) (p := p) (by
      intro x hx; obtain ⟨z, hz, rfl⟩ := List.mem_map.1 hx; exact (hl z hz).2) (by simpa using hn) (by simpa using h)
    simpa using this

theorem Fl.mul_unit_le {x s : Fl} {i p : ℕ} (hx : x.Le (i * 2 ^ p)) (hs : s.Le (2 ^ 0)) (hi : i < 2 ^ 53)
    (h : (i : ℝ) * 2 ^ p < 2 ^ (1024 : ℕ)) : (x.mul s).Le (i * 2 ^ p) := by
  cases x <;> try exact hx.elim
  cases s <;> try exact hs.elim
  rename_i x s
  have hx' : |x| ≤ i * 2 ^ p := hx
  have hs' : |s| ≤ 1 := by simpa [Fl.Le] using hs
  have := rd64_le (x := x * s) (j := i) (p := p) hi (by omega) (by
    rw [zpow_natCast, abs_mul]
    exact (mul_le_of_le_one_right (abs_nonneg _) hs').trans hx') (by rw [zpow_natCast]; exact h)
  rw [zpow_natCast] at this
  exact this

theorem Cx.div_le {z : Cx} {i p : ℕ} {k : ℤ} (hk : 1 ≤ k) (hk' : k < 2 ^ 53) (hz : z.Le (i * 2 ^ p)) (hi : i < 2 ^ 53)
    (h : (i : ℝ) * 2 ^ p < 2 ^ (1024 : ℕ)) : (z.divReal (rd64 k)).Le (i * 2 ^ p) := by
  have hr : rd64 (k : ℝ) = .fin k := rd64_int (by rw [abs_of_pos (by omega)]; exact hk')
  have hk1 : (1 : ℝ) ≤ k := by exact_mod_cast hk
  have h0 : rd64 0 = .fin 0 := by simp [rd64]
  have hrat : (Fl.fin 0).div (rd64 k) = .fin 0 := by rw [hr]; simp [Fl.div, h0]
  have hden : (rd64 (k : ℝ)).add ((Fl.fin 0).mul (.fin 0)) = .fin k := by
    rw [hr]; simp [Fl.mul, Fl.add, h0, hr]
  have hscl : ((Fl.fin 1).div (.fin (k : ℝ))).Le (2 ^ 0) := by
    refine rd64_le_pow (by norm_num) ?_
    rw [pow_zero, abs_div, abs_one, abs_of_pos (by linarith : (0 : ℝ) < k)]
    exact (div_le_one (by linarith)).2 hk1
  simp only [Cx.divReal, hrat, hden, Fl.mul_zero_le hz.1, Fl.mul_zero_le hz.2, Fl.neg, neg_zero]
  exact ⟨Fl.mul_unit_le (Fl.add_zero_le hz.1 hi h) hscl hi h, Fl.mul_unit_le (Fl.add_zero_le hz.2 hi h) hscl hi h⟩

theorem cx_le_of {z : Cx} {b : ℝ} (h : ∃ x y, z = ⟨.fin x, .fin y⟩ ∧ |x| ≤ b ∧ |y| ≤ b) : z.Le b := by
  obtain ⟨x, y, rfl, h1, h2⟩ := h
  exact ⟨h1, h2⟩

theorem cx_of_le {z : Cx} {b : ℝ} (h : z.Le b) :
    ∃ x y, (Except.ok z : Except PyErr Cx) = .ok ⟨.fin x, .fin y⟩ ∧ |x| ≤ b ∧ |y| ≤ b := by
  obtain ⟨u, v⟩ := z
  obtain ⟨h1, h2⟩ := h
  cases u <;> try exact h1.elim
  cases v <;> try exact h2.elim
  exact ⟨_, _, rfl, h1, h2⟩

theorem pow_lt_of_factorial {N e : ℕ} (h : (N.factorial : ℝ) * 2 ^ e < 2 ^ (1024 : ℕ)) : e < 1024 := by
  have h1 : (2 : ℝ) ^ e < 2 ^ 1024 := by
    refine lt_of_le_of_lt ?_ h
    have : (1 : ℝ) ≤ N.factorial := by exact_mod_cast Nat.one_le_iff_ne_zero.2 N.factorial_ne_zero
    exact le_mul_of_one_le_left (by positivity) this
  exact (pow_lt_pow_iff_right₀ (by norm_num : (1 : ℝ) < 2)).1 h1

theorem bound_of_pow {c e p : ℕ} (hc : c ≤ 2 ^ e) (h : e + p < 1024) : (c : ℝ) * 2 ^ p < 2 ^ (1024 : ℕ) := by
  refine lt_of_le_of_lt ?_ (pow_bound h)
  rw [pow_add]
  exact mul_le_mul_of_nonneg_right (by exact_mod_cast hc) (by positivity)

end FF
