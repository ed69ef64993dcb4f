import Verif.Model.Ieee
import Verif.Proofs.Machine
import Verif.Proofs.Majorize
import Verif.Proofs.Nan

/-! # Helper lemmas on 64-bit floats with infinities -/

namespace FF

open Equiv Matrix

/-! ## An operation with an infinity or nan does not give a finite number -/

theorem Fl.add_fin {x y : Fl} (h : (x.add y).IsFin) : x.IsFin ∧ y.IsFin := by
  cases x <;> cases y <;> simp_all [Fl.add, Fl.IsFin]
  split_ifs at h <;> simp at h

theorem Fl.mul_fin {x y : Fl} (h : (x.mul y).IsFin) : x.IsFin ∧ y.IsFin := by
  cases x <;> cases y <;> simp_all [Fl.mul, Fl.IsFin]
  all_goals split_ifs at h <;> simp at h

theorem Fl.neg_fin {x : Fl} : x.neg.IsFin ↔ x.IsFin := by
  cases x <;> simp [Fl.neg, Fl.IsFin]

theorem Fl.div_fin {x y : Fl} (h : (x.div y).IsFin) : x.IsFin := by
  cases x <;> cases y <;> simp_all [Fl.div, Fl.IsFin]

theorem Fl.sqrt_fin {x : Fl} (h : x.sqrt.IsFin) : x.IsFin := by
  cases x with
  | fin x => trivial
  | inf s => cases s <;> exact h
  | nan => exact h

theorem Fl.hypot_fin {x y : Fl} (h : (x.hypot y).IsFin) : x.IsFin ∧ y.IsFin := by
  cases x <;> cases y <;> simp_all [Fl.hypot, Fl.IsFin]

theorem Cx.add_fin {x y : Cx} (h : (x.add y).IsFin) : x.IsFin ∧ y.IsFin :=
  ⟨⟨(Fl.add_fin h.1).1, (Fl.add_fin h.2).1⟩, ⟨(Fl.add_fin h.1).2, (Fl.add_fin h.2).2⟩⟩

theorem Cx.mul_fin {x y : Cx} (h : (x.mul y).IsFin) : x.IsFin ∧ y.IsFin := by
  have h1 := Fl.mul_fin (Fl.add_fin h.1).1
  have h2 := Fl.mul_fin (Fl.neg_fin.1 (Fl.add_fin h.1).2)
  exact ⟨⟨h1.1, h2.1⟩, ⟨h1.2, h2.2⟩⟩

theorem Cx.conj_fin {z : Cx} : z.conj.IsFin ↔ z.IsFin := by
  simp [Cx.conj, Cx.IsFin, Fl.neg_fin]

theorem Cx.divReal_fin {z : Cx} {k : Fl} (h : (z.divReal k).IsFin) : z.IsFin :=
  ⟨(Fl.add_fin (Fl.mul_fin h.1).1).1, (Fl.add_fin (Fl.mul_fin h.2).1).1⟩

variable {K : Type}

/-- Sums and products of which one part is not finite are not finite. -/
structure Absorbs (ar : Arith K) (Good : K → Prop) : Prop where
  add : ∀ {x y}, Good (ar.add x y) → Good x ∧ Good y
  mul : ∀ {x y}, Good (ar.mul x y) → Good x ∧ Good y

theorem absorbs_fl : Absorbs flArith Fl.IsFin := ⟨Fl.add_fin, Fl.mul_fin⟩
theorem absorbs_cx : Absorbs cxArith Cx.IsFin := ⟨Cx.add_fin, Cx.mul_fin⟩

theorem foldl_good {op : K → K → K} {Good : K → Prop} (h : ∀ {x y}, Good (op x y) → Good x ∧ Good y) (l : List K) (b : K)
    (hg : Good (l.foldl op b)) : Good b ∧ ∀ x ∈ l, Good x := by
  induction l generalizing b with
  | nil => exact ⟨hg, by simp⟩
  | cons x l ih =>
    obtain ⟨h1, h2⟩ := ih _ hg
    exact ⟨(h h1).1, by simpa using ⟨(h h1).2, h2⟩⟩

theorem dtOn_good {ar : Arith K} {Good : K → Prop} (ha : Absorbs ar Good) {n : ℕ} (A : Matrix (Fin n) (Fin n) K) :
    ∃ r, dtOn ar A = .ok r ∧ (Good r → ∀ i j, Good (A i j)) := by
  obtain ⟨L, -, hc, hL⟩ := exists_perms n
  refine ⟨_, dtOn_ok _ _ hL, fun hg i j => ?_⟩
  have h1 := (foldl_good ha.add _ _ hg).2 _ (List.mem_map.2 ⟨swap i j, hc _, rfl⟩)
  have h2 := (foldl_good ha.mul _ _ (ha.mul h1).2).2 (A i j)
  exact h2 (List.mem_ofFn.2 ⟨i, by simp⟩)

theorem ptOn_good {ar : Arith K} {Good : K → Prop} (ha : Absorbs ar Good) {n : ℕ} (A : Matrix (Fin n) (Fin n) K) :
    ∃ r, ptOn ar A = .ok r ∧ (Good r → ∀ i j, Good (A i j)) := by
  obtain ⟨L, -, hc, hL⟩ := exists_perms n
  refine ⟨_, ptOn_ok _ _ hL, fun hg i j => ?_⟩
  have h1 := (foldl_good ha.add _ _ hg).2 _ (List.mem_map.2 ⟨swap i j, hc _, rfl⟩)
  exact (foldl_good ha.mul _ _ h1).2 (A i j) (List.mem_ofFn.2 ⟨i, by simp⟩)

theorem ev_ne_od' {m : ℕ} (i : Fin m) : ev i ≠ od i := fun h => by
  have := congrArg Fin.val h
  simp [ev, od] at this

theorem pfOn_good {R : Type} [Zero R] {ar : Arith K} {Good : K → Prop} (ha : Absorbs ar Good) (div : K → ℤ → R) {GoodR : R → Prop}
    (hd : ∀ s k, GoodR (div s k) → Good s) {m : ℕ} (A : Matrix (Fin (2 * m)) (Fin (2 * m)) K) :
    ∃ r, pfOn ar div A = .ok r ∧ (GoodR r → ∀ i j, i ≠ j → Good (A i j)) := by
  obtain ⟨L, -, hc, hL⟩ := exists_perms (2 * m)
  refine ⟨_, pfOn_ok _ _ _ hL, fun hg i j hij => ?_⟩
  have hm : 0 < m := by have := i.2; omega
  obtain ⟨σ, e1, e2⟩ := exists_perm_pair (ev_ne_od' ⟨0, hm⟩) hij
  have h1 := (foldl_good ha.add _ _ (hd _ _ hg)).2 _ (List.mem_map.2 ⟨σ, hc _, rfl⟩)
  exact (foldl_good ha.mul _ _ (ha.mul h1).2).2 (A i j) (List.mem_ofFn.2 ⟨⟨0, hm⟩, by rw [e1, e2]⟩)

theorem hfOn_good {R : Type} [Zero R] {ar : Arith K} {Good : K → Prop} (ha : Absorbs ar Good) (div : K → ℤ → R) {GoodR : R → Prop}
    (hd : ∀ s k, GoodR (div s k) → Good s) {m : ℕ} (A : Matrix (Fin (2 * m)) (Fin (2 * m)) K) :
    ∃ r, hfOn ar div A = .ok r ∧ (GoodR r → ∀ i j, i ≠ j → Good (A i j)) := by
  obtain ⟨L, -, hc, hL⟩ := exists_perms (2 * m)
  refine ⟨_, hfOn_ok _ _ _ hL, fun hg i j hij => ?_⟩
  have hm : 0 < m := by have := i.2; omega
  obtain ⟨σ, e1, e2⟩ := exists_perm_pair (ev_ne_od' ⟨0, hm⟩) hij
  have h1 := (foldl_good ha.add _ _ (hd _ _ hg)).2 _ (List.mem_map.2 ⟨σ, hc _, rfl⟩)
  exact (foldl_good ha.mul _ _ h1).2 (A i j) (List.mem_ofFn.2 ⟨⟨0, hm⟩, by rw [e1, e2]⟩)

theorem pfOn_diag {R : Type} [Zero R] (ar : Arith K) (div : K → ℤ → R) {m : ℕ} {A B : Matrix (Fin (2 * m)) (Fin (2 * m)) K}
    (h : ∀ i j, i ≠ j → A i j = B i j) : pfOn ar div A = pfOn ar div B ∧ hfOn ar div A = hfOn ar div B := by
  obtain ⟨L, -, -, hL⟩ := exists_perms (2 * m)
  have e : ∀ (σ : Perm (Fin (2 * m))) (i : Fin m), A (σ (ev i)) (σ (od i)) = B (σ (ev i)) (σ (od i)) :=
    fun σ i => h _ _ fun h => ev_ne_od' i (σ.injective h)
  rw [pfOn_ok _ _ _ hL, pfOn_ok _ _ _ hL, hfOn_ok _ _ _ hL, hfOn_ok _ _ _ hL]
  simp only [e, and_self]

theorem evalOn_good {ι : Type} {ar : Arith K} {Good : K → Prop} (ha : Absorbs ar Good) (v : ι → K) (t : SumTree ι)
    (hg : Good (t.evalOn ar v)) : ∀ i ∈ t.leaves, Good (v i) := by
  induction t with
  | zero => simp [SumTree.leaves]
  | leaf i => simpa [SumTree.leaves, SumTree.evalOn] using hg
  | node l r ihl ihr =>
    have := ha.add hg
    simp only [SumTree.leaves, List.mem_append]
    rintro i (h | h)
    · exact ihl this.1 i h
    · exact ihr this.2 i h

theorem iscloseCx_fin_right {z w : Cx} (hw : w.IsFin) (h : iscloseCx z w) : z.IsFin := by
  obtain ⟨zr, zi⟩ := z
  obtain ⟨wr, wi⟩ := w
  cases zr <;> cases zi <;> cases wr <;> cases wi <;> simp_all [iscloseCx, Cx.IsFin, Fl.IsFin, Fl.eq]

theorem iscloseCx_fin_left {z w : Cx} (hz : z.IsFin) (h : iscloseCx z w) : w.IsFin := by
  obtain ⟨zr, zi⟩ := z
  obtain ⟨wr, wi⟩ := w
  cases zr <;> cases zi <;> cases wr <;> cases wi <;> simp_all [iscloseCx, Cx.IsFin, Fl.IsFin, Fl.eq]

theorem matmulCx_good {t : (k : ℕ) → SumTree (Fin k)} (ht : ∀ k i, i ∈ (t k).leaves) {a b c : ℕ} {A : Matrix (Fin a) (Fin b) Cx}
    {B : Matrix (Fin b) (Fin c) Cx} {i : Fin a} {j : Fin c} (h : (matmulCx t A B i j).IsFin) (k : Fin b) :
    (A i k).IsFin ∧ (B k j).IsFin :=
  Cx.mul_fin (evalOn_good absorbs_cx _ _ h k (ht _ _))

/-! ## Sizes -/

theorem rd64_bound {x : ℝ} {j : ℕ} {p : ℤ} (hj : j < 2 ^ 53) (hp : -1074 ≤ p) (hx : |x| ≤ j * 2 ^ p)
    (hlt : (j : ℝ) * 2 ^ p < 2 ^ (1024 : ℕ)) : ∃ y, rd64 x = .fin y ∧ |y| ≤ j * 2 ^ p := by
  by_cases h0 : x = 0
  · exact ⟨0, by rw [rd64, if_pos h0], by rw [abs_zero]; positivity⟩
  have hpos : 0 < |x| := abs_pos.2 h0
  set e : ℤ := max (Int.log 2 |x| - 52) (-1074) with he
  have hep : e ≤ p := by
    refine max_le ?_ hp
    have h1 : (2 : ℝ) ^ Int.log 2 |x| ≤ |x| := by exact_mod_cast Int.zpow_log_le_self (by norm_num) hpos
    have h2 : (2 : ℝ) ^ Int.log 2 |x| < 2 ^ (53 + p) := by
      refine lt_of_le_of_lt (h1.trans hx) ?_
      rw [zpow_add₀ two_ne_zero]
      refine mul_lt_mul_of_pos_right ?_ (by positivity)
      exact_mod_cast hj
    have := (zpow_lt_zpow_iff_right₀ (by norm_num : (1 : ℝ) < 2)).1 h2
    omega
  obtain ⟨q, hq⟩ := Int.eq_ofNat_of_zero_le (sub_nonneg.2 hep)
  have hN : (j : ℝ) * 2 ^ p * 2 ^ (-e) = ((j * 2 ^ q : ℤ) : ℝ) := by
    rw [mul_assoc, ← zpow_add₀ two_ne_zero, show p + -e = (q : ℤ) by omega]
    push_cast [zpow_natCast]
    ring
  have hx' := abs_le.1 hx
  have hpe : (0 : ℝ) < 2 ^ (-e) := by positivity
  have hr : |rint (x * 2 ^ (-e))| ≤ j * 2 ^ q := by
    rw [abs_le]
    constructor
    · rw [← rint_int (-(j * 2 ^ q : ℤ))]
      refine rint_mono ?_
      rw [Int.cast_neg, ← hN]
      nlinarith [mul_le_mul_of_nonneg_right hx'.1 hpe.le]
    · rw [← rint_int (j * 2 ^ q : ℤ)]
      refine rint_mono ?_
      rw [← hN]
      exact mul_le_mul_of_nonneg_right hx'.2 hpe.le
  have hy : |(rint (x * 2 ^ (-e)) : ℝ) * 2 ^ e| ≤ j * 2 ^ p := by
    rw [abs_mul, abs_of_pos (by positivity : (0 : ℝ) < 2 ^ e)]
    have h1 : (|(rint (x * 2 ^ (-e)) : ℝ)|) ≤ ((j * 2 ^ q : ℤ) : ℝ) := by exact_mod_cast hr
    calc _ ≤ ((j * 2 ^ q : ℤ) : ℝ) * 2 ^ e := mul_le_mul_of_nonneg_right h1 (by positivity)
      _ = _ := by
        rw [← hN, mul_assoc, ← zpow_add₀ two_ne_zero, neg_add_cancel, zpow_zero, mul_one]
  refine ⟨_, ?_, hy⟩
  rw [rd64, if_neg h0]
  simp only [← he]
  rw [if_pos (lt_of_le_of_lt hy hlt)]

/-- A finite number of size at most `b`. -/
def Fl.Le (b : ℝ) : Fl → Prop
  | .fin x => |x| ≤ b
  | _ => False

theorem Fl.le_mono {b c : ℝ} {x : Fl} (h : b ≤ c) (hx : x.Le b) : x.Le c := by
  cases x <;> simp_all [Fl.Le]
  linarith

theorem Fl.le_isFin {b : ℝ} {x : Fl} (h : x.Le b) : x.IsFin := by cases x <;> simp_all [Fl.Le, Fl.IsFin]

theorem Fl.le_neg {b : ℝ} {x : Fl} (h : x.Le b) : x.neg.Le b := by cases x <;> simp_all [Fl.Le, Fl.neg]

theorem rd64_le {x : ℝ} {j : ℕ} {p : ℤ} (hj : j < 2 ^ 53) (hp : -1074 ≤ p) (hx : |x| ≤ j * 2 ^ p)
    (hlt : (j : ℝ) * 2 ^ p < 2 ^ (1024 : ℕ)) : (rd64 x).Le (j * 2 ^ p) := by
  obtain ⟨y, h1, h2⟩ := rd64_bound hj hp hx hlt
  rw [h1]; exact h2

theorem pow_bound {p : ℕ} (hp : p < 1024) : (2 : ℝ) ^ p < 2 ^ (1024 : ℕ) := pow_lt_pow_right₀ (by norm_num) hp

theorem rd64_le_pow {x : ℝ} {p : ℕ} (hp : p < 1024) (hx : |x| ≤ 2 ^ p) : (rd64 x).Le (2 ^ p) := by
  have := rd64_le (x := x) (j := 1) (p := p) (by norm_num) (by omega) (by simpa using hx) (by simpa using pow_bound hp)
  simpa using this

theorem Fl.mul_le {x y : Fl} {p q : ℕ} (hx : x.Le (2 ^ p)) (hy : y.Le (2 ^ q)) (h : p + q < 1024) : (x.mul y).Le (2 ^ (p + q)) := by
  cases x <;> cases y <;> simp_all [Fl.Le, Fl.mul]
  refine rd64_le_pow h ?_
  rw [abs_mul, pow_add]
  exact mul_le_mul hx hy (abs_nonneg _) (by positivity)

theorem Fl.add_le {x y : Fl} {i j p : ℕ} (hx : x.Le (i * 2 ^ p)) (hy : y.Le (j * 2 ^ p)) (hij : i + j < 2 ^ 53)
    (h : ((i + j : ℕ) : ℝ) * 2 ^ p < 2 ^ (1024 : ℕ)) : (x.add y).Le ((i + j : ℕ) * 2 ^ p) := by
  cases x <;> cases y <;> try exact hx.elim
  all_goals try exact hy.elim
  rename_i x y
  have hx' : |x| ≤ i * 2 ^ p := hx
  have hy' : |y| ≤ j * 2 ^ p := hy
  have := rd64_le (x := x + y) (j := i + j) (p := p) hij (by omega)
    (by rw [zpow_natCast]; push_cast; linarith [abs_add_le x y]) (by rw [zpow_natCast]; exact h)
  rw [zpow_natCast] at this
  exact this

theorem prodOn_le (l : List Fl) {k : ℕ} (hl : ∀ x ∈ l, x.Le (2 ^ k)) (h : k * l.length < 1024) :
    (prodOn flArith l).Le (2 ^ (k * l.length)) := by
  have key : ∀ (l : List Fl) (b : Fl) (p : ℕ), b.Le (2 ^ p) → (∀ x ∈ l, x.Le (2 ^ k)) → p + k * l.length < 1024 →
      (l.foldl Fl.mul b).Le (2 ^ (p + k * l.length)) := by
    intro l
    induction l with
    | nil => intro b p hb _ _; simpa using hb
    | cons x l ih =>
      intro b p hb hl h
      rw [List.length_cons, Nat.mul_succ] at h
      have := ih (b.mul x) (p + k) (Fl.mul_le hb (hl x (by simp)) (by omega)) (fun y hy => hl y (by simp [hy])) (by omega)
      rw [List.foldl_cons, List.length_cons, Nat.mul_succ, show p + (k * l.length + k) = p + k + k * l.length by ring]
      exact this
  have := key l (rd64 ((1 : ℤ) : ℝ)) 0 (rd64_le_pow (by norm_num) (by simp)) hl (by omega)
  rw [zero_add] at this
  exact this

theorem sumOn_le (l : List Fl) {p : ℕ} (hl : ∀ x ∈ l, x.Le (2 ^ p)) (hn : l.length < 2 ^ 53)
    (h : (l.length : ℝ) * 2 ^ p < 2 ^ (1024 : ℕ)) : (sumOn flArith l).Le (l.length * 2 ^ p) := by
  have key : ∀ (l : List Fl) (b : Fl) (i : ℕ), b.Le (i * 2 ^ p) → (∀ x ∈ l, x.Le (2 ^ p)) → i + l.length < 2 ^ 53 →
      ((i + l.length : ℕ) : ℝ) * 2 ^ p < 2 ^ (1024 : ℕ) → (l.foldl Fl.add b).Le ((i + l.length : ℕ) * 2 ^ p) := by
    intro l
    induction l with
    | nil => intro b i hb _ _ _; simpa using hb
    | cons x l ih =>
      intro b i hb hl hn h
      rw [List.length_cons] at hn h
      have h1 : ((i + 1 : ℕ) : ℝ) * 2 ^ p < 2 ^ (1024 : ℕ) := by
        refine lt_of_le_of_lt (mul_le_mul_of_nonneg_right ?_ (by positivity)) h
        exact_mod_cast (by omega : i + 1 ≤ i + (l.length + 1))
      have := ih (b.add x) (i + 1) (Fl.add_le hb (by simpa using hl x (by simp)) (by omega) h1) (fun y hy => hl y (by simp [hy]))
        (by omega) (by rw [show i + 1 + l.length = i + (l.length + 1) by ring]; exact h)
      rw [List.foldl_cons, List.length_cons, show i + (l.length + 1) = i + 1 + l.length by ring]
      exact this
  have := key l (rd64 ((0 : ℤ) : ℝ)) 0 (by simp [rd64, Fl.Le]) hl (by omega) (by simpa using h)
  rw [zero_add] at this
  exact this

theorem sign_le {n : ℕ} (σ : Perm (Fin n)) : (rd64 (((Perm.sign σ : ℤˣ) : ℤ) : ℝ)).Le (2 ^ 0) := by
  refine rd64_le_pow (by norm_num) ?_
  rcases Int.units_eq_one_or (Perm.sign σ) with h | h <;> simp [h]

theorem rd64_exact {m p : ℤ} (hm : |m| < 2 ^ 53) (hp : -1074 ≤ p) (hlt : |(m : ℝ) * 2 ^ p| < 2 ^ (1024 : ℕ)) :
    rd64 (m * 2 ^ p) = .fin (m * 2 ^ p) := by
  set x : ℝ := m * 2 ^ p with hx
  by_cases h0 : x = 0
  · rw [rd64, if_pos h0, h0]
  have hpos : 0 < |x| := abs_pos.2 h0
  set e : ℤ := max (Int.log 2 |x| - 52) (-1074) with he
  have hep : e ≤ p := by
    refine max_le ?_ hp
    have h1 : (2 : ℝ) ^ Int.log 2 |x| ≤ |x| := by exact_mod_cast Int.zpow_log_le_self (by norm_num) hpos
    have h2 : (2 : ℝ) ^ Int.log 2 |x| < 2 ^ (53 + p) := by
      refine lt_of_le_of_lt h1 ?_
      rw [zpow_add₀ two_ne_zero, hx, abs_mul, abs_of_pos (by positivity : (0 : ℝ) < 2 ^ p)]
      refine mul_lt_mul_of_pos_right ?_ (by positivity)
      exact_mod_cast hm
    have := (zpow_lt_zpow_iff_right₀ (by norm_num : (1 : ℝ) < 2)).1 h2
    omega
  obtain ⟨q, hq⟩ := Int.eq_ofNat_of_zero_le (sub_nonneg.2 hep)
  have hN : x * 2 ^ (-e) = ((m * 2 ^ q : ℤ) : ℝ) := by
    rw [hx, mul_assoc, ← zpow_add₀ two_ne_zero, show p + -e = (q : ℤ) by omega]
    push_cast [zpow_natCast]
    ring
  have hy : (rint (x * 2 ^ (-e)) : ℝ) * 2 ^ e = x := by
    rw [hN, rint_int, ← hN, mul_assoc, ← zpow_add₀ two_ne_zero, neg_add_cancel, zpow_zero, mul_one]
  rw [rd64, if_neg h0]
  simp only [← he]
  rw [hy, if_pos hlt]

theorem rd64_int {k : ℤ} (hk : |k| < 2 ^ 53) : rd64 k = .fin k := by
  have := rd64_exact (p := 0) hk (by norm_num) (by
    rw [zpow_zero, mul_one, ← Int.cast_abs]
    have : ((|k| : ℤ) : ℝ) < 2 ^ 53 := by exact_mod_cast hk
    exact this.trans (pow_bound (by norm_num)))
  simpa using this

theorem Fl.div_le {x : Fl} {i p : ℕ} {k : ℤ} (hk : 1 ≤ k) (hk' : k < 2 ^ 53) (hx : x.Le (i * 2 ^ p)) (hi : i < 2 ^ 53)
    (h : (i : ℝ) * 2 ^ p < 2 ^ (1024 : ℕ)) : (x.div (rd64 k)).Le (i * 2 ^ p) := by
  rw [rd64_int (by rw [abs_of_pos (by omega)]; exact hk')]
  cases x <;> try exact hx.elim
  rename_i x
  have hx' : |x| ≤ i * 2 ^ p := hx
  have hk1 : (1 : ℝ) ≤ k := by exact_mod_cast hk
  have := rd64_le (x := x / k) (j := i) (p := p) hi (by omega) (by
    rw [zpow_natCast, abs_div, abs_of_pos (by linarith : (0 : ℝ) < k)]
    exact (div_le_self (abs_nonneg _) hk1).trans hx') (by rw [zpow_natCast]; exact h)
  rw [zpow_natCast] at this
  exact this

theorem rint_nearest (t : ℝ) (n : ℤ) : |(rint t : ℝ) - t| ≤ |(n : ℝ) - t| := by
  by_cases h : n = rint t
  · rw [h]
  have h1 : (1 : ℝ) ≤ |(n : ℝ) - rint t| := by exact_mod_cast Int.one_le_abs (sub_ne_zero.2 h)
  have h2 := rint_near t
  have h3 := abs_sub_le (n : ℝ) t (rint t)
  rw [abs_sub_comm t] at h3
  linarith

/-- A rounded number is nearest among the floats. -/
theorem rd64_nearest {x y : ℝ} (h : rd64 x = .fin y) {m q : ℤ} (hm : |m| < 2 ^ 53) (hq : -1074 ≤ q) :
    |y - x| ≤ |(m : ℝ) * 2 ^ q - x| := by
  by_cases h0 : x = 0
  · rw [rd64, if_pos h0, Fl.fin.injEq] at h
    rw [← h, h0, sub_zero, abs_zero]; positivity
  have hpos : 0 < |x| := abs_pos.2 h0
  rw [rd64, if_neg h0] at h
  set e : ℤ := max (Int.log 2 |x| - 52) (-1074) with he
  simp only [] at h
  split_ifs at h with hlt
  rw [Fl.fin.injEq] at h
  have key : ∀ n : ℤ, |y - x| ≤ |(n : ℝ) * 2 ^ e - x| := by
    intro n
    have e1 : x = x * 2 ^ (-e) * 2 ^ e := by
      rw [mul_assoc, ← zpow_add₀ two_ne_zero, neg_add_cancel, zpow_zero, mul_one]
    have hp : (0 : ℝ) < 2 ^ e := by positivity
    rw [← h]
    calc |(rint (x * 2 ^ (-e)) : ℝ) * 2 ^ e - x| = |(rint (x * 2 ^ (-e)) : ℝ) - x * 2 ^ (-e)| * 2 ^ e := by
          rw [← abs_of_pos hp, ← abs_mul, abs_of_pos hp, sub_mul, ← e1]
      _ ≤ |(n : ℝ) - x * 2 ^ (-e)| * 2 ^ e := mul_le_mul_of_nonneg_right (rint_nearest _ n) hp.le
      _ = |(n : ℝ) * 2 ^ e - x| := by rw [← abs_of_pos hp, ← abs_mul, abs_of_pos hp, sub_mul, ← e1]
  by_cases hqe : e ≤ q
  · obtain ⟨k, hk⟩ := Int.eq_ofNat_of_zero_le (sub_nonneg.2 hqe)
    have := key (m * 2 ^ k)
    rwa [show ((m * 2 ^ k : ℤ) : ℝ) * 2 ^ e = m * 2 ^ q by
      rw [show q = (k : ℤ) + e by omega, zpow_add₀ two_ne_zero, zpow_natCast]; push_cast; ring] at this
  · have hel : e = Int.log 2 |x| - 52 := by omega
    have h1 : (2 : ℝ) ^ Int.log 2 |x| ≤ |x| := by exact_mod_cast Int.zpow_log_le_self (by norm_num) hpos
    have hf : |(m : ℝ) * 2 ^ q| ≤ 2 ^ Int.log 2 |x| := by
      rw [abs_mul, abs_of_pos (by positivity : (0 : ℝ) < 2 ^ q)]
      have h2 : |(m : ℝ)| ≤ 2 ^ (53 : ℤ) := by exact_mod_cast hm.le
      calc _ ≤ (2 : ℝ) ^ (53 : ℤ) * 2 ^ q := mul_le_mul_of_nonneg_right h2 (by positivity)
        _ = 2 ^ (53 + q) := (zpow_add₀ two_ne_zero _ _).symm
        _ ≤ _ := zpow_le_zpow_right₀ (by norm_num) (by omega)
    have e2 : (2 : ℝ) ^ Int.log 2 |x| = ((2 ^ 52 : ℤ) : ℝ) * 2 ^ e := by
      rw [show Int.log 2 |x| = (52 : ℕ) + e by push_cast; omega, zpow_add₀ two_ne_zero, zpow_natCast]; norm_num
    have h3 : |y - x| ≤ |x| - 2 ^ Int.log 2 |x| := by
      rcases lt_or_gt_of_ne h0 with hx | hx
      · have := key (-(2 ^ 52))
        rw [Int.cast_neg, neg_mul, ← e2] at this
        refine this.trans (le_of_eq ?_)
        rw [abs_of_neg hx] at h1 ⊢
        rw [abs_of_nonneg (by linarith)]; ring
      · have := key (2 ^ 52)
        rw [← e2] at this
        refine this.trans (le_of_eq ?_)
        rw [abs_of_pos hx] at h1 ⊢
        rw [abs_of_nonpos (by linarith)]; ring
    have h4 := abs_sub_abs_le_abs_sub x ((m : ℝ) * 2 ^ q)
    rw [abs_sub_comm x] at h4
    linarith

/-- A rounded number is a float. -/
theorem rd64_float {x y : ℝ} (h : rd64 x = .fin y) : ∃ m q : ℤ, |m| ≤ 2 ^ 53 ∧ -1074 ≤ q ∧ |y| < 2 ^ (1024 : ℕ) ∧ y = m * 2 ^ q := by
  by_cases h0 : x = 0
  · rw [rd64, if_pos h0, Fl.fin.injEq] at h
    exact ⟨0, 0, by norm_num, by norm_num, by rw [← h]; simp, by rw [← h]; simp⟩
  have hpos : 0 < |x| := abs_pos.2 h0
  rw [rd64, if_neg h0] at h
  set e : ℤ := max (Int.log 2 |x| - 52) (-1074) with he
  simp only [] at h
  split_ifs at h with hlt
  rw [Fl.fin.injEq] at h
  refine ⟨_, e, ?_, le_max_right _ _, h ▸ hlt, h.symm⟩
  have hb : |x * 2 ^ (-e)| ≤ ((2 ^ 53 : ℤ) : ℝ) := by
    rw [abs_mul, abs_of_pos (by positivity : (0 : ℝ) < 2 ^ (-e))]
    have h1 : |x| < (2 : ℝ) ^ (Int.log 2 |x| + 1) := by exact_mod_cast Int.lt_zpow_succ_log_self (by norm_num) |x|
    calc |x| * 2 ^ (-e) ≤ (2 : ℝ) ^ (Int.log 2 |x| + 1) * 2 ^ (-e) := mul_le_mul_of_nonneg_right h1.le (by positivity)
      _ = 2 ^ (Int.log 2 |x| + 1 + -e) := (zpow_add₀ two_ne_zero _ _).symm
      _ ≤ 2 ^ (53 : ℤ) := zpow_le_zpow_right₀ (by norm_num) (by omega)
      _ = _ := by norm_num
  rw [abs_le] at hb ⊢
  constructor
  · rw [← rint_int (-(2 ^ 53))]; refine rint_mono ?_; push_cast at hb ⊢; exact hb.1
  · rw [← rint_int (2 ^ 53)]; exact rint_mono hb.2

/-- Numbers from `2^1024` on become infinities. -/
theorem rd64_inf {x : ℝ} (h : 2 ^ (1024 : ℕ) ≤ |x|) : rd64 x = .inf (decide (x < 0)) := by
  classical
  cases hr : rd64 x with
  | fin y =>
    exfalso
    obtain ⟨-, -, -, -, hy, -⟩ := rd64_float hr
    have h0 : x ≠ 0 := by rintro rfl; rw [abs_zero] at h; exact absurd h (not_le.2 (by positivity))
    have hpos : 0 < |x| := abs_pos.2 h0
    rw [rd64, if_neg h0] at hr
    set e : ℤ := max (Int.log 2 |x| - 52) (-1074) with he
    simp only [] at hr
    split_ifs at hr with hlt
    refine absurd hlt (not_lt.2 ?_)
    have hlog : 1024 ≤ Int.log 2 |x| := by
      rw [← Int.zpow_le_iff_le_log (by norm_num) hpos]
      exact_mod_cast h
    obtain ⟨q, hq⟩ := Int.eq_ofNat_of_zero_le (show 0 ≤ Int.log 2 |x| - e by omega)
    have hle : Int.log 2 |x| = q + e := by omega
    have h1 : (2 : ℝ) ^ Int.log 2 |x| ≤ |x| := by exact_mod_cast Int.zpow_log_le_self (by norm_num) hpos
    have h2 : ((2 ^ q : ℤ) : ℝ) ≤ |x| * 2 ^ (-e) := by
      calc ((2 ^ q : ℤ) : ℝ) = (2 : ℝ) ^ Int.log 2 |x| * 2 ^ (-e) := by
            rw [← zpow_add₀ two_ne_zero, hle, add_neg_cancel_right, zpow_natCast]; push_cast; rfl
        _ ≤ _ := mul_le_mul_of_nonneg_right h1 (by positivity)
    have h3 : ((2 ^ q : ℤ) : ℝ) ≤ |(rint (x * 2 ^ (-e)) : ℝ)| := by
      rcases le_total 0 x with hx | hx
      · rw [abs_of_nonneg hx] at h2
        refine le_trans ?_ (le_abs_self _)
        exact_mod_cast (rint_int (2 ^ q)).symm.le.trans (rint_mono h2)
      · rw [abs_of_nonpos hx] at h2
        refine le_trans ?_ (neg_le_abs _)
        have : rint (x * 2 ^ (-e)) ≤ -(2 ^ q) := by
          rw [← rint_int (-(2 ^ q))]
          refine rint_mono ?_
          push_cast at h2 ⊢
          linarith
        exact_mod_cast (by omega : (2 ^ q : ℤ) ≤ -rint (x * 2 ^ (-e)))
    rw [abs_mul, abs_of_pos (by positivity : (0 : ℝ) < 2 ^ e)]
    calc (2 : ℝ) ^ (1024 : ℕ) = 2 ^ ((1024 : ℕ) : ℤ) := (zpow_natCast _ _).symm
      _ ≤ 2 ^ Int.log 2 |x| := zpow_le_zpow_right₀ (by norm_num) (by exact_mod_cast hlog)
      _ = ((2 ^ q : ℤ) : ℝ) * 2 ^ e := by rw [hle, zpow_add₀ two_ne_zero, zpow_natCast]; push_cast; rfl
      _ ≤ _ := mul_le_mul_of_nonneg_right h3 (by positivity)
  | inf s =>
    rw [rd64] at hr
    split_ifs at hr
    simp only [] at hr
    split_ifs at hr
    exact hr.symm
  | nan =>
    rw [rd64] at hr
    split_ifs at hr
    simp only [] at hr
    split_ifs at hr

/-- Numbers up to `2^-1075` become zero. -/
theorem rd64_underflow {x : ℝ} (h : |x| ≤ 2 ^ (-1075 : ℤ)) : rd64 x = .fin 0 := by
  classical
  by_cases h0 : x = 0
  · rw [rd64, if_pos h0]
  have hpos : 0 < |x| := abs_pos.2 h0
  have hlog : Int.log 2 |x| ≤ -1075 := by
    have h1 : (2 : ℝ) ^ Int.log 2 |x| ≤ |x| := by exact_mod_cast Int.zpow_log_le_self (by norm_num) hpos
    exact (zpow_le_zpow_iff_right₀ (by norm_num : (1 : ℝ) < 2)).1 (h1.trans h)
  have he : max (Int.log 2 |x| - 52) (-1074) = -1074 := max_eq_right (by omega)
  have hr : rint (x * 2 ^ (-(-1074) : ℤ)) = 0 := by
    rw [rint_eq_zero, abs_mul, abs_of_pos (by positivity : (0 : ℝ) < 2 ^ (-(-1074) : ℤ))]
    calc _ ≤ (2 : ℝ) ^ (-1075 : ℤ) * 2 ^ (-(-1074) : ℤ) := mul_le_mul_of_nonneg_right h (by positivity)
      _ = 1 / 2 := by rw [← zpow_add₀ two_ne_zero]; norm_num
  rw [rd64, if_neg h0]
  simp only [he, hr]
  simp

end FF
