import Verif.Proofs.Ieee
import Verif.Proofs.Rounding

/-! # Arrays of floats with integer entries -/

namespace FF

open Equiv Matrix

variable {K : Type}

/-- The integers up to `2^53` are represented, and their sums and products are exact. -/
structure IntEmb (ar : Arith K) (f : ℤ → K) : Prop where
  ofInt : ∀ z, |z| ≤ 2 ^ 53 → ar.ofInt z = f z
  add : ∀ x y, |x + y| ≤ 2 ^ 53 → ar.add (f x) (f y) = f (x + y)
  mul : ∀ x y, |x * y| ≤ 2 ^ 53 → ar.mul (f x) (f y) = f (x * y)

theorem rd64_int' {k : ℤ} (hk : |k| ≤ 2 ^ 53) : rd64 k = .fin k := by
  rcases lt_or_eq_of_le hk with h | h
  · exact rd64_int h
  · have key : ∀ s : ℤ, |s| = 1 → k = s * 2 ^ 53 → rd64 k = .fin k := by
      intro s hs e
      have h1 := rd64_exact (m := s * 2 ^ 52) (p := 1) (by rw [abs_mul, hs]; norm_num) (by norm_num) (by
        have : |((s * 2 ^ 52 : ℤ) : ℝ) * 2 ^ (1 : ℤ)| = 2 ^ 53 := by
          rw [abs_mul, ← Int.cast_abs, abs_mul, hs]; norm_num
        rw [this]; exact pow_bound (by norm_num))
      have h2 : ((s * 2 ^ 52 : ℤ) : ℝ) * 2 ^ (1 : ℤ) = k := by rw [e]; push_cast; ring
      rwa [h2] at h1
    rcases (abs_eq (by norm_num)).1 h with h | h
    · exact key 1 (by norm_num) (by rw [h]; norm_num)
    · exact key (-1) (by norm_num) (by rw [h]; norm_num)

theorem intEmb_fl : IntEmb flArith fun z => .fin z where
  ofInt z hz := rd64_int' hz
  add x y h := by simp only [flArith, Fl.add]; rw [← Int.cast_add]; exact rd64_int' h
  mul x y h := by simp only [flArith, Fl.mul]; rw [← Int.cast_mul]; exact rd64_int' h

theorem intEmb_cx : IntEmb cxArith fun z => ⟨.fin z, .fin 0⟩ where
  ofInt z hz := by simp only [cxArith]; rw [rd64_int' hz]
  add x y h := by
    have e0 : rd64 0 = .fin 0 := by simp [rd64]
    simp only [cxArith, Cx.add, Fl.add]; rw [← Int.cast_add, rd64_int' h, add_zero, e0]
  mul x y h := by
    have e0 : rd64 0 = .fin 0 := by simp [rd64]
    simp only [cxArith, Cx.mul, Fl.mul, Fl.neg, mul_zero, zero_mul, e0]
    rw [← Int.cast_mul, rd64_int' h]
    simp only [Fl.neg, Fl.add, neg_zero, add_zero, e0]
    rw [rd64_int' h]

variable {ar : Arith K} {f : ℤ → K}

theorem IntEmb.prod (he : IntEmb ar f) {B : ℤ} (hB : 1 ≤ B) (l : List ℤ) (hl : ∀ x ∈ l, |x| ≤ B) (h : B ^ l.length ≤ 2 ^ 53) :
    prodOn ar (l.map f) = f l.prod ∧ |l.prod| ≤ B ^ l.length := by
  induction l using List.reverseRecOn with
  | nil => exact ⟨by simpa [prodOn] using he.ofInt 1 (by norm_num), by simp⟩
  | append_singleton l a ih =>
    rw [List.length_append, List.length_singleton, pow_succ] at h
    have hp : 0 < B ^ l.length := pow_pos (by omega) _
    obtain ⟨h1, h2⟩ := ih (fun x hx => hl x (by simp [hx])) (by nlinarith)
    have ha := hl a (by simp)
    have h3 : |l.prod * a| ≤ B ^ l.length * B := by
      rw [abs_mul]; exact mul_le_mul h2 ha (abs_nonneg _) hp.le
    constructor
    · rw [List.map_append, prodOn, List.foldl_append, List.map_singleton, List.foldl_cons, List.foldl_nil]
      change ar.mul (prodOn ar (l.map f)) (f a) = _
      rw [h1, he.mul _ _ (h3.trans h), List.prod_append, List.prod_singleton]
    · rw [List.prod_append, List.prod_singleton, List.length_append, List.length_singleton, pow_succ]
      exact h3

theorem IntEmb.sum (he : IntEmb ar f) {C : ℤ} (hC : 0 ≤ C) (l : List ℤ) (hl : ∀ x ∈ l, |x| ≤ C) (h : l.length * C ≤ 2 ^ 53) :
    sumOn ar (l.map f) = f l.sum ∧ |l.sum| ≤ l.length * C := by
  induction l using List.reverseRecOn with
  | nil => exact ⟨by simpa [sumOn] using he.ofInt 0 (by norm_num), by simp⟩
  | append_singleton l a ih =>
    rw [List.length_append, List.length_singleton] at h
    push_cast at h
    obtain ⟨h1, h2⟩ := ih (fun x hx => hl x (by simp [hx])) (by nlinarith)
    have ha := hl a (by simp)
    have h3 : |l.sum + a| ≤ (l.length + 1) * C := (abs_add_le _ _).trans (by linarith)
    constructor
    · rw [List.map_append, sumOn, List.foldl_append, List.map_singleton, List.foldl_cons, List.foldl_nil]
      change ar.add (sumOn ar (l.map f)) (f a) = _
      rw [h1, he.add _ _ (h3.trans h), List.sum_append, List.sum_singleton]
    · rw [List.sum_append, List.sum_singleton, List.length_append, List.length_singleton]
      push_cast
      exact h3

theorem IntEmb.dt (he : IntEmb ar f) {B : ℤ} (hB : 1 ≤ B) {n : ℕ} (A : Matrix (Fin n) (Fin n) ℤ) (hA : ∀ i j, |A i j| ≤ B)
    (h : n.factorial * B ^ n ≤ 2 ^ 53) : dtOn ar (A.map f) = .ok (f A.det) ∧ ptOn ar (A.map f) = .ok (f A.permanent) := by
  obtain ⟨L, hn, hc, hL⟩ := exists_perms n
  have hlen := length_perms hn hc
  have hBn : B ^ n ≤ 2 ^ 53 := by
    have h1 : (1 : ℤ) ≤ n.factorial := by exact_mod_cast Nat.one_le_iff_ne_zero.2 n.factorial_ne_zero
    have h2 : 0 < B ^ n := pow_pos (by omega) _
    nlinarith
  have hB0 : 0 ≤ B ^ n := pow_nonneg (by omega) _
  have hp : ∀ σ : Perm (Fin n), prodOn ar (List.ofFn fun i => A.map f i (σ i)) = f (∏ i, A i (σ i)) ∧ |∏ i, A i (σ i)| ≤ B ^ n := fun σ => by
    have := he.prod hB (List.ofFn fun i => A i (σ i)) (by
      intro x hx; obtain ⟨i, rfl⟩ := List.mem_ofFn.1 hx; exact hA _ _) (by simpa using hBn)
    rw [List.map_ofFn, List.prod_ofFn, List.length_ofFn] at this
    exact this
  have hs : ∀ σ : Perm (Fin n), ar.mul (ar.ofInt (Perm.sign σ)) (prodOn ar (List.ofFn fun i => A.map f i (σ i))) =
      f ((Perm.sign σ : ℤ) * ∏ i, A i (σ i)) := fun σ => by
    have hs1 : |((Perm.sign σ : ℤˣ) : ℤ)| = 1 := by
      rcases Int.units_eq_one_or (Perm.sign σ) with e | e <;> rw [e] <;> simp
    rw [(hp σ).1, he.ofInt _ (by rw [hs1]; norm_num), he.mul]
    rw [abs_mul, hs1, one_mul]
    exact (hp σ).2.trans hBn
  constructor
  · rw [dtOn_ok _ _ hL]
    simp only [hs]
    have := (he.sum hB0 (L.map fun σ => ((Perm.sign σ : ℤˣ) : ℤ) * ∏ i, A i (σ i)) (by
      intro x hx
      obtain ⟨σ, -, rfl⟩ := List.mem_map.1 hx
      rw [abs_sign_mul]; exact (hp σ).2) (by rw [List.length_map, hlen]; exact h)).1
    rw [List.map_map, sum_perms hn hc] at this
    rw [← Matrix.det_transpose, Matrix.det_apply']
    simp only [Matrix.transpose_apply]
    exact congrArg _ this
  · rw [ptOn_ok _ _ hL]
    simp only [(hp _).1]
    have := (he.sum hB0 (L.map fun σ => ∏ i, A i (σ i)) (by
      intro x hx
      obtain ⟨σ, -, rfl⟩ := List.mem_map.1 hx
      exact (hp σ).2) (by rw [List.length_map, hlen]; exact h)).1
    rw [List.map_map, sum_perms hn hc] at this
    rw [← Matrix.permanent_transpose, Matrix.permanent]
    simp only [Matrix.transpose_apply]
    exact congrArg _ this

theorem IntEmb.pf (he : IntEmb ar f) {R : Type} [Zero R] (div : K → ℤ → R) {B : ℤ} (hB : 1 ≤ B) {m : ℕ}
    (A : Matrix (Fin (2 * m)) (Fin (2 * m)) ℤ) (hA : ∀ i j, i ≠ j → |A i j| ≤ B) (h : (2 * m).factorial * B ^ m ≤ 2 ^ 53) :
    (pfOn ar div (A.map f) = .ok (div (f (pfNum A)) (2 ^ m * m.factorial)) ∧ |pfNum A| ≤ 2 ^ 53) ∧
    (hfOn ar div (A.map f) = .ok (div (f (hfNum A)) (2 ^ m * m.factorial)) ∧ |hfNum A| ≤ 2 ^ 53) := by
  obtain ⟨L, hn, hc, hL⟩ := exists_perms (2 * m)
  have hlen := length_perms hn hc
  have hBn : B ^ m ≤ 2 ^ 53 := by
    have h1 : (1 : ℤ) ≤ (2 * m).factorial := by exact_mod_cast Nat.one_le_iff_ne_zero.2 (2 * m).factorial_ne_zero
    have h2 : 0 < B ^ m := pow_pos (by omega) _
    nlinarith
  have hB0 : 0 ≤ B ^ m := pow_nonneg (by omega) _
  have hp : ∀ σ : Perm (Fin (2 * m)), prodOn ar (List.ofFn fun i : Fin m => A.map f (σ (ev i)) (σ (od i))) =
      f (∏ i : Fin m, A (σ (ev i)) (σ (od i))) ∧ |∏ i : Fin m, A (σ (ev i)) (σ (od i))| ≤ B ^ m := fun σ => by
    have := he.prod hB (List.ofFn fun i : Fin m => A (σ (ev i)) (σ (od i))) (by
      intro x hx; obtain ⟨i, rfl⟩ := List.mem_ofFn.1 hx
      exact hA _ _ fun h => ev_ne_od' i (σ.injective h)) (by simpa using hBn)
    rw [List.map_ofFn, List.prod_ofFn, List.length_ofFn] at this
    exact this
  have hs : ∀ σ : Perm (Fin (2 * m)), ar.mul (ar.ofInt (Perm.sign σ)) (prodOn ar (List.ofFn fun i : Fin m => A.map f (σ (ev i)) (σ (od i)))) =
      f ((Perm.sign σ : ℤ) * ∏ i : Fin m, A (σ (ev i)) (σ (od i))) := fun σ => by
    have hs1 : |((Perm.sign σ : ℤˣ) : ℤ)| = 1 := by
      rcases Int.units_eq_one_or (Perm.sign σ) with e | e <;> rw [e] <;> simp
    rw [(hp σ).1, he.ofInt _ (by rw [hs1]; norm_num), he.mul]
    rw [abs_mul, hs1, one_mul]
    exact (hp σ).2.trans hBn
  constructor
  · rw [pfOn_ok _ _ _ hL]
    simp only [hs]
    have := he.sum hB0 (L.map fun σ => ((Perm.sign σ : ℤˣ) : ℤ) * ∏ i : Fin m, A (σ (ev i)) (σ (od i))) (by
      intro x hx
      obtain ⟨σ, -, rfl⟩ := List.mem_map.1 hx
      rw [abs_sign_mul]; exact (hp σ).2) (by rw [List.length_map, hlen]; exact h)
    rw [List.map_map, sum_perms hn hc, List.length_map, hlen] at this
    have e : pfNum A = ∑ σ : Perm (Fin (2 * m)), ((Perm.sign σ : ℤˣ) : ℤ) * ∏ i : Fin m, A (σ (ev i)) (σ (od i)) := by simp [pfNum]
    rw [e]
    exact ⟨congrArg (fun x => Except.ok (div x _)) this.1, this.2.trans h⟩
  · rw [hfOn_ok _ _ _ hL]
    simp only [(hp _).1]
    have := he.sum hB0 (L.map fun σ => ∏ i : Fin m, A (σ (ev i)) (σ (od i))) (by
      intro x hx
      obtain ⟨σ, -, rfl⟩ := List.mem_map.1 hx
      exact (hp σ).2) (by rw [List.length_map, hlen]; exact h)
    rw [List.map_map, sum_perms hn hc, List.length_map, hlen] at this
    exact ⟨congrArg (fun x => Except.ok (div x _)) this.1, this.2.trans h⟩

theorem two_pow_mul_factorial_le (m : ℕ) : 2 ^ m * m.factorial ≤ (2 * m).factorial := by
  induction m with
  | zero => simp
  | succ m ih =>
    rw [show 2 * (m + 1) = 2 * m + 1 + 1 by ring, Nat.factorial_succ, Nat.factorial_succ, Nat.factorial_succ, pow_succ]
    calc 2 ^ m * 2 * ((m + 1) * m.factorial) = (2 * m + 1 + 1) * (1 * (2 ^ m * m.factorial)) := by ring
      _ ≤ _ := Nat.mul_le_mul_left _ (Nat.mul_le_mul (by omega) ih)

theorem Fl.div_exact {S p k : ℤ} (hk : 0 < k) (h3 : k ≤ 2 ^ 53) (hS : |S| ≤ 2 ^ 53) (h : S = k * p) : (Fl.fin (S : ℝ)).div (rd64 k) = .fin p := by
  have hkr : (k : ℝ) ≠ 0 := by exact_mod_cast hk.ne'
  have h2 : |S| = k * |p| := by rw [h, abs_mul, abs_of_pos hk]
  have h4 : |p| ≤ 2 ^ 53 := by nlinarith [abs_nonneg p]
  rw [rd64_int' (k := k) (by rwa [abs_of_pos hk]), h]
  simp only [Fl.div]
  push_cast
  rw [mul_div_cancel_left₀ _ hkr]
  exact rd64_int' h4

end FF
