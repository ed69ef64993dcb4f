import Verif.Spec.Ieee
import Verif.Proofs.IeeeInt

/-! # Property C140: infinities and overflow are not hidden -/

namespace FF.Props

open Matrix Equiv

/-- C140, the numbers. A finite result of an operation is the float nearest to the exact result; floats are not changed; results from
`2^1024` on become infinities. -/
theorem C140_rounding (x : ℝ) :
    (∀ y, rd64 x = .fin y → Spec.IsDouble y ∧ ∀ f, Spec.IsDouble f → |y - x| ≤ |f - x|) ∧
    (Spec.IsDouble x → rd64 x = .fin x) ∧ (2 ^ (1024 : ℕ) ≤ |x| → rd64 x = .inf (decide (x < 0))) ∧
    (|x| ≤ (2 ^ 53 - 1) * 2 ^ (971 : ℕ) → (rd64 x).IsFin) := by
  refine ⟨fun y h => ⟨?_, ?_⟩, ?_, rd64_inf, fun h => ?_⟩
  · obtain ⟨m, q, hm, hq, hy, e⟩ := rd64_float h
    refine ⟨hy, ?_⟩
    rcases lt_or_eq_of_le hm with hm | hm
    · exact ⟨m, q, hm, hq, e⟩
    · rcases (abs_eq (by norm_num)).1 hm with hm | hm
      · refine ⟨2 ^ 52, q + 1, by norm_num, by omega, ?_⟩
        rw [e, hm, zpow_add₀ two_ne_zero]; push_cast; ring
      · refine ⟨-2 ^ 52, q + 1, by norm_num, by omega, ?_⟩
        rw [e, hm, zpow_add₀ two_ne_zero]; push_cast; ring
  · rintro f ⟨-, m, q, hm, hq, rfl⟩
    exact rd64_nearest h hm hq
  · rintro ⟨hx, m, q, hm, hq, rfl⟩
    exact rd64_exact hm hq hx
  · have := rd64_le (x := x) (j := 2 ^ 53 - 1) (p := (971 : ℕ)) (by norm_num) (by norm_num)
      (by rw [zpow_natCast, Nat.cast_sub (by norm_num)]; norm_num at h ⊢; exact h) (by
        rw [zpow_natCast, Nat.cast_sub (by norm_num)]
        push_cast
        rw [show (1024 : ℕ) = 53 + 971 from rfl, pow_add]
        exact mul_lt_mul_of_pos_right (by norm_num) (by positivity))
    exact Fl.le_isFin this

/-- C140, the numbers. Without overflow and underflow the rounding is that of C111, C133 and C141. -/
theorem C140_same (x : ℝ) (h1 : x = 0 ∨ 2 ^ (-1022 : ℤ) ≤ |x|) (h2 : |rnd x| < 2 ^ (1024 : ℕ)) : rd64 x = .fin (rnd x) := by
  classical
  by_cases h0 : x = 0
  · rw [rd64, if_pos h0, rnd, if_pos h0]
  · have h1 := h1.resolve_left h0
    have hlog : -1022 ≤ Int.log 2 |x| := by
      rw [← Int.zpow_le_iff_le_log (by norm_num) (abs_pos.2 h0)]
      exact_mod_cast h1
    have he : max (Int.log 2 |x| - 52) (-1074) = Int.log 2 |x| - 52 := max_eq_left (by omega)
    rw [rnd, if_neg h0] at h2
    rw [rd64, if_neg h0, rnd, if_neg h0]
    simp only [he]
    rw [if_pos h2]

/-- C140. If an entry is an infinity or nan then the result of `dt` and of `pt` is an infinity or nan, for arrays of real and of complex
floats. -/
theorem C140_dt_pt {n : ℕ} :
    (∀ A : Matrix (Fin n) (Fin n) Fl, (∃ i j, ¬ (A i j).IsFin) →
      (∃ r, dtFl A = .ok r ∧ ¬ r.IsFin) ∧ ∃ r, ptFl A = .ok r ∧ ¬ r.IsFin) ∧
    ∀ A : Matrix (Fin n) (Fin n) Cx, (∃ i j, ¬ (A i j).IsFin) →
      (∃ r, dtCx A = .ok r ∧ ¬ r.IsFin) ∧ ∃ r, ptCx A = .ok r ∧ ¬ r.IsFin := by
  constructor
  · rintro A ⟨i, j, h⟩
    obtain ⟨r, h1, h2⟩ := dtOn_good absorbs_fl A
    obtain ⟨r', h1', h2'⟩ := ptOn_good absorbs_fl A
    exact ⟨⟨r, h1, fun hr => h (h2 hr i j)⟩, ⟨r', h1', fun hr => h (h2' hr i j)⟩⟩
  · rintro A ⟨i, j, h⟩
    obtain ⟨r, h1, h2⟩ := dtOn_good absorbs_cx A
    obtain ⟨r', h1', h2'⟩ := ptOn_good absorbs_cx A
    exact ⟨⟨r, h1, fun hr => h (h2 hr i j)⟩, ⟨r', h1', fun hr => h (h2' hr i j)⟩⟩

/-- C140. For an even number of rows the same holds for `pf` and `hf` if the entry is off the diagonal. -/
theorem C140_pf_hf {m : ℕ} :
    (∀ A : Matrix (Fin (2 * m)) (Fin (2 * m)) Fl, (∃ i j, i ≠ j ∧ ¬ (A i j).IsFin) →
      (∃ r, pfFl A = .ok r ∧ ¬ r.IsFin) ∧ ∃ r, hfFl A = .ok r ∧ ¬ r.IsFin) ∧
    ∀ A : Matrix (Fin (2 * m)) (Fin (2 * m)) Cx, (∃ i j, i ≠ j ∧ ¬ (A i j).IsFin) →
      (∃ r, pfCx A = .ok r ∧ ¬ r.IsFin) ∧ ∃ r, hfCx A = .ok r ∧ ¬ r.IsFin := by
  constructor
  · rintro A ⟨i, j, hij, h⟩
    letI := flZero
    obtain ⟨r, h1, h2⟩ := pfOn_good absorbs_fl (fun s k => s.div (rd64 k)) (GoodR := Fl.IsFin) (fun _ _ => Fl.div_fin) A
    obtain ⟨r', h1', h2'⟩ := hfOn_good absorbs_fl (fun s k => s.div (rd64 k)) (GoodR := Fl.IsFin) (fun _ _ => Fl.div_fin) A
    exact ⟨⟨r, h1, fun hr => h (h2 hr i j hij)⟩, ⟨r', h1', fun hr => h (h2' hr i j hij)⟩⟩
  · rintro A ⟨i, j, hij, h⟩
    letI := cxZero
    obtain ⟨r, h1, h2⟩ := pfOn_good absorbs_cx (fun s k => s.divReal (rd64 k)) (GoodR := Cx.IsFin) (fun _ _ => Cx.divReal_fin) A
    obtain ⟨r', h1', h2'⟩ := hfOn_good absorbs_cx (fun s k => s.divReal (rd64 k)) (GoodR := Cx.IsFin) (fun _ _ => Cx.divReal_fin) A
    exact ⟨⟨r, h1, fun hr => h (h2 hr i j hij)⟩, ⟨r', h1', fun hr => h (h2' hr i j hij)⟩⟩

/-- C140 does not hold for the diagonal: `pf` and `hf` do not read it. -/
theorem C140_diagonal {m : ℕ} :
    (∀ A B : Matrix (Fin (2 * m)) (Fin (2 * m)) Fl, (∀ i j, i ≠ j → A i j = B i j) → pfFl A = pfFl B ∧ hfFl A = hfFl B) ∧
    ∀ A B : Matrix (Fin (2 * m)) (Fin (2 * m)) Cx, (∀ i j, i ≠ j → A i j = B i j) → pfCx A = pfCx B ∧ hfCx A = hfCx B :=
  ⟨fun _ _ h => @pfOn_diag _ _ flZero _ _ _ _ _ h, fun _ _ h => @pfOn_diag _ _ cxZero _ _ _ _ _ h⟩

/-- C140 does not hold for an odd number of rows: `pf` and `hf` return 0 whatever the entries are. -/
theorem C140_odd {n : ℕ} (hn : Odd n) :
    (∀ A : Matrix (Fin n) (Fin n) Fl, pfFl A = .ok (.fin 0) ∧ hfFl A = .ok (.fin 0)) ∧
    ∀ A : Matrix (Fin n) (Fin n) Cx, pfCx A = .ok ⟨.fin 0, .fin 0⟩ ∧ hfCx A = .ok ⟨.fin 0, .fin 0⟩ := by
  have hodd : n % 2 ≠ 0 := by rw [Nat.odd_iff] at hn; omega
  constructor <;> intro A
  · letI := flZero
    rw [pfFl, hfFl, pfOn, hfOn, if_pos hodd, if_pos hodd]; exact ⟨rfl, rfl⟩
  · letI := cxZero
    rw [pfCx, hfCx, pfOn, hfOn, if_pos hodd, if_pos hodd]; exact ⟨rfl, rfl⟩

/-- C140. `dt` and `pt` of a real array whose entries are finite and at most `2^k` in size return a finite number if
`n! * 2^(k*n) < 2^1024` (and `n! < 2^53`, that is `n ≤ 18`). -/
theorem C140_dt_pt_finite {n k : ℕ} (hn : n.factorial < 2 ^ 53) (hk : (n.factorial : ℝ) * 2 ^ (k * n) < 2 ^ (1024 : ℕ))
    (A : Matrix (Fin n) (Fin n) Fl) (hA : ∀ i j, ∃ x, A i j = .fin x ∧ |x| ≤ 2 ^ k) :
    (∃ y, dtFl A = .ok (.fin y) ∧ |y| ≤ n.factorial * 2 ^ (k * n)) ∧ ∃ y, ptFl A = .ok (.fin y) ∧ |y| ≤ n.factorial * 2 ^ (k * n) := by
  obtain ⟨L, hnd, hc, hL⟩ := exists_perms n
  have hlen := length_perms hnd hc
  have hA' : ∀ i j, (A i j).Le (2 ^ k) := fun i j => by obtain ⟨x, h1, h2⟩ := hA i j; rw [h1]; exact h2
  have hkn : k * n < 1024 := by
    have h1 : (2 : ℝ) ^ (k * n) < 2 ^ 1024 := by
      refine lt_of_le_of_lt ?_ hk
      have : (1 : ℝ) ≤ n.factorial := by exact_mod_cast Nat.one_le_iff_ne_zero.2 n.factorial_ne_zero
      exact le_mul_of_one_le_left (by positivity) this
    exact (pow_lt_pow_iff_right₀ (by norm_num : (1 : ℝ) < 2)).1 h1
  have hp : ∀ σ : Perm (Fin n), (prodOn flArith (List.ofFn fun i => A i (σ i))).Le (2 ^ (k * n)) := fun σ => by
    have := prodOn_le (List.ofFn fun i => A i (σ i)) (k := k) (by
      intro x hx; obtain ⟨i, rfl⟩ := List.mem_ofFn.1 hx; exact hA' _ _) (by simpa using hkn)
    simpa using this
  have get : ∀ {r : Fl} {b : ℝ}, r.Le b → ∃ y, (Except.ok r : Except PyErr Fl) = .ok (.fin y) ∧ |y| ≤ b := by
    intro r b h
    cases r with
    | fin y => exact ⟨y, rfl, h⟩
    | inf _ => exact h.elim
    | nan => exact h.elim
  constructor
  · have := sumOn_le (L.map fun σ => flArith.mul (flArith.ofInt (Perm.sign σ)) (prodOn flArith (List.ofFn fun i => A i (σ i))))
      (p := k * n) (by
        intro x hx
        obtain ⟨σ, -, rfl⟩ := List.mem_map.1 hx
        have := Fl.mul_le (sign_le σ) (hp σ) (by omega)
        rwa [zero_add] at this) (by rw [List.length_map, hlen]; exact hn) (by rw [List.length_map, hlen]; exact hk)
    rw [List.length_map, hlen] at this
    rw [dtFl, dtOn_ok _ _ hL]
    exact get this
  · have := sumOn_le (L.map fun σ => (prodOn flArith (List.ofFn fun i => A i (σ i))))
      (p := k * n) (by
        intro x hx
        obtain ⟨σ, -, rfl⟩ := List.mem_map.1 hx
        exact hp σ) (by rw [List.length_map, hlen]; exact hn) (by rw [List.length_map, hlen]; exact hk)
    rw [List.length_map, hlen] at this
    rw [ptFl, ptOn_ok _ _ hL]
    exact get this

/-- C140. `pf` and `hf` of a real array with `2m` rows whose entries off the diagonal are finite and at most `2^k` in size return a finite number if
`(2m)! * 2^(k*m) < 2^1024` (and `(2m)! < 2^53`). -/
theorem C140_pf_hf_finite {m k : ℕ} (hn : (2 * m).factorial < 2 ^ 53) (hk : ((2 * m).factorial : ℝ) * 2 ^ (k * m) < 2 ^ (1024 : ℕ))
    (A : Matrix (Fin (2 * m)) (Fin (2 * m)) Fl) (hA : ∀ i j, i ≠ j → ∃ x, A i j = .fin x ∧ |x| ≤ 2 ^ k) :
    (∃ y, pfFl A = .ok (.fin y) ∧ |y| ≤ (2 * m).factorial * 2 ^ (k * m)) ∧
    ∃ y, hfFl A = .ok (.fin y) ∧ |y| ≤ (2 * m).factorial * 2 ^ (k * m) := by
  obtain ⟨L, hnd, hc, hL⟩ := exists_perms (2 * m)
  have hlen := length_perms hnd hc
  have hA' : ∀ i j, i ≠ j → (A i j).Le (2 ^ k) := fun i j hij => by obtain ⟨x, h1, h2⟩ := hA i j hij; rw [h1]; exact h2
  have hkn : k * m < 1024 := by
    have h1 : (2 : ℝ) ^ (k * m) < 2 ^ 1024 := by
      refine lt_of_le_of_lt ?_ hk
      have : (1 : ℝ) ≤ (2 * m).factorial := by exact_mod_cast Nat.one_le_iff_ne_zero.2 (2 * m).factorial_ne_zero
      exact le_mul_of_one_le_left (by positivity) this
    exact (pow_lt_pow_iff_right₀ (by norm_num : (1 : ℝ) < 2)).1 h1
  have hp : ∀ σ : Perm (Fin (2 * m)), (prodOn flArith (List.ofFn fun i : Fin m => A (σ (ev i)) (σ (od i)))).Le (2 ^ (k * m)) := fun σ => by
    have := prodOn_le (List.ofFn fun i : Fin m => A (σ (ev i)) (σ (od i))) (k := k) (by
      intro x hx; obtain ⟨i, rfl⟩ := List.mem_ofFn.1 hx; exact hA' _ _ fun h => ev_ne_od' i (σ.injective h)) (by simpa using hkn)
    simpa using this
  have get : ∀ {r : Fl} {b : ℝ}, r.Le b → ∃ y, (Except.ok r : Except PyErr Fl) = .ok (.fin y) ∧ |y| ≤ b := by
    intro r b h
    cases r with
    | fin y => exact ⟨y, rfl, h⟩
    | inf _ => exact h.elim
    | nan => exact h.elim
  have hd1 : (1 : ℤ) ≤ 2 ^ m * m.factorial := by
    have : 0 < 2 ^ m * m.factorial := by positivity
    exact_mod_cast this
  have hd2 : (2 ^ m * m.factorial : ℤ) < 2 ^ 53 := by
    have h1 : 2 ^ m * m.factorial ≤ (2 * m).factorial := by
      clear * -
      induction m with
      | zero => simp
      | succ m ih =>
        rw [show 2 * (m + 1) = 2 * m + 1 + 1 by ring, Nat.factorial_succ, Nat.factorial_succ, Nat.factorial_succ, pow_succ]
        calc 2 ^ m * 2 * ((m + 1) * m.factorial) = (2 * m + 1 + 1) * (1 * (2 ^ m * m.factorial)) := by ring
          _ ≤ _ := Nat.mul_le_mul_left _ (Nat.mul_le_mul (by omega) ih)
    exact_mod_cast h1.trans_lt hn
  constructor
  · have := sumOn_le (L.map fun σ => flArith.mul (flArith.ofInt (Perm.sign σ))
      (prodOn flArith (List.ofFn fun i : Fin m => A (σ (ev i)) (σ (od i))))) (p := k * m) (by
        intro x hx
        obtain ⟨σ, -, rfl⟩ := List.mem_map.1 hx
        have := Fl.mul_le (sign_le σ) (hp σ) (by omega)
        rwa [zero_add] at this) (by rw [List.length_map, hlen]; exact hn) (by rw [List.length_map, hlen]; exact hk)
    rw [List.length_map, hlen] at this
    letI iz := flZero
    rw [pfFl, pfOn_ok _ _ _ hL]
    exact get (Fl.div_le hd1 hd2 this hn hk)
  · have := sumOn_le (L.map fun σ => (prodOn flArith (List.ofFn fun i : Fin m => A (σ (ev i)) (σ (od i))))) (p := k * m) (by
        intro x hx
        obtain ⟨σ, -, rfl⟩ := List.mem_map.1 hx
        exact hp σ) (by rw [List.length_map, hlen]; exact hn) (by rw [List.length_map, hlen]; exact hk)
    rw [List.length_map, hlen] at this
    letI iz := flZero
    rw [hfFl, hfOn_ok _ _ _ hL]
    exact get (Fl.div_le hd1 hd2 this hn hk)

/-- C140. `dt` and `pt` of a real or complex array of floats whose entries are integers of size at most `B` return the exact determinant and
permanent if `n! * B^n ≤ 2^53`. -/
theorem C140_integers {B : ℤ} (hB : 1 ≤ B) {n : ℕ} (A : Matrix (Fin n) (Fin n) ℤ) (hA : ∀ i j, |A i j| ≤ B)
    (h : n.factorial * B ^ n ≤ 2 ^ 53) :
    dtFl (A.map fun z => .fin z) = .ok (.fin A.det) ∧
    ptFl (A.map fun z => .fin z) = .ok (.fin ((∑ σ : Perm (Fin n), ∏ i, A i (σ i) : ℤ) : ℝ)) ∧
    dtCx (A.map fun z => ⟨.fin z, .fin 0⟩) = .ok ⟨.fin A.det, .fin 0⟩ ∧
    ptCx (A.map fun z => ⟨.fin z, .fin 0⟩) = .ok ⟨.fin ((∑ σ : Perm (Fin n), ∏ i, A i (σ i) : ℤ) : ℝ), .fin 0⟩ := by
  have e : A.permanent = ∑ σ : Perm (Fin n), ∏ i, A i (σ i) := by rw [← permanent_transpose]; rfl
  rw [← e]
  exact ⟨(intEmb_fl.dt hB A hA h).1, (intEmb_fl.dt hB A hA h).2, (intEmb_cx.dt hB A hA h).1, (intEmb_cx.dt hB A hA h).2⟩

example : dtFl (Matrix.map !![3, 5; 7, 11] fun z : ℤ => Fl.fin z) = .ok (.fin (-2)) := by
  have := (C140_integers (B := 11) (by norm_num) !![3, 5; 7, 11] (by decide) (by norm_num [Nat.factorial])).1
  rw [det_fin_two] at this
  simpa using this

/-- C140. If `(2m)! * B^m ≤ 2^53` then `pf` of an array of floats whose entries are integers of size at most `B`, and which is skew, is the exact
Pfaffian, and `hf` of a symmetric one the exact hafnian. -/
theorem C140_integers_pf_hf {B : ℤ} (hB : 1 ≤ B) {m : ℕ} (A : Matrix (Fin (2 * m)) (Fin (2 * m)) ℤ) (hA : ∀ i j, i ≠ j → |A i j| ≤ B)
    (h : (2 * m).factorial * B ^ m ≤ 2 ^ 53) :
    (Aᵀ = -A → ∃ p : ℤ, pf (A.map (Int.cast : ℤ → ℝ)) = .ok (p : ℝ) ∧ pfFl (A.map fun z => .fin z) = .ok (.fin p)) ∧
    (A.IsSymm → ∃ p : ℤ, hf (A.map (Int.cast : ℤ → ℝ)) = .ok (p : ℝ) ∧ hfFl (A.map fun z => .fin z) = .ok (.fin p)) := by
  letI iz := flZero
  obtain ⟨⟨h1, h2⟩, h3, h4⟩ := intEmb_fl.pf (fun s k => s.div (rd64 k)) hB A hA h
  have hk : (2 ^ m * m.factorial : ℤ) ≤ 2 ^ 53 := by
    have e1 : (2 ^ m * m.factorial : ℤ) ≤ (2 * m).factorial := by exact_mod_cast two_pow_mul_factorial_le m
    have e2 : (1 : ℤ) ≤ B ^ m := one_le_pow₀ hB
    nlinarith
  refine ⟨fun hA => ?_, fun hA => ?_⟩
  · obtain ⟨p, hp⟩ := pfVal_integer A fun i j => by
      have := congrFun (congrFun hA j) i
      simpa using this
    exact ⟨p, by rw [pf_ok, hp], by rw [pfFl, h1, Fl.div_exact (den_pos m) hk h2 (pfNum_eq hp)]⟩
  · obtain ⟨p, hp⟩ := hfVal_integer A hA
    exact ⟨p, by rw [hf_ok, hp], by rw [hfFl, h3, Fl.div_exact (den_pos m) hk h4 (hfNum_eq hp)]⟩

example : ∃ p : ℤ, pfFl (Matrix.map !![0, 7; -7, 0] fun z : ℤ => Fl.fin z) = .ok (.fin p) :=
  let ⟨p, _, h⟩ := (C140_integers_pf_hf (m := 1) (B := 7) (by norm_num) !![0, 7; -7, 0] (by decide) (by norm_num [Nat.factorial])).1 (by decide)
  ⟨p, h⟩

theorem dtOn_two {K : Type} (ar : Arith K) (A : Matrix (Fin 2) (Fin 2) K) :
    dtOn ar A = .ok (ar.add (ar.add (ar.ofInt 0) (ar.mul (ar.ofInt 1) (ar.mul (ar.mul (ar.ofInt 1) (A 0 0)) (A 1 1))))
      (ar.mul (ar.ofInt (-1)) (ar.mul (ar.mul (ar.ofInt 1) (A 0 1)) (A 1 0)))) := rfl

theorem ptOn_two {K : Type} (ar : Arith K) (A : Matrix (Fin 2) (Fin 2) K) :
    ptOn ar A = .ok (ar.add (ar.add (ar.ofInt 0) (ar.mul (ar.mul (ar.ofInt 1) (A 0 0)) (A 1 1)))
      (ar.mul (ar.mul (ar.ofInt 1) (A 0 1)) (A 1 0))) := rfl

/-- C140, overflow. The bound is needed: `dt` of the finite array `[[x, x], [x, x]]`, whose determinant is 0, is nan for every power of two
`x ≥ 2^512`, and `pt` of it is infinite. -/
theorem C140_overflow {k : ℕ} (h1 : 512 ≤ k) (h2 : k < 1024) :
    dtFl (Matrix.of fun _ _ : Fin 2 => Fl.fin (2 ^ k)) = .ok .nan ∧ ptFl (Matrix.of fun _ _ : Fin 2 => Fl.fin (2 ^ k)) = .ok (.inf false) := by
  have e1 : rd64 ((1 : ℤ) : ℝ) = .fin 1 := by simpa using rd64_int (k := 1) (by norm_num)
  have e0 : rd64 ((0 : ℤ) : ℝ) = .fin 0 := by simp [rd64]
  have em : rd64 ((-1 : ℤ) : ℝ) = .fin (-1) := by simpa using rd64_int (k := -1) (by norm_num)
  have ek : rd64 ((2 : ℝ) ^ k) = .fin (2 ^ k) := by
    have := rd64_exact (m := 1) (p := k) (by norm_num) (by omega) (by
      rw [Int.cast_one, one_mul, zpow_natCast, abs_of_pos (by positivity)]; exact pow_bound h2)
    simpa using this
  have ekk : rd64 ((2 : ℝ) ^ k * 2 ^ k) = .inf false := by
    rw [rd64_inf]
    · rw [decide_eq_false]; exact not_lt.2 (by positivity)
    · rw [abs_of_pos (by positivity), ← pow_add]
      exact pow_le_pow_right₀ (by norm_num) (by omega)
  constructor
  · rw [dtFl, dtOn_two]
    simp [flArith, Fl.mul, Fl.add, ek, ekk, e0, e1, em, -Int.cast_one, -Int.cast_zero, -Int.cast_neg]
  · rw [ptFl, ptOn_two]
    simp [flArith, Fl.mul, Fl.add, ek, ekk, e0, e1, em, -Int.cast_one, -Int.cast_zero, -Int.cast_neg]

/-- C140, underflow. `dt` and `pt` of the invertible array `[[x, 0], [0, x]]` are 0 for every power of two `x ≤ 2^-538` that is a float. -/
theorem C140_underflow {k : ℕ} (h1 : 538 ≤ k) (h2 : k ≤ 1074) :
    dtFl (Matrix.of fun i j : Fin 2 => if i = j then Fl.fin (2 ^ (-(k : ℤ))) else .fin 0) = .ok (.fin 0) ∧
    ptFl (Matrix.of fun i j : Fin 2 => if i = j then Fl.fin (2 ^ (-(k : ℤ))) else .fin 0) = .ok (.fin 0) := by
  have e1 : rd64 ((1 : ℤ) : ℝ) = .fin 1 := by simpa using rd64_int (k := 1) (by norm_num)
  have e0 : rd64 ((0 : ℤ) : ℝ) = .fin 0 := by simp [rd64]
  have e0' : rd64 0 = .fin 0 := by simp [rd64]
  have em : rd64 ((-1 : ℤ) : ℝ) = .fin (-1) := by simpa using rd64_int (k := -1) (by norm_num)
  set x : ℝ := 2 ^ (-(k : ℤ)) with hx
  have ek : rd64 x = .fin x := by
    have := rd64_exact (m := 1) (p := -(k : ℤ)) (by norm_num) (by omega) (by
      rw [Int.cast_one, one_mul, abs_of_pos (by positivity)]
      refine lt_of_le_of_lt (zpow_le_one_of_nonpos₀ (by norm_num) (by omega)) (one_lt_pow₀ (by norm_num) (by norm_num)))
    rwa [Int.cast_one, one_mul] at this
  have ekk : rd64 (x * x) = .fin 0 := by
    refine rd64_underflow ?_
    rw [abs_of_pos (by positivity), hx, ← zpow_add₀ two_ne_zero]
    exact zpow_le_zpow_right₀ (by norm_num) (by omega)
  constructor
  · rw [dtFl, dtOn_two]
    simp [flArith, Fl.mul, Fl.add, ek, ekk, e0, e0', e1, em, -Int.cast_one, -Int.cast_zero, -Int.cast_neg]
  · rw [ptFl, ptOn_two]
    simp [flArith, Fl.mul, Fl.add, ek, ekk, e0, e0', e1, em, -Int.cast_one, -Int.cast_zero, -Int.cast_neg]

/-- C140. `is_symp` returns False for every array with an infinity or nan, in whatever order numpy adds up the products. -/
theorem C140_is_symp {t : (k : ℕ) → SumTree (Fin k)} (ht : ∀ k i, i ∈ (t k).leaves) {n : ℕ}
    (U : Matrix (Fin (n + n)) (Fin (n + n)) Cx) (hU : ∃ i j, ¬ (U i j).IsFin) : isSympCx t U = false := by
  classical
  obtain ⟨i, j, h⟩ := hU
  have key : ¬ allcloseCx (matmulCx t (matmulCx t U ((swapS n).map Cx.ofC)) U.transpose) ((swapS n).map Cx.ofC) := by
    intro hc
    have h1 := iscloseCx_fin_right (by exact ⟨trivial, trivial⟩) (hc i i)
    exact h (matmulCx_good ht h1 j).2
  simp only [isSympCx]
  rw [if_neg key]
  split_ifs <;> rfl

/-- C140. If a coefficient is an infinity or nan then every entry of the result of `build_op` is an infinity or nan. -/
theorem C140_build_op (t : (k : ℕ) → SumTree (Fin k)) {n d : ℕ} (R : Matrix (Fin (n + n)) (Fin (n + n)) Cx)
    (alphas : Fin (n + n) → Matrix (Fin d) (Fin d) Cx) (direct : Bool) (hR : ∃ i j, ¬ (R i j).IsFin) (x y : Fin d) :
    ¬ (buildOpCx t R alphas direct x y).IsFin := by
  classical
  intro hg
  obtain ⟨i, j, h⟩ := hR
  set step : Matrix (Fin d) (Fin d) Cx → Fin (n + n) → Fin (n + n) → Matrix (Fin d) (Fin d) Cx := fun acc i j =>
    if (R i j).small then acc
    else if direct then Matrix.of fun x y => (acc x y).add ((R i j).mul (matmulCx t (alphas i) (alphas j) x y))
    else Matrix.of fun x y =>
      (acc x y).add ((R i j).mul (matmulCx t ((alphas i).transpose.map Cx.conj) (alphas j) x y)) with hstep
  have hk : ∀ acc i j, (step acc i j x y).IsFin → (acc x y).IsFin := by
    intro acc i j ha
    simp only [hstep] at ha
    split_ifs at ha
    · exact ha
    · exact (Cx.add_fin ha).1
    · exact (Cx.add_fin ha).1
  have hns : ¬ (R i j).small := by
    intro hs
    rw [Cx.small] at hs
    have : ((R i j).re.hypot (R i j).im).IsFin := by
      revert hs
      cases (R i j).re.hypot (R i j).im <;> simp [Fl.IsFin]
    exact h (Fl.hypot_fin this)
  have hij : ∀ acc, ¬ (step acc i j x y).IsFin := by
    intro acc ha
    simp only [hstep] at ha
    rw [if_neg hns] at ha
    split_ifs at ha
    · exact h (Cx.mul_fin (Cx.add_fin ha).2).1
    · exact h (Cx.mul_fin (Cx.add_fin ha).2).1
  have gen : ∀ {ι : Type} (f : Matrix (Fin d) (Fin d) Cx → ι → Matrix (Fin d) (Fin d) Cx),
      (∀ acc i, (f acc i x y).IsFin → (acc x y).IsFin) → ∀ (l : List ι) acc, (l.foldl f acc x y).IsFin →
        (acc x y).IsFin ∧ ∀ i ∈ l, ∃ acc', (f acc' i x y).IsFin := by
    intro ι f hf l
    induction l with
    | nil => exact fun acc h => ⟨h, by simp⟩
    | cons i l ih =>
      intro acc h
      obtain ⟨h1, h2⟩ := ih _ h
      refine ⟨hf _ _ h1, fun k hk => ?_⟩
      rcases List.mem_cons.1 hk with rfl | hk
      · exact ⟨acc, h1⟩
      · exact h2 k hk
  have inner := fun i => gen (fun acc j => step acc i j) (fun acc j => hk acc i j) (List.finRange (n + n))
  obtain ⟨-, h2⟩ := gen (fun acc i => (List.finRange (n + n)).foldl (fun acc j => step acc i j) acc) (fun acc i h => (inner i acc h).1)
    (List.finRange (n + n)) _ hg
  obtain ⟨acc, h3⟩ := h2 i (List.mem_finRange i)
  obtain ⟨acc', h4⟩ := (inner i acc h3).2 j (List.mem_finRange j)
  exact hij acc' h4

/-- C140. The casts reject every vector that contains an infinity or nan with ValueError. A square matrix (with at least two rows) that
contains nan, or an infinity on the diagonal, is rejected with AssertionError. -/
theorem C140_cast (eig : Except PyErr Bool) {t : (k : ℕ) → SumTree (Fin k)} (ht : ∀ k i, i ∈ (t k).leaves) :
    (∀ {n : ℕ} (v : Fin n → Cx), (∃ i, ¬ (v i).IsFin) → castVecCx eig t v = .error .valueError) ∧
    (∀ {n : ℕ} (A : Matrix (Fin n) (Fin n) Cx), n ≠ 1 →
      (∃ i j, (A i j).re = .nan ∨ (A i j).im = .nan ∨ (i = j ∧ ¬ (A i j).IsFin)) → castMatCx eig t A = .error .assertionError) := by
  classical
  constructor
  · rintro n v ⟨i, h⟩
    rw [castVecCx, castVectorCx, if_neg, if_neg]
    · intro hc
      have h1 := (iscloseCx_fin_right (by exact ⟨trivial, trivial⟩) hc).1
      exact h (Fl.hypot_fin (evalOn_good absorbs_fl _ _ h1 i (ht _ _)))
    · intro hc
      have h1 := Fl.add_fin (Fl.sqrt_fin (iscloseCx_fin_right (by exact ⟨trivial, trivial⟩) hc).1)
      exact h ⟨(Fl.mul_fin (evalOn_good absorbs_fl _ _ h1.1 i (ht _ _))).1, (Fl.mul_fin (evalOn_good absorbs_fl _ _ h1.2 i (ht _ _))).1⟩
  · rintro n A hn ⟨i, j, h⟩
    rw [castMatCx, if_neg (by simpa using hn), validateDMCx, dif_neg (by simp)]
    have e : A.submatrix id (Fin.cast rfl) = A := rfl
    simp only [e]
    by_cases h1 : iscloseCx ⟨.fin 1, .fin 0⟩ ((t n).evalOn cxArith fun i => A i i)
    · rw [if_neg (not_not.2 h1), if_pos]
      intro h2
      have hnan : ∀ z w : Cx, iscloseCx z w → z.re ≠ .nan ∧ z.im ≠ .nan := by
        rintro ⟨zr, zi⟩ ⟨wr, wi⟩ hc
        constructor
        · rintro rfl
          cases zi <;> cases wr <;> cases wi <;> exact hc.1
        · rintro rfl
          cases zr <;> cases wr <;> cases wi <;> exact hc.2
      rcases h with h | h | ⟨rfl, h⟩
      · exact (hnan _ _ (h2 i j)).1 h
      · exact (hnan _ _ (h2 i j)).2 h
      · exact h (evalOn_good absorbs_cx _ _ (iscloseCx_fin_left (by exact ⟨trivial, trivial⟩) h1) i (ht _ _))
    · rw [if_pos h1]

/-- C140 does not hold for infinities off the diagonal: `np.allclose` accepts `inf == inf`, so the tests of the trace and of the symmetry
accept `[[1, inf], [inf, 0]]`, and whether it is returned as a density matrix depends on what `np.linalg.eigvalsh` does with it. -/
theorem C140_cast_infinity (eig : Except PyErr Bool) {t : (k : ℕ) → SumTree (Fin k)} (ht : t 2 = .node (.leaf 0) (.leaf 1)) :
    let A : Matrix (Fin 2) (Fin 2) Cx :=
      Matrix.of ![![⟨.fin 1, .fin 0⟩, ⟨.inf false, .fin 0⟩], ![⟨.inf false, .fin 0⟩, ⟨.fin 0, .fin 0⟩]]
    castMatCx eig t A = match eig with
      | .ok true => .ok ⟨2, A⟩
      | .ok false => .error .assertionError
      | .error e => .error e := by
  classical
  intro A
  have e1 : rd64 1 = .fin 1 := by simpa using rd64_int (k := 1) (by norm_num)
  have e0 : rd64 0 = .fin 0 := by simp [rd64]
  rw [castMatCx, if_neg (by simp), validateDMCx, dif_neg (by simp)]
  have e : A.submatrix id (Fin.cast rfl) = A := rfl
  simp only [e]
  rw [if_neg, if_neg, if_neg]
  · rcases eig with e | b
    · rfl
    · cases b <;> rfl
  · intro h
    exact (h 0 1).1
  · rw [not_not]
    intro i j
    fin_cases i <;> fin_cases j <;> simp [A, iscloseCx, Cx.conj, Fl.neg, Fl.eq, isclose] <;> positivity
  · rw [not_not, ht]
    simp [A, SumTree.evalOn, cxArith, Cx.add, Fl.add, e0, e1, iscloseCx, isclose]
    positivity

/-- The hypotheses are met: an array with an infinity, one with a nan, one with finite entries below `2^10`, a summation order, and the number
`3 * 2^5`. -/
example : (∃ i j, ¬ ((Matrix.of fun i j : Fin 3 => if i < j then Fl.inf true else .fin 1) i j).IsFin) ∧
    (∃ i j, i ≠ j ∧ ¬ ((Matrix.of fun _ _ : Fin (2 * 2) => (⟨.nan, .fin 1⟩ : Cx)) i j).IsFin) ∧
    ((4 : ℕ).factorial < 2 ^ 53 ∧ ((4 : ℕ).factorial : ℝ) * 2 ^ (10 * 4) < 2 ^ (1024 : ℕ)) ∧
    (∃ t : (k : ℕ) → SumTree (Fin k), ∀ k i, i ∈ (t k).leaves) ∧ Spec.IsDouble (3 * 2 ^ 5) := by
  refine ⟨⟨0, 1, fun h => h⟩, ⟨0, 1, by decide, fun h => h.1⟩, ⟨by decide, ?_⟩, ⟨fun k => (List.finRange k).foldr (fun i t => .node (.leaf i) t) .zero,
    fun k i => ?_⟩, ?_, 3, 5, by norm_num, by norm_num, by norm_num⟩
  · calc ((4 : ℕ).factorial : ℝ) * 2 ^ (10 * 4) ≤ 2 ^ 100 := by norm_num [Nat.factorial]
      _ < _ := pow_bound (by norm_num)
  · have : ∀ l : List (Fin k), i ∈ l → i ∈ (l.foldr (fun i t => SumTree.node (.leaf i) t) .zero).leaves := by
      intro l
      induction l with
      | nil => simp
      | cons a l ih =>
        intro h
        rw [List.foldr_cons, SumTree.leaves, SumTree.leaves]
        rcases List.mem_cons.1 h with h | h
        · exact List.mem_append_left _ (by simpa using h)
        · exact List.mem_append_right _ (ih h)
    exact this _ (List.mem_finRange i)
  · calc |(3 * 2 ^ 5 : ℝ)| ≤ 2 ^ 10 := by norm_num
      _ < _ := pow_bound (by norm_num)

end FF.Props
