import Verif.Proofs.IeeeOp
import Verif.Proofs.MachineBuild

/-! # Property C140 for `build_op`: no overflow for coefficients of bounded size -/

namespace FF.Props

open Matrix

/-- C140. `build_op` returns finite entries if the coefficients have real and imaginary parts of size at most `2^k`, the entries of the
operators have real and imaginary parts of size at most `2^b`, and the operators have at most `2^e` rows, with `(2n)^2 * 2^(k + e + 2b + 2) < 2^1024`.
numpy may add up the products in any order; `ht` says that it adds up every product once. -/
theorem C140_build_op_finite {t : (k : ℕ) → SumTree (Fin k)} (ht : ∀ k, (t k).leaves.length = k) {n d k b e : ℕ} (hd : d ≤ 2 ^ e) (he : e < 53)
    (hn : (2 * n) ^ 2 < 2 ^ 53) (hk : (((2 * n) ^ 2 : ℕ) : ℝ) * 2 ^ (k + e + 2 * b + 2) < 2 ^ (1024 : ℕ))
    (R : Matrix (Fin (n + n)) (Fin (n + n)) Cx)
    (hR : ∀ i j, ∃ x y, R i j = ⟨.fin x, .fin y⟩ ∧ |x| ≤ 2 ^ k ∧ |y| ≤ 2 ^ k) (alphas : Fin (n + n) → Matrix (Fin d) (Fin d) Cx)
    (hα : ∀ i u v, ∃ x y, alphas i u v = ⟨.fin x, .fin y⟩ ∧ |x| ≤ 2 ^ b ∧ |y| ≤ 2 ^ b) (direct : Bool) (u v : Fin d) :
    ∃ x y, buildOpCx t R alphas direct u v = ⟨.fin x, .fin y⟩ ∧ |x| ≤ ((2 * n) ^ 2 : ℕ) * 2 ^ (k + e + 2 * b + 2) ∧
      |y| ≤ ((2 * n) ^ 2 : ℕ) * 2 ^ (k + e + 2 * b + 2) := by
  classical
  have hT : (t d).leaves.length ≤ 2 ^ e := (ht d).trans_le hd
  have ha : ∀ i u v, (alphas i u v).Le (2 ^ b) := fun i u v => cx_le_of (hα i u v)
  have hterm : ∀ i j (A : Matrix (Fin d) (Fin d) Cx) (B : Matrix (Fin d) (Fin d) Cx), (∀ u v, (A u v).Le (2 ^ b)) →
      (∀ u v, (B u v).Le (2 ^ b)) → ∀ x y, ((R i j).mul (matmulCx t A B x y)).Le (((1 : ℕ) : ℝ) * 2 ^ (k + e + 2 * b + 2)) := by
    intro i j A B hA hB x y
    have hke : k + e + 2 * b + 2 < 1024 := by
      have h1 : (2 : ℝ) ^ (k + e + 2 * b + 2) < 2 ^ 1024 := by
        refine lt_of_le_of_lt ?_ hk
        have : 1 ≤ (2 * n) ^ 2 := Nat.one_le_pow _ _ (by have := i.2; omega)
        exact le_mul_of_one_le_left (by positivity) (by exact_mod_cast this)
      exact (pow_lt_pow_iff_right₀ (by norm_num : (1 : ℝ) < 2)).1 h1
    have := Cx.mul_le (cx_le_of (hR i j)) (matmulCx_le (p := b) hT he hA hB (by omega) x y) (by omega)
    rw [show k + (e + (b + b + 1)) + 1 = k + e + 2 * b + 2 by ring] at this
    simpa using this
  have key := foldl_le (T := (2 * n) ^ 2) (p := k + e + 2 * b + 2) hn hk (n + n)
    (fun acc i => (List.finRange (n + n)).foldl (fun acc j =>
      if (R i j).small then acc
      else if direct then Matrix.of fun x y => (acc x y).add ((R i j).mul (matmulCx t (alphas i) (alphas j) x y))
      else Matrix.of fun x y =>
        (acc x y).add ((R i j).mul (matmulCx t ((alphas i).transpose.map Cx.conj) (alphas j) x y))) acc)
    (by
      intro acc i c hc hacc x y
      have := foldl_le (T := (2 * n) ^ 2) (p := k + e + 2 * b + 2) hn hk 1 (fun acc j =>
        if (R i j).small then acc
        else if direct then Matrix.of fun x y => (acc x y).add ((R i j).mul (matmulCx t (alphas i) (alphas j) x y))
        else Matrix.of fun x y =>
          (acc x y).add ((R i j).mul (matmulCx t ((alphas i).transpose.map Cx.conj) (alphas j) x y)))
        (by
          intro acc j c hc hacc x y
          have hb : ((c + 1 : ℕ) : ℝ) * 2 ^ (k + e + 2 * b + 2) < 2 ^ (1024 : ℕ) := (count_mono hc).trans_lt hk
          split_ifs
          · exact Cx.le_mono (count_mono (by omega)) (hacc x y)
          · exact Cx.add_le (hacc x y) (hterm i j _ _ (ha i) (ha j) x y) (by omega) hb
          · exact Cx.add_le (hacc x y) (hterm i j _ _ (fun u v => Cx.le_conj (ha i v u)) (ha j) x y) (by omega) hb)
        (List.finRange (n + n)) acc c (by simpa using hc) hacc x y
      simpa using this)
    (List.finRange (n + n)) (Matrix.of fun _ _ => ⟨.fin 0, .fin 0⟩) 0 (by rw [List.length_finRange]; exact le_of_eq (by ring))
    (fun x y => by simp [Cx.Le, Fl.Le]) u v
  rw [List.length_finRange, show 0 + (n + n) * (n + n) = (2 * n) ^ 2 by ring] at key
  obtain ⟨x, y, h, hx, hy⟩ := cx_of_le key
  exact ⟨x, y, Except.ok.inj h, hx, hy⟩

/-- A sum from left to right. -/
def leftSum : (k : ℕ) → SumTree (Fin k)
  | 0 => .zero
  | k + 1 => (List.finRange k).foldl (fun s i => .node s (.leaf i.succ)) (.leaf 0)

theorem leftSum_length (k : ℕ) : (leftSum k).leaves.length = k := by
  cases k with
  | zero => rfl
  | succ k =>
    have : ∀ (l : List (Fin k)) (s : SumTree (Fin (k + 1))),
        (l.foldl (fun s i => SumTree.node s (.leaf i.succ)) s).leaves.length = s.leaves.length + l.length := by
      intro l
      induction l with
      | nil => intro s; rfl
      | cons i l ih => intro s; rw [List.foldl_cons, ih]; simp [SumTree.leaves]; omega
    rw [leftSum, this]
    simp [SumTree.leaves]; omega

/-- The hypotheses are met: 3 sites, operators with 8 rows and entries `1 + i`, coefficients `2^900`. -/
example (u v : Fin 8) : (buildOpCx leftSum (n := 3) (Matrix.of fun _ _ => ⟨.fin (2 ^ 900), .fin 0⟩)
    (fun _ => Matrix.of fun _ _ : Fin 8 => ⟨.fin 1, .fin 1⟩) true u v).IsFin := by
  obtain ⟨x, y, h, -⟩ := C140_build_op_finite leftSum_length (n := 3) (d := 8) (k := 900) (b := 0) (e := 3) (by norm_num) (by norm_num) (by norm_num)
    (bound_of_pow (e := 6) (by norm_num) (by norm_num)) (Matrix.of fun _ _ => ⟨.fin (2 ^ 900), .fin 0⟩)
    (fun _ _ => ⟨_, _, rfl, by rw [abs_of_pos (by positivity)], by simp⟩) (fun _ => Matrix.of fun _ _ : Fin 8 => ⟨.fin 1, .fin 1⟩)
    (fun _ _ _ => ⟨_, _, rfl, by simp, by simp⟩) true u v
  rw [h]
  exact ⟨trivial, trivial⟩

/-- C140. With the operators of `jordan_wigner_alphas(n)`, up to 48 sites, `build_op` returns finite entries if the coefficients have real and
imaginary parts of size at most `2^950`. -/
theorem C140_build_op_jordan_wigner {t : (k : ℕ) → SumTree (Fin k)} (ht : ∀ k, (t k).leaves.length = k) {n : ℕ} (hn : n ≤ 48)
    (R : Matrix (Fin (n + n)) (Fin (n + n)) Cx) (hR : ∀ i j, ∃ x y, R i j = ⟨.fin x, .fin y⟩ ∧ |x| ≤ 2 ^ 950 ∧ |y| ≤ 2 ^ 950)
    (alphas : Fin (n + n) → Op (2 ^ n)) (hα : jordanWignerAlphas n = List.ofFn alphas) (direct : Bool) (u v : Fin (2 ^ n)) :
    (buildOpCx t R (fun i => (alphas i).map Cx.ofC) direct u v).IsFin := by
  have e : alphas = al n := (List.ofFn_injective (by rw [← hα, jordanWignerAlphas_eq]))
  obtain ⟨x, y, h, -⟩ := C140_build_op_finite ht (n := n) (d := 2 ^ n) (k := 950) (b := 0) (e := n) le_rfl (by omega)
    (lt_of_le_of_lt (Nat.pow_le_pow_left (by omega : 2 * n ≤ 96) 2) (by norm_num))
    (bound_of_pow (e := 14) ((Nat.pow_le_pow_left (by omega : 2 * n ≤ 96) 2).trans (by norm_num)) (by omega)) R hR
    (fun i => (alphas i).map Cx.ofC) (fun i u v => ⟨(alphas i u v).re, (alphas i u v).im, rfl, by
      rw [e, pow_zero]; exact (Complex.abs_re_le_norm _).trans (tern_abs (tern_al i u v)).2, by
      rw [e, pow_zero]; exact (Complex.abs_im_le_norm _).trans (tern_abs (tern_al i u v)).2⟩) direct u v
  rw [h]
  exact ⟨trivial, trivial⟩

/-- The hypotheses are met: two sites, every coefficient `2^900 - 3i`. -/
example (u v : Fin (2 ^ 2)) :
    (buildOpCx leftSum (n := 2) (Matrix.of fun _ _ => ⟨.fin (2 ^ 900), .fin (-3)⟩) (fun i => (al 2 i).map Cx.ofC) false u v).IsFin :=
  C140_build_op_jordan_wigner leftSum_length (by norm_num) _ (fun _ _ => ⟨_, _, rfl,
    by rw [abs_of_pos (by positivity)]; exact pow_le_pow_right₀ (by norm_num) (by norm_num),
    by
      rw [abs_neg, abs_of_pos (by norm_num)]
      exact (by norm_num : (3 : ℝ) ≤ 2 ^ 2).trans (pow_le_pow_right₀ (by norm_num) (by norm_num))⟩) (al 2)
    (jordanWignerAlphas_eq 2) false u v

end FF.Props
