import Verif.Proofs.IeeeCx

/-! # Bounds on products of arrays of complex floats -/

namespace FF

theorem Cx.le_mono {b c : ℝ} {z : Cx} (h : b ≤ c) (hz : z.Le b) : z.Le c := ⟨Fl.le_mono h hz.1, Fl.le_mono h hz.2⟩

theorem Cx.le_conj {b : ℝ} {z : Cx} (hz : z.Le b) : z.conj.Le b := ⟨hz.1, Fl.le_neg hz.2⟩

theorem Cx.add_le {z w : Cx} {i j p : ℕ} (hz : z.Le (i * 2 ^ p)) (hw : w.Le (j * 2 ^ p)) (hij : i + j < 2 ^ 53)
    (h : ((i + j : ℕ) : ℝ) * 2 ^ p < 2 ^ (1024 : ℕ)) : (z.add w).Le ((i + j : ℕ) * 2 ^ p) :=
  ⟨Fl.add_le hz.1 hw.1 hij h, Fl.add_le hz.2 hw.2 hij h⟩

theorem count_mono {i j p : ℕ} (hij : i ≤ j) : (i : ℝ) * 2 ^ p ≤ j * 2 ^ p :=
  mul_le_mul_of_nonneg_right (by exact_mod_cast hij) (by positivity)

/-- A sum in the order of a tree. -/
theorem evalOn_le {ι : Type} (v : ι → Cx) {p : ℕ} (hv : ∀ i, (v i).Le (2 ^ p)) (t : SumTree ι) (hn : t.leaves.length < 2 ^ 53)
    (h : (t.leaves.length : ℝ) * 2 ^ p < 2 ^ (1024 : ℕ)) : (t.evalOn cxArith v).Le (t.leaves.length * 2 ^ p) := by
  induction t with
  | zero => simp [SumTree.evalOn, SumTree.leaves, cxArith, Cx.Le, Fl.Le, rd64]
  | leaf i => simpa [SumTree.evalOn, SumTree.leaves] using hv i
  | node l r hl hr =>
    rw [SumTree.leaves, List.length_append] at hn h ⊢
    exact Cx.add_le (hl (by omega) ((count_mono (by omega)).trans_lt h)) (hr (by omega) ((count_mono (by omega)).trans_lt h)) hn h

theorem matmulCx_le {t : (k : ℕ) → SumTree (Fin k)} {b c d e p : ℕ} {A : Matrix (Fin b) (Fin c) Cx} {B : Matrix (Fin c) (Fin d) Cx}
    (ht : (t c).leaves.length ≤ 2 ^ e) (he : e < 53) (hA : ∀ i j, (A i j).Le (2 ^ p)) (hB : ∀ i j, (B i j).Le (2 ^ p))
    (h : e + (p + p + 1) < 1024) (i : Fin b) (j : Fin d) : (matmulCx t A B i j).Le (2 ^ (e + (p + p + 1))) := by
  have hn : (t c).leaves.length < 2 ^ 53 := ht.trans_lt (Nat.pow_lt_pow_right (by norm_num) he)
  have := evalOn_le (fun k => (A i k).mul (B k j)) (p := p + p + 1) (fun k => Cx.mul_le (hA _ _) (hB _ _) (by omega)) (t c) hn
    (bound_of_pow ht h)
  refine Cx.le_mono ?_ this
  rw [pow_add 2 e]
  exact mul_le_mul_of_nonneg_right (by exact_mod_cast ht) (by positivity)

/-- A loop in which every pass adds one bounded term to the entries of an array, or none. -/
theorem foldl_le {ι : Type} {d T p : ℕ} (hT : T < 2 ^ 53) (h : (T : ℝ) * 2 ^ p < 2 ^ (1024 : ℕ)) (s : ℕ)
    (step : Matrix (Fin d) (Fin d) Cx → ι → Matrix (Fin d) (Fin d) Cx)
    (hs : ∀ acc i c, c + s ≤ T → (∀ x y, (acc x y).Le ((c : ℕ) * 2 ^ p)) → ∀ x y, (step acc i x y).Le (((c + s : ℕ) : ℝ) * 2 ^ p)) :
    ∀ (l : List ι) (acc : Matrix (Fin d) (Fin d) Cx) (c : ℕ), c + l.length * s ≤ T → (∀ x y, (acc x y).Le ((c : ℕ) * 2 ^ p)) →
      ∀ x y, (l.foldl step acc x y).Le (((c + l.length * s : ℕ) : ℝ) * 2 ^ p) := by
  intro l
  induction l with
  | nil => intro acc c _ ha x y; simpa using ha x y
  | cons i l ih =>
    intro acc c hc ha x y
    rw [List.length_cons, Nat.succ_mul] at hc ⊢
    have := ih (step acc i) (c + s) (by omega) (hs acc i c (by omega) ha) x y
    rw [show c + (l.length * s + s) = c + s + l.length * s by ring]
    exact this

end FF
