import Verif.Proofs.Coefficients
import Mathlib.Tactic.NormNum.OfScientific

/-! # Helper lemmas: the loops of the coefficient functions -/

namespace FF

open Matrix
open scoped ComplexConjugate

theorem mapM_ok {α β : Type} {f : α → Except PyErr β} {g : α → β} {l : List α}
    (h : ∀ a ∈ l, f a = .ok (g a)) : l.mapM f = .ok (l.map g) := by
  induction l with
  | nil => rfl
  | cons a l ih =>
    rw [List.mapM_cons, h a (by simp), ih (fun a ha => h a (List.mem_cons_of_mem _ ha))]
    rfl

theorem listGet_ofFn {α : Type} {m : ℕ} (f : Fin m → α) (i : ℕ) (hi : i < m) :
    listGet (List.ofFn f) i = .ok (f ⟨i, hi⟩) := by
  simp [listGet, hi]

theorem listGet_some {α : Type} {l : List α} {i : ℕ} {x : α} (h : l[i]? = some x) :
    listGet l i = .ok x := by
  simp [listGet, h]

theorem foldlM_sum {β : Type} [AddCommMonoid β] {M N : ℕ} (hM : M = N) {F : β → ℕ → Except PyErr β}
    (g : Fin N → β) (h : ∀ (i : Fin N) (b : β), F b i = .ok (b + g i)) (b : β) :
    (List.range M).foldlM F b = .ok (b + ∑ i, g i) := by
  subst hM
  rw [foldlM_ok (g := fun b i => b + (if h : i < M then g ⟨i, h⟩ else 0))]
  · rw [foldl_add_eq_sum, sum_map_range]; simp
  · intro i hi b
    have hi := List.mem_range.1 hi
    rw [dif_pos hi]
    exact h ⟨i, hi⟩ b

theorem fillArray_ok {n : ℕ} {f : ℕ → ℕ → Except PyErr ℂ} {g : Op (n + n)}
    (h : ∀ i j : Fin (n + n), f i j = .ok (g i j)) : fillArray n f = .ok g := by
  have h1 : (List.range (2 * n)).mapM (fun i => (List.range (2 * n)).mapM fun j => f i j) =
      .ok ((List.range (2 * n)).map fun i => (List.range (2 * n)).map fun j =>
        if h : i < n + n ∧ j < n + n then g ⟨i, h.1⟩ ⟨j, h.2⟩ else 0) := by
    apply mapM_ok
    intro i hi
    apply mapM_ok
    intro j hj
    rw [List.mem_range] at hi hj
    have hi' : i < n + n := by omega
    have hj' : j < n + n := by omega
    rw [dif_pos ⟨hi', hj'⟩]
    exact h ⟨i, hi'⟩ ⟨j, hj'⟩
  rw [fillArray, h1]
  change Except.ok _ = _
  congr 1
  ext i j
  have hi : (i : ℕ) < 2 * n := by omega
  have hj : (j : ℕ) < 2 * n := by omega
  simp [hi, hj]

/-! ## rotate_operators -/

theorem performRotation_ok {m k d N : ℕ} (C : Matrix (Fin m) (Fin k) ℂ) (f : Fin N → Op d)
    (hm : N ≤ m) (hk : N ≤ k) :
    performRotation C (List.ofFn f) = .ok (List.ofFn fun j : Fin N =>
      ∑ i : Fin N, Spec.dropSmall 1e-9 C (Fin.castLE hm j) (Fin.castLE hk i) • f i) := by
  classical
  have key (j : ℕ) (hj : j < N) :
      (List.range N).foldlM (fun b i => do
        let c ← get2 C j i
        if ‖c‖ < 1e-9 then pure b
        else do
          let a ← listGet (List.ofFn f) i
          pure (b + c • a)) (0 : Op d) = .ok (∑ i : Fin N,
        Spec.dropSmall 1e-9 C (Fin.castLE hm ⟨j, hj⟩) (Fin.castLE hk i) • f i) := by
    rw [foldlM_sum rfl (fun i =>
      Spec.dropSmall 1e-9 C (Fin.castLE hm ⟨j, hj⟩) (Fin.castLE hk i) • f i), zero_add]
    intro i b
    rw [get2_lt C (hj.trans_le hm) (i.2.trans_le hk), listGet_ofFn f i i.2]
    simp only [Spec.dropSmall, of_apply]
    change (if ‖C ⟨j, _⟩ ⟨i, _⟩‖ < 1e-9 then pure b else
      (pure (b + C ⟨j, _⟩ ⟨i, _⟩ • f i) : Except PyErr (Op d))) = .ok (b + (if ‖C ⟨j, _⟩ ⟨i, _⟩‖ < 1e-9 then _ else _) • f i)
    split_ifs <;> simp [pure, Except.pure] <;> rfl
  rw [performRotation, mapM_ok (g := fun j => if hj : j < N then (∑ i : Fin N,
        Spec.dropSmall 1e-9 C (Fin.castLE hm ⟨j, hj⟩) (Fin.castLE hk i) • f i) else 0)]
  · congr 1
    apply List.ext_getElem
    · simp
    · intro i h1 h2
      simp at h1
      simp [h1]
  · intro j hj
    simp only [List.length_ofFn, List.mem_range] at hj
    rw [dif_pos hj, ← key j hj, List.length_ofFn]

/-! ## build_op -/

theorem buildOp_ok {m k d n : ℕ} (R : Matrix (Fin m) (Fin k) ℂ) (alphas : List (Op d))
    (f : Fin (n + n) → Op d) (hf : ∀ i : Fin (n + n), alphas[(i : ℕ)]? = some (f i))
    (hm : n + n ≤ m) (hk : n + n ≤ k) (hn : 1 ≤ n) (direct : Bool) :
    buildOp n R alphas direct = .ok (∑ i : Fin (n + n), ∑ j : Fin (n + n),
      Spec.dropSmall 1e-10 R (Fin.castLE hm i) (Fin.castLE hk j) •
        ((if direct then f i else (f i)ᴴ) * f j)) := by
  classical
  have h0 : listGet alphas 0 = .ok (f ⟨0, by omega⟩) := listGet_some (hf ⟨0, by omega⟩)
  rw [buildOp, h0]
  change (List.range (2 * n)).foldlM _ _ = _
  rw [foldlM_sum (two_mul n) (fun i => ∑ j : Fin (n + n),
      Spec.dropSmall 1e-10 R (Fin.castLE hm i) (Fin.castLE hk j) •
        ((if direct then f i else (f i)ᴴ) * f j)), zero_add]
  intro i b
  rw [foldlM_sum (two_mul n)]
  intro j b
  rw [get2_lt R (i.2.trans_le hm) (j.2.trans_le hk), listGet_some (hf i), listGet_some (hf j)]
  simp only [Spec.dropSmall, of_apply]
  change (if ‖R ⟨i, _⟩ ⟨j, _⟩‖ < 1e-10 then (pure b : Except PyErr (Op d)) else
    if direct then pure (b + R ⟨i, _⟩ ⟨j, _⟩ • (f i * f j)) else
    pure (b + R ⟨i, _⟩ ⟨j, _⟩ • ((f i)ᴴ * f j))) = .ok (b + (if ‖R ⟨i, _⟩ ⟨j, _⟩‖ < 1e-10 then _ else _) • _)
  cases direct <;> simp <;> split_ifs <;> simp [pure, Except.pure] <;> rfl

theorem buildOp_square {d n : ℕ} (R : Op (n + n)) (f : Fin (n + n) → Op d) (hn : 1 ≤ n) :
    buildOp n R (List.ofFn f) false = .ok (Spec.quad (Spec.dropSmall 1e-10 R) f) := by
  rw [buildOp_ok R (List.ofFn f) f (fun i => by simp) le_rfl le_rfl hn]
  rfl

theorem buildOp_square_direct {d n : ℕ} (R : Op (n + n)) (f : Fin (n + n) → Op d) (hn : 1 ≤ n) :
    buildOp n R (List.ofFn f) true = .ok (Spec.quadDirect (Spec.dropSmall 1e-10 R) f) := by
  rw [buildOp_ok R (List.ofFn f) f (fun i => by simp) le_rfl le_rfl hn]
  rfl

end FF
