import Verif.Proofs.Ieee

/-! # Property C140 for `cast_to_density_matrix`: which infinities can pass, and columns -/

namespace FF.Props

open Matrix

theorem close_conj {z w : Cx} (hc : iscloseCx z w.conj) (hz : ¬ z.IsFin) :
    (∀ s, z.re = .inf s → w.re = .inf s) ∧ (∀ s, z.im = .inf s → w.im = .inf !s) ∧
    (∀ x, z.re = .fin x → w.re = .fin x) ∧ ∀ y, z.im = .fin y → w.im = .fin (-y) := by
  have hc' : z.re.eq w.re ∧ z.im.eq w.im.neg := by
    obtain ⟨a, b⟩ := z
    cases a <;> cases b <;> first | exact (hz ⟨trivial, trivial⟩).elim | exact hc
  obtain ⟨h1, h2⟩ := hc'
  refine ⟨fun s h => ?_, fun s h => ?_, fun x h => ?_, fun y h => ?_⟩
  · rw [h] at h1
    cases e : w.re <;> rw [e] at h1 <;> first | exact h1.elim | exact congrArg _ (Eq.symm h1)
  · rw [h] at h2
    cases e : w.im with
    | inf b =>
      rw [e] at h2
      have h3 : s = !b := h2
      rw [h3, Bool.not_not]
    | fin _ => rw [e] at h2; exact h2.elim
    | nan => rw [e] at h2; exact h2.elim
  · rw [h] at h1
    cases e : w.re <;> rw [e] at h1 <;> first | exact h1.elim | exact congrArg _ (Eq.symm h1)
  · rw [h] at h2
    cases e : w.im with
    | fin d =>
      rw [e] at h2
      have h3 : y = -d := h2
      rw [h3, neg_neg]
    | inf _ => rw [e] at h2; exact h2.elim
    | nan => rw [e] at h2; exact h2.elim

/-- C140. If `cast_to_density_matrix` accepts a square matrix (with at least two rows) then every entry with an infinite part has the exact
conjugate, infinities included, as its mirror image: an infinity of the same sign in the real part, of the opposite sign in the imaginary part,
and the same number, or its negative, in a finite part. -/
theorem C140_cast_mirror {eig : Except PyErr Bool} {t : (k : ℕ) → SumTree (Fin k)} {n : ℕ} (hn : n ≠ 1) {A : Matrix (Fin n) (Fin n) Cx}
    {r : Σ d : ℕ, Matrix (Fin d) (Fin d) Cx} (h : castMatCx eig t A = .ok r) (i j : Fin n) (hij : ¬ (A i j).IsFin) :
    (∀ s, (A i j).re = .inf s → (A j i).re = .inf s) ∧ (∀ s, (A i j).im = .inf s → (A j i).im = .inf !s) ∧
    (∀ x, (A i j).re = .fin x → (A j i).re = .fin x) ∧ ∀ y, (A i j).im = .fin y → (A j i).im = .fin (-y) := by
  classical
  rw [castMatCx, if_neg (by simpa using hn), validateDMCx, dif_neg (by simp)] at h
  have e : A.submatrix id (Fin.cast rfl) = A := rfl
  simp only [e] at h
  split_ifs at h with h1 h2 h3 h4
  · exact absurd (h3 i j) hij
  · exact close_conj (h2 i j) hij

/-- C140, infinities that do not match are rejected: `[[1, inf], [-inf, 0]]` and `[[1, 1j*inf], [1j*inf, 0]]`, whatever `np.linalg.eigvalsh`
does. -/
example (eig : Except PyErr Bool) (t : (k : ℕ) → SumTree (Fin k)) :
    (∀ r, castMatCx eig t (Matrix.of ![![⟨.fin 1, .fin 0⟩, ⟨.inf false, .fin 0⟩], ![⟨.inf true, .fin 0⟩, ⟨.fin 0, .fin 0⟩]] :
      Matrix (Fin 2) (Fin 2) Cx) ≠ .ok r) ∧
    ∀ r, castMatCx eig t (Matrix.of ![![⟨.fin 1, .fin 0⟩, ⟨.fin 0, .inf false⟩], ![⟨.fin 0, .inf false⟩, ⟨.fin 0, .fin 0⟩]] :
      Matrix (Fin 2) (Fin 2) Cx) ≠ .ok r := by
  constructor
  · intro r h
    have := (C140_cast_mirror (by norm_num) h 0 1 (by simp [Cx.IsFin, Fl.IsFin])).1 false rfl
    simp at this
  · intro r h
    have := (C140_cast_mirror (by norm_num) h 0 1 (by simp [Cx.IsFin, Fl.IsFin])).2.1 false rfl
    simp at this

theorem castVectorCx_cast (eig : Except PyErr Bool) (t : (k : ℕ) → SumTree (Fin k)) {a b : ℕ} (h : a = b) (v : Fin b → Cx) (w : Fin a → Cx)
    (hw : ∀ i, w i = v (Fin.cast h i)) : castVectorCx eig t w = castVectorCx eig t v := by
  subst h
  congr 1
  funext i
  exact hw i

/-- C140. A column or a row is treated as the vector of its entries: the outcome is the same, infinities or not. -/
theorem C140_cast_column (eig : Except PyErr Bool) (t : (k : ℕ) → SumTree (Fin k)) {n : ℕ} (hn : 1 ≤ n) (v : Fin n → Cx) :
    castMatCx eig t (Matrix.of fun (i : Fin n) (_ : Fin 1) => v i) = castVecCx eig t v ∧
    castMatCx eig t (Matrix.of fun (_ : Fin 1) (j : Fin n) => v j) = castVecCx eig t v := by
  constructor
  · rw [castMatCx, if_pos (by omega), castVecCx]
    refine castVectorCx_cast eig t (Nat.mul_one n) v _ fun k => ?_
    rw [Matrix.of_apply]
    congr 1
    exact Fin.ext (by simp [Fin.divNat])
  · rw [castMatCx, if_pos (by omega), castVecCx]
    refine castVectorCx_cast eig t (Nat.one_mul n) v _ fun k => ?_
    rw [Matrix.of_apply]
    congr 1
    have := k.2
    exact Fin.ext (by simpa [Fin.modNat] using Nat.mod_eq_of_lt (by omega))

/-- A column with an infinity is rejected like the vector. -/
example (eig : Except PyErr Bool) (t : (k : ℕ) → SumTree (Fin k)) :
    castMatCx eig t (Matrix.of fun (i : Fin 3) (_ : Fin 1) => if i = 0 then ⟨.inf true, .fin 0⟩ else ⟨.fin 0, .fin 0⟩) =
      castVecCx eig t (fun i : Fin 3 => if i = 0 then ⟨.inf true, .fin 0⟩ else ⟨.fin 0, .fin 0⟩) :=
  (C140_cast_column eig t (by norm_num) _).1

end FF.Props
