import Verif.Proofs.Circuit
import Verif.Proofs.Evolve

/-! # Proofs: independently filled sites -/

namespace FF

open Matrix
open scoped ComplexOrder

variable {n : ℕ}

/-- Occupations as basis states. -/
def bitsE (n : ℕ) : (Fin n → Bool) ≃ Fin (2 ^ n) where
  toFun c := bIdx fun k => if c k then 1 else 0
  invFun x k := decide (Spec.digit 2 n x k = 1)
  left_inv c := by
    funext k
    have := congrFun ((eq_bIdx _ _).1 (rfl : bIdx (fun k => if c k then (1 : Fin 2) else 0) = _)) k
    change decide (_ = _) = _
    rw [this]
    by_cases h : c k = true <;> simp [h]
  right_inv x := by
    symm
    rw [eq_bIdx]
    funext k
    have : ∀ y : Fin 2, y = if decide (y = 1) = true then 1 else 0 := by decide
    exact this _

theorem bitsE_symm (x : Fin (2 ^ n)) (k : Fin n) : (bitsE n).symm x k = decide (Spec.digit 2 n x k = 1) := rfl

theorem bits_state (p : Fin n → ℝ) : Spec.ObeysWick (al n) (modeState 1 (bitsE n) p) ∧
    corrP (modeState 1 (bitsE n) p) = diagonal (Fin.append (fun k => ((p k : ℝ) : ℂ)) fun k => ((1 - p k : ℝ) : ℂ)) := by
  have hc : IsCanonicalU (1 : Op (n + n)) := by
    rw [IsCanonicalU]
    have : cj (1 : Op (n + n)) = 1 := by
      ext i j; simp [cj, one_apply, apply_ite]
    rw [this, mul_one, swapS_sq]
  have := gauss_of_modes (U := (1 : Op (n + n))) hc (by simp) (V := 1) (e := bitsE n) (by simp) (fun k => ?_) p
  · simpa using this
  · have h1 : comb ((1 : Op (n + n))ᴴ (Fin.castAdd n k)) = al n (Fin.castAdd n k) := by
      have := acts_one (n := n) (Fin.castAdd n k)
      rw [mul_one, one_mul] at this
      rw [conjTranspose_one, ← this]
    have h2 : (fun k => if h : k < n then comb ((1 : Op (n + n))ᴴ (Fin.castAdd n ⟨k, h⟩)) else 0 : ℕ → Op (2 ^ n)) k = al n (Fin.castAdd n k) := by
      simp only [dif_pos k.2, Fin.eta]
      exact h1
    rw [h2, al_left, conjTranspose_conjTranspose, number_diag, conjTranspose_one, one_mul, mul_one]
    congr 1
    funext x
    rw [bitsE_symm]
    have : ∀ y : Fin 2, ((y : ℕ) : ℂ) = if decide (y = 1) = true then 1 else 0 := Fin.forall_fin_two.2 ⟨by simp, by simp⟩
    exact this _

theorem bits_basis (x : Fin (2 ^ n)) : modeState 1 (bitsE n) (fun k => if Spec.digit 2 n x k = 1 then 1 else 0) = Spec.proj (Pi.single x 1) := by
  rw [modeState, conjTranspose_one, one_mul, mul_one]
  ext i j
  rw [diagonal_apply, Spec.proj, of_apply]
  have hp : ∀ y : Fin (2 ^ n), patP (fun k => if Spec.digit 2 n x k = 1 then (1 : ℝ) else 0) ((bitsE n).symm y) = if y = x then 1 else 0 := by
    intro y
    rw [patP]
    by_cases h : y = x
    · rw [if_pos h, h]
      refine Finset.prod_eq_one fun k _ => ?_
      rw [bitsE_symm]
      by_cases h1 : Spec.digit 2 n x k = 1 <;> simp [h1]
    · rw [if_neg h]
      have : ∃ k, Spec.digit 2 n y k ≠ Spec.digit 2 n x k := by
        by_contra hcon
        push Not at hcon
        exact h (((eq_bIdx y _).2 (funext hcon)).trans ((eq_bIdx x _).2 rfl).symm)
      obtain ⟨k, hk⟩ := this
      refine Finset.prod_eq_zero (Finset.mem_univ k) ?_
      rw [bitsE_symm]
      have key : ∀ u v : Fin 2, u ≠ v → (if decide (u = 1) = true then (if v = 1 then (1 : ℝ) else 0) else 1 - if v = 1 then 1 else 0) = 0 := by
        intro u v
        fin_cases u <;> fin_cases v <;> simp
      exact key _ _ hk
  by_cases hij : i = j
  · subst hij
    rw [if_pos rfl, hp]
    by_cases h : i = x
    · subst h; simp
    · simp [h]
  · rw [if_neg hij]
    by_cases h : i = x
    · subst h; simp [Ne.symm hij]
    · simp [h]

end FF
