import Verif.Props.Combinatorics
import Verif.Proofs.HfExpand

/-! # Property C163: expansion along a row

`i.succAbove j` is the `j`-th of the indices other than `i`, so `A.submatrix i.succAbove j.succAbove` is `A` without row `i` and
column `j`. -/

namespace FF.Props

open Equiv Matrix

variable {K : Type}

/-- C163. `dt(A)` is the alternating sum, along any row, of the entries times `dt` of the array without their row and column. -/
theorem C163_dt [CommRing K] {n : ℕ} (A : Matrix (Fin (n + 1)) (Fin (n + 1)) K) (i : Fin (n + 1)) :
    ∃ f : Fin (n + 1) → K, (∀ j, dt (A.submatrix i.succAbove j.succAbove) = .ok (f j)) ∧
      dt A = .ok (∑ j : Fin (n + 1), (-1) ^ ((i : ℕ) + (j : ℕ)) * A i j * f j) :=
  ⟨fun j => (A.submatrix i.succAbove j.succAbove).det, fun j => C02_dt_eq_det _, by rw [C02_dt_eq_det, det_succ_row A i]⟩

/-- C163. The same for `pt`, without signs. -/
theorem C163_pt [CommRing K] {n : ℕ} (A : Matrix (Fin (n + 1)) (Fin (n + 1)) K) (i : Fin (n + 1)) :
    ∃ f : Fin (n + 1) → K, (∀ j, pt (A.submatrix i.succAbove j.succAbove) = .ok (f j)) ∧
      pt A = .ok (∑ j, A i j * f j) :=
  ⟨fun j => (A.submatrix i.succAbove j.succAbove).permanent, fun j => pt_ok _, by rw [pt_ok, permanent_row A i]⟩

/-- C163. `pf` of a skew-symmetric array is the alternating sum, along any row `i`, of the entries `A[i,j]` with `j ≠ i` times `pf`
of the array without the rows and columns `i` and `j`. -/
theorem C163_pf [Field K] [CharZero K] {n : ℕ} (A : Matrix (Fin (n + 2)) (Fin (n + 2)) K) (hA : Aᵀ = -A) (i : Fin (n + 2)) :
    ∃ f : Fin (n + 1) → K,
      (∀ p, pf (A.submatrix (fun x => i.succAbove (p.succAbove x)) fun x => i.succAbove (p.succAbove x)) = .ok (f p)) ∧
      pf A = .ok (∑ p : Fin (n + 1), (-1) ^ ((i : ℕ) + (p : ℕ)) * A i (i.succAbove p) * f p) := by
  rcases Nat.even_or_odd' n with ⟨m, rfl | rfl⟩
  · refine ⟨_, fun p => pf_ok _, ?_⟩
    have h := pfVal_any_row (A := A) (fun a b => by simpa using congrFun (congrFun hA b) a) i
    rw [← h]
    exact pf_ok (m := m + 1) A
  · refine ⟨fun _ => 0, fun p => pf_odd (by omega) _, ?_⟩
    rw [pf_odd (by omega)]
    simp

/-- C163. The same for `hf` of a symmetric array, without signs. -/
theorem C163_hf [Field K] [CharZero K] {n : ℕ} (A : Matrix (Fin (n + 2)) (Fin (n + 2)) K) (hA : A.IsSymm) (i : Fin (n + 2)) :
    ∃ f : Fin (n + 1) → K,
      (∀ p, hf (A.submatrix (fun x => i.succAbove (p.succAbove x)) fun x => i.succAbove (p.succAbove x)) = .ok (f p)) ∧
      hf A = .ok (∑ p, A i (i.succAbove p) * f p) := by
  rcases Nat.even_or_odd' n with ⟨m, rfl | rfl⟩
  · refine ⟨_, fun p => hf_ok _, ?_⟩
    rw [← hfVal_any_row hA i]
    exact hf_ok (m := m + 1) A
  · refine ⟨fun _ => 0, fun p => hf_odd (by omega) _, ?_⟩
    rw [hf_odd (by omega)]
    simp

/-- A skew-symmetric and a symmetric array with four rows. -/
example : (!![0, 1, 2, 3; -1, 0, 4, 5; -2, -4, 0, 6; -3, -5, -6, 0] : Matrix (Fin 4) (Fin 4) ℚ)ᵀ =
      -!![0, 1, 2, 3; -1, 0, 4, 5; -2, -4, 0, 6; -3, -5, -6, 0] ∧
    (!![0, 1, 2, 3; 1, 0, 4, 5; 2, 4, 0, 6; 3, 5, 6, 0] : Matrix (Fin 4) (Fin 4) ℚ).IsSymm := by
  constructor
  · ext i j
    fin_cases i <;> fin_cases j <;> simp
  · ext i j
    fin_cases i <;> fin_cases j <;> rfl

end FF.Props
