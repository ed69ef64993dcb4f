import Verif.Proofs.Matchgate
import Verif.Props.Coefficients

/-! # Property C105: matchgates are the two-site free-fermion evolutions -/

namespace FF.Props

open Matrix

/-! ## C105 -/

/-- C105. For every array of coefficients on two sites, in both orders of the operators that `build_op` offers, and every
complex time the exponential of the quadratic operator is a matchgate, and `is_matchgate` accepts it. -/
theorem C105_evolution (V : Op (2 + 2)) (direct : Bool) (z : ℂ) :
    ∃ K : Op 4, buildOp 2 V (jordanWignerAlphas 2) direct = .ok K ∧ Spec.ExactMatchgate (expm (z • K)) ∧
      isMatchgate (expm (z • K)) = true := by
  have key : ∀ K : Op 4, Gen K → Spec.ExactMatchgate (expm (z • K)) ∧ isMatchgate (expm (z • K)) = true := fun K hK => by
    have h := exp_gen (hK.smul z)
    exact ⟨h, (C44_closed _ _ h h 1).1⟩
  rw [jordanWignerAlphas_eq]
  cases direct
  · exact ⟨_, buildOp_square V _ (by norm_num), key _ (quad_gen _)⟩
  · exact ⟨_, buildOp_square_direct V _ (by norm_num), key _ (quadDirect_gen _)⟩

/-- C105. An invertible gate `M` that preserves the parity satisfies the matchgate condition exactly if conjugation with it
maps each of the four Jordan-Wigner operators of two sites to a linear combination of them. -/
theorem C105_gaussian (f : Fin (2 + 2) → Op 4) (hf : jordanWignerAlphas 2 = List.ofFn f) (M N : Op 4) (hMN : M * N = 1)
    (hp : M 0 1 = 0 ∧ M 0 2 = 0 ∧ M 1 0 = 0 ∧ M 2 0 = 0 ∧ M 3 1 = 0 ∧ M 3 2 = 0 ∧ M 1 3 = 0 ∧ M 2 3 = 0) :
    M 1 1 * M 2 2 - M 1 2 * M 2 1 = M 0 0 * M 3 3 - M 0 3 * M 3 0 ↔
      ∀ i, ∃ R : Fin (2 + 2) → ℂ, M * f i * N = ∑ j, R j • f j := by
  rw [jordanWignerAlphas_eq] at hf
  obtain rfl : al 2 = f := List.ofFn_injective hf
  have hc := zeros_par hp
  have hsum : ∀ R : Fin (2 + 2) → ℂ, ∑ j, R j • (al 2 j : Op 4) =
      lin (R (Fin.natAdd 2 0)) (R (Fin.castAdd 2 0)) (R (Fin.natAdd 2 1)) (R (Fin.castAdd 2 1)) := by
    intro R
    rw [lin_al, Fin.sum_univ_add, Fin.sum_univ_two, Fin.sum_univ_two]
    exact (add_assoc _ _ _).symm
  constructor
  · intro hd i
    obtain ⟨p, q, r, s, h⟩ := al2_lin i
    rw [h]
    obtain ⟨p', q', r', s', h'⟩ := conj_lin hMN hc hd p q r s
    refine ⟨Fin.addCases ![q', s'] ![p', r'], ?_⟩
    rw [h', hsum, Fin.addCases_left, Fin.addCases_left, Fin.addCases_right, Fin.addCases_right]
    rfl
  · intro h
    obtain ⟨R, hR⟩ := h (Fin.natAdd 2 0)
    rw [hsum] at hR
    refine lin_conj hMN hc (Eq.trans ?_ hR)
    congr 2
    rw [lin_al]
    simp

/-- A parity-preserving invertible gate that is a matchgate, and one that is not (the swap gate). -/
example : ∃ M N : Op 4, M * N = 1 ∧ Spec.ExactMatchgate M ∧ M ≠ 1 :=
  ⟨!![1, 0, 0, 0; 0, 0, 1, 0; 0, 1, 0, 0; 0, 0, 0, -1], !![1, 0, 0, 0; 0, 0, 1, 0; 0, 1, 0, 0; 0, 0, 0, -1], by
    ext i j; fin_cases i <;> fin_cases j <;> simp [Matrix.mul_apply, Fin.sum_univ_four], by simp [Spec.ExactMatchgate],
    fun h => by
      have := congrFun (congrFun h 1) 1
      simp at this⟩

example : ∃ M N : Op 4, M * N = 1 ∧
    (M 0 1 = 0 ∧ M 0 2 = 0 ∧ M 1 0 = 0 ∧ M 2 0 = 0 ∧ M 3 1 = 0 ∧ M 3 2 = 0 ∧ M 1 3 = 0 ∧ M 2 3 = 0) ∧
    M 1 1 * M 2 2 - M 1 2 * M 2 1 ≠ M 0 0 * M 3 3 - M 0 3 * M 3 0 :=
  ⟨!![1, 0, 0, 0; 0, 0, 1, 0; 0, 1, 0, 0; 0, 0, 0, 1], !![1, 0, 0, 0; 0, 0, 1, 0; 0, 1, 0, 0; 0, 0, 0, 1], by
    ext i j; fin_cases i <;> fin_cases j <;> simp [Matrix.mul_apply, Fin.sum_univ_four], by simp, by
      change (0 * 0 - 1 * 1 : ℂ) ≠ 1 * 1 - 0 * 0
      norm_num⟩

end FF.Props
