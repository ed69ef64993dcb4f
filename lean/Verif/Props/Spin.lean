import Verif.Proofs.Spin
import Verif.Props.Quadratic

/-! # Property C131: the Kitaev chain is a spin chain -/

namespace FF.Props

open Matrix Finset

/-- C131. `jordan_wigner_lowering(n)[i]` is `(X_i + i Y_i) / 2` with `Z` on every site before `i`. -/
theorem C131_lowering (n : ℕ) (i : Fin n) : (jordanWignerLowering n)[(i : ℕ)]? = some
    ((1 / 2 : ℂ) • Spec.pauliString (Spec.jwWord i 1) + (Complex.I / 2) • Spec.pauliString (Spec.jwWord i 2)) := by
  rw [← lower_pauli]
  simp [jordanWignerLowering]

/-- C131. `jordan_wigner_majoranas(n)` is the list of the Pauli strings `Z ... Z X I ... I / √2`, followed by the Pauli strings
`Z ... Z Y I ... I / √2`. -/
theorem C131_majoranas (n : ℕ) (i : Fin n) :
    (jordanWignerMajoranas n)[(i : ℕ)]? = some ((1 / Real.sqrt 2 : ℂ) • Spec.pauliString (Spec.jwWord i 1)) ∧
    (jordanWignerMajoranas n)[n + (i : ℕ)]? = some ((1 / Real.sqrt 2 : ℂ) • Spec.pauliString (Spec.jwWord i 2)) := by
  have hl := lower_pauli i
  have hr : (jwLower n i)ᴴ = (1 / 2 : ℂ) • Spec.pauliString (Spec.jwWord i 1) +
      (-Complex.I / 2) • Spec.pauliString (Spec.jwWord i 2) := by
    rw [jwLower_eq, jwString_conjTranspose, sPlus_pauli, jwString_lin, pauli_jwWord, pauli_jwWord]
  have hnu : nu = (1 / Real.sqrt 2 : ℂ) := by simp [nu]
  have e : ∀ j : Fin (n + n), (jordanWignerMajoranas n)[(j : ℕ)]? = some (∑ k, buildOmega n j k • al n k) := by
    intro j
    rw [jordanWignerMajoranas_eq, List.getElem?_ofFn]
    simp
  constructor
  · have := e (Fin.castAdd n i)
    simp only [Fin.val_castAdd] at this
    rw [this, Fin.sum_univ_add]
    simp only [al_left, al_right, buildOmega, blk_11, blk_12, Matrix.smul_apply, Matrix.one_apply, smul_eq_mul, mul_ite, mul_one, mul_zero,
      ite_smul, zero_smul, sum_ite_eq, mem_univ, if_true]
    rw [hr, hl, hnu]
    congr 1
    module
  · have := e (Fin.natAdd n i)
    simp only [Fin.val_natAdd] at this
    rw [this, Fin.sum_univ_add]
    simp only [al_left, al_right, buildOmega, blk_21, blk_22, Matrix.smul_apply, Matrix.one_apply, smul_eq_mul, mul_ite, mul_one, mul_zero,
      ite_smul, zero_smul, sum_ite_eq, mem_univ, if_true]
    rw [hr, hl, hnu]
    congr 1
    simp only [smul_add, smul_smul]
    have i1 : Complex.I * (1 / (Real.sqrt 2 : ℂ)) * (-Complex.I / 2) = 1 / (Real.sqrt 2 : ℂ) / 2 := by
      linear_combination (-1 / (Real.sqrt 2 : ℂ) / 2) * Complex.I_mul_I
    have i2 : -Complex.I * (1 / (Real.sqrt 2 : ℂ)) * (Complex.I / 2) = 1 / (Real.sqrt 2 : ℂ) / 2 := by
      linear_combination (-1 / (Real.sqrt 2 : ℂ) / 2) * Complex.I_mul_I
    rw [i1, i2]
    module

/-- C131. The operator of `kitaev_chain(n, mu, t, delta)` is the XY chain with open ends in a transverse field:
`mu Σ Z_i - (t + delta) Σ X_i X_{i+1} - (t - delta) Σ Y_i Y_{i+1}`, for parameters that are zero or at least `1e-10` in modulus. -/
theorem C131_kitaev (n : ℕ) (hn : 1 ≤ n) (mu t delta : ℝ)
    (hmu : mu = 0 ∨ 1e-10 ≤ |mu|) (ht : t = 0 ∨ 1e-10 ≤ |t|) (hdelta : delta = 0 ∨ 1e-10 ≤ |delta|) :
    buildOp n (kitaevChain n mu t delta) (jordanWignerAlphas n) false = .ok (
      (∑ i : Fin n, (mu : ℂ) • Spec.pauliString (Spec.oneSite i 3)) +
      ∑ i : Fin n, if (i : ℕ) + 1 < n then
        (-(t + delta) : ℂ) • Spec.pauliString (Spec.onBond i 1) + (-(t - delta) : ℂ) • Spec.pauliString (Spec.onBond i 2)
      else 0) := by
  rw [C36_operator n hn mu t delta hmu ht hdelta _ (jordanWignerLowering_eq n), ← kitaev_spin, kitaev_quad]

/-- C131. For `mu = 0` and `delta = t` it is the Ising chain: the product states of spins along `±x` are eigenvectors, the
energy being `-2t` times the number of parallel neighbours minus the number of antiparallel ones; there are `2^n` of these
states and they are orthonormal. -/
theorem C131_ising (n : ℕ) (hn : 1 ≤ n) (t : ℝ) (ht : 1e-10 ≤ |t|) (s : Fin n → Fin 2) :
    ∃ H, buildOp n (kitaevChain n 0 t t) (jordanWignerAlphas n) false = .ok H ∧
      H *ᵥ Spec.xState s = ((-2 * t * ∑ i : Fin n, if h : (i : ℕ) + 1 < n then Spec.spin (s i) * Spec.spin (s ⟨i + 1, h⟩) else 0 : ℝ)
        : ℂ) • Spec.xState s ∧
      ∀ s' : Fin n → Fin 2, ∑ x, star (Spec.xState s x) * Spec.xState s' x = if s = s' then 1 else 0 := by
  refine ⟨_, C131_kitaev n hn 0 t t (.inl rfl) (.inr ht) (.inr ht), ?_, xState_inner s⟩
  rw [Complex.ofReal_mul, Complex.ofReal_sum, mul_sum, sum_smul]
  simp only [Complex.ofReal_zero, zero_smul, sum_const_zero, zero_add, sub_self, neg_zero, add_zero]
  rw [sum_mulVec]
  refine sum_congr rfl fun i _ => ?_
  by_cases h : (i : ℕ) + 1 < n
  · rw [if_pos h, dif_pos h, smul_mulVec, bond_xState i h, smul_smul]
    congr 1
    push_cast
    ring
  · rw [if_neg h, dif_neg h]
    simp

/-- C131. For `t > 0` the energies of the Ising chain are at least `-2t(n-1)`, and exactly the two states with all spins parallel
have this energy. -/
theorem C131_ising_ground (n : ℕ) (hn : 1 ≤ n) (t : ℝ) (ht : 0 < t) (s : Fin n → Fin 2) :
    let E := -2 * t * ∑ i : Fin n, (if h : (i : ℕ) + 1 < n then Spec.spin (s i) * Spec.spin (s ⟨i + 1, h⟩) else 0)
    (-2 * t * ((n - 1 : ℕ) : ℝ) ≤ E) ∧ (E = -2 * t * ((n - 1 : ℕ) : ℝ) ↔ ∀ i j, s i = s j) := by
  intro E
  set b : Fin n → ℝ := fun i => if h : (i : ℕ) + 1 < n then Spec.spin (s i) * Spec.spin (s ⟨i + 1, h⟩) else 0 with hb
  set c : Fin n → ℝ := fun i => if (i : ℕ) + 1 < n then 1 else 0 with hc
  have hcs : ∑ i, c i = ((n - 1 : ℕ) : ℝ) := by
    obtain ⟨m, rfl⟩ : ∃ m, n = m + 1 := ⟨n - 1, by omega⟩
    rw [Fin.sum_univ_castSucc]
    simp [hc]
  have hsp : ∀ x y : Fin 2, Spec.spin x * Spec.spin y ≤ 1 ∧ (Spec.spin x * Spec.spin y = 1 ↔ x = y) := by
    intro x y
    fin_cases x <;> fin_cases y <;> simp [Spec.spin] <;> norm_num
  have hbc : ∀ i, b i ≤ c i := by
    intro i
    by_cases h : (i : ℕ) + 1 < n
    · simp only [hb, hc, dif_pos h, if_pos h]; exact (hsp _ _).1
    · simp only [hb, hc, dif_neg h, if_neg h]; exact le_rfl
  have hE : E = -2 * t * ∑ i, b i := rfl
  refine ⟨?_, ?_⟩
  · rw [hE, ← hcs]
    have := sum_le_sum fun i (_ : i ∈ univ) => hbc i
    nlinarith
  · rw [hE, ← hcs, mul_right_inj' (by linarith), sum_eq_sum_iff_of_le fun i _ => hbc i]
    constructor
    · intro h
      have key : ∀ k (hk : k < n), s ⟨k, hk⟩ = s ⟨0, by omega⟩ := by
        intro k
        induction k with
        | zero => intro _; rfl
        | succ k ih =>
          intro hk
          rw [← ih (by omega)]
          have := h ⟨k, by omega⟩ (mem_univ _)
          simp only [hb, hc, dif_pos hk, if_pos hk] at this
          exact ((hsp _ _).2.1 this).symm
      intro i j
      rw [key i i.2, key j j.2]
    · intro h i _
      by_cases hi : (i : ℕ) + 1 < n
      · simp only [hb, hc, dif_pos hi, if_pos hi]
        exact (hsp _ _).2.2 (h _ _)
      · simp only [hb, hc, dif_neg hi, if_neg hi]

example : (1 : ℕ) ≤ 3 ∧ (1e-10 : ℝ) ≤ |(1 : ℝ)| ∧ (0 : ℝ) < 1 ∧
    ¬ ∀ i j : Fin 3, (![0, 1, 0] : Fin 3 → Fin 2) i = (![0, 1, 0] : Fin 3 → Fin 2) j := by
  refine ⟨by norm_num, by norm_num, by norm_num, fun h => ?_⟩
  have := h 0 1
  simp at this

end FF.Props
