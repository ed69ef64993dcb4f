import Verif.Spec.Spin
import Verif.Proofs.Coefficients3
import Verif.Proofs.RotPdf
import Verif.Proofs.MatchgateId

/-! # Proofs: the Jordan-Wigner operators as Pauli strings -/

namespace FF

open Matrix Finset

variable {n : ℕ}

/-- The matrix `M` at site `i`. -/
def siteOp (n : ℕ) (i : ℕ) (M : Op 2) : Op (2 ^ n) := kronAll n fun j => if (j : ℕ) = i then M else 1

theorem siteOp_lin (i : Fin n) (M N : Op 2) (a b : ℂ) :
    siteOp n i (a • M + b • N) = a • siteOp n i M + b • siteOp n i N :=
  kronAll_lin i _ _ _ a b (fun j hj => by simp [Fin.val_ne_of_ne hj]) (fun j hj => by simp [Fin.val_ne_of_ne hj])
    (by simp)

theorem siteOp_smul (i : Fin n) (M : Op 2) (a : ℂ) : siteOp n i (a • M) = a • siteOp n i M := by
  have := siteOp_lin i M M a 0
  simpa using this

theorem siteOp_one (i : ℕ) : siteOp n i 1 = 1 := by
  rw [siteOp, ← kronAll_one]
  congr 1; funext j; split_ifs <;> rfl

theorem siteOp_conjTranspose (i : ℕ) (M : Op 2) : (siteOp n i M)ᴴ = siteOp n i Mᴴ := by
  rw [siteOp, kronAll_conjTranspose, siteOp]
  congr 1; funext j; split_ifs <;> simp

theorem siteOp_comm {i j : ℕ} (h : i ≠ j) (M N : Op 2) : siteOp n i M * siteOp n j N = siteOp n j N * siteOp n i M := by
  simp only [siteOp, kronAll_mul]
  congr 1; funext k
  by_cases h1 : (k : ℕ) = i
  · have h2 : (k : ℕ) ≠ j := by omega
    simp [h1, h]
  · simp [h1]

theorem jw_next (i : ℕ) (M N : Op 2) :
    jwString n i M * jwString n (i + 1) N = siteOp n i (M * sigmaZ) * siteOp n (i + 1) N := by
  simp only [jwString, siteOp, kronAll_mul]
  congr 1; funext k
  rcases lt_trichotomy (k : ℕ) i with h | h | h
  · simp [h, show (k : ℕ) < i + 1 by omega, h.ne, show (k : ℕ) ≠ i + 1 by omega, sigmaZ_sq]
  · simp [h]
  · simp [show ¬ (k : ℕ) < i by omega, show ¬ (k : ℕ) < i + 1 by omega, h.ne']

theorem jw_next' (i : ℕ) (M N : Op 2) :
    jwString n (i + 1) N * jwString n i M = siteOp n i (sigmaZ * M) * siteOp n (i + 1) N := by
  simp only [jwString, siteOp, kronAll_mul]
  congr 1; funext k
  rcases lt_trichotomy (k : ℕ) i with h | h | h
  · simp [h, show (k : ℕ) < i + 1 by omega, h.ne, show (k : ℕ) ≠ i + 1 by omega, sigmaZ_sq]
  · simp [h]
  · simp [show ¬ (k : ℕ) < i by omega, show ¬ (k : ℕ) < i + 1 by omega, h.ne']

theorem pauliString_kron (w : Fin n → Fin 4) : Spec.pauliString w = kronAll n fun i => Spec.pauli (w i) := by
  ext x y
  rw [kronAll_apply]; rfl

theorem pauli_Z : Spec.pauli 3 = sigmaZ := rfl

theorem pauli_oneSite (i : Fin n) (c : Fin 4) : Spec.pauliString (Spec.oneSite i c) = siteOp n i (Spec.pauli c) := by
  rw [pauliString_kron, siteOp]
  congr 1; funext j
  by_cases h : j = i
  · simp [Spec.oneSite, h]
  · simp [Spec.oneSite, h, Fin.val_ne_of_ne h, pauli_zero]

theorem pauli_onBond (i : Fin n) (c : Fin 4) :
    Spec.pauliString (Spec.onBond i c) = siteOp n i (Spec.pauli c) * siteOp n (i + 1) (Spec.pauli c) := by
  rw [pauliString_kron, siteOp, siteOp, kronAll_mul]
  congr 1; funext j
  by_cases h : (j : ℕ) = i
  · simp [Spec.onBond, h]
  · by_cases h' : (j : ℕ) = i + 1
    · simp [Spec.onBond, h']
    · simp [Spec.onBond, h, h', pauli_zero]

theorem pauli_jwWord (i : Fin n) (c : Fin 4) : Spec.pauliString (Spec.jwWord i c) = jwString n i (Spec.pauli c) := by
  rw [pauliString_kron, jwString]
  congr 1; funext j
  simp only [Spec.jwWord, Fin.lt_def, Fin.ext_iff]
  split_ifs <;> simp [pauli_zero, pauli_Z]

theorem jwString_lin (i : Fin n) (M N : Op 2) (a b : ℂ) :
    jwString n i (a • M + b • N) = a • jwString n i M + b • jwString n i N :=
  kronAll_lin i _ _ _ a b (fun j hj => by simp [Fin.val_ne_of_ne hj]) (fun j hj => by simp [Fin.val_ne_of_ne hj])
    (by simp)

theorem sMinus_pauli : sMinus = (1 / 2 : ℂ) • Spec.pauli 1 + (Complex.I / 2) • Spec.pauli 2 := by
  rw [sMinus_eq]; ext i j
  fin_cases i <;> fin_cases j <;> simp [Spec.pauli] <;> ring_nf <;> simp <;> norm_num

theorem sPlus_pauli : sMinusᴴ = (1 / 2 : ℂ) • Spec.pauli 1 + (-Complex.I / 2) • Spec.pauli 2 := by
  rw [sMinus_conjTranspose]; ext i j
  fin_cases i <;> fin_cases j <;> simp [Spec.pauli] <;> ring_nf <;> simp <;> norm_num

theorem lower_pauli (i : Fin n) : jwLower n i =
    (1 / 2 : ℂ) • Spec.pauliString (Spec.jwWord i 1) + (Complex.I / 2) • Spec.pauliString (Spec.jwWord i 2) := by
  rw [jwLower_eq, sMinus_pauli, jwString_lin, pauli_jwWord, pauli_jwWord]

theorem number_pauli (i : Fin n) : (2 : ℂ) • ((jwLower n i)ᴴ * jwLower n i) - 1 = - Spec.pauliString (Spec.oneSite i 3) := by
  rw [jwLower_eq, jwString_conjTranspose, jwString_mul_same, pauli_oneSite]
  change (2 : ℂ) • siteOp n i _ - 1 = _
  have e : sMinusᴴ * sMinus = (1 / 2 : ℂ) • 1 + (-1 / 2 : ℂ) • Spec.pauli 3 := by
    rw [sMinus_conjTranspose, sMinus_eq]; ext i j
    fin_cases i <;> fin_cases j <;> simp [Spec.pauli] <;> norm_num
  rw [e, siteOp_lin, siteOp_one, smul_add, smul_smul, smul_smul]
  norm_num

theorem hop_pauli (i : Fin n) (h : (i : ℕ) + 1 < n) :
    (jwLower n i)ᴴ * jwLower n (⟨i + 1, h⟩ : Fin n) + (jwLower n (⟨i + 1, h⟩ : Fin n))ᴴ * jwLower n i =
      (1 / 2 : ℂ) • (Spec.pauliString (Spec.onBond i 1) + Spec.pauliString (Spec.onBond i 2)) := by
  have e1 : sMinusᴴ * sigmaZ = sMinusᴴ := by
    rw [sMinus_conjTranspose]; ext i j; fin_cases i <;> fin_cases j <;> simp [sigmaZ]
  have e2 : sigmaZ * sMinus = sMinus := by
    rw [sMinus_eq]; ext i j; fin_cases i <;> fin_cases j <;> simp [sigmaZ]
  have k := fun M N a b => siteOp_lin (⟨i + 1, h⟩ : Fin n) M N a b
  simp only at k
  simp only [jwLower_eq, jwString_conjTranspose]
  rw [jw_next, jw_next', e1, e2, sPlus_pauli, sMinus_pauli, siteOp_lin, siteOp_lin, k, k, pauli_onBond, pauli_onBond]
  simp only [Matrix.mul_add, Matrix.add_mul, Matrix.smul_mul, Matrix.mul_smul, smul_smul, smul_add]
  have i1 : Complex.I / 2 * (-Complex.I / 2) = 1 / 4 := by linear_combination (-1 / 4) * Complex.I_mul_I
  have i2 : -Complex.I / 2 * (Complex.I / 2) = 1 / 4 := by linear_combination (-1 / 4) * Complex.I_mul_I
  rw [i1, i2]
  module

theorem pair_pauli (i : Fin n) (h : (i : ℕ) + 1 < n) :
    jwLower n i * jwLower n (⟨i + 1, h⟩ : Fin n) + (jwLower n i * jwLower n (⟨i + 1, h⟩ : Fin n))ᴴ =
      (-1 / 2 : ℂ) • (Spec.pauliString (Spec.onBond i 1) - Spec.pauliString (Spec.onBond i 2)) := by
  have e1 : sMinus * sigmaZ = (-1 : ℂ) • sMinus := by
    rw [sMinus_eq]; ext i j; fin_cases i <;> fin_cases j <;> simp [sigmaZ]
  have k := fun M N a b => siteOp_lin (⟨i + 1, h⟩ : Fin n) M N a b
  simp only at k
  rw [conjTranspose_mul]
  simp only [jwLower_eq, jwString_conjTranspose]
  have e2 : sigmaZ * sMinusᴴ = (-1 : ℂ) • sMinusᴴ := by
    rw [sMinus_conjTranspose]; ext i j; fin_cases i <;> fin_cases j <;> simp [sigmaZ]
  rw [jw_next, jw_next', e1, e2, siteOp_smul, siteOp_smul, sPlus_pauli, sMinus_pauli, siteOp_lin, siteOp_lin, k, k,
    pauli_onBond, pauli_onBond]
  simp only [Matrix.mul_add, Matrix.add_mul, Matrix.smul_mul, Matrix.mul_smul, smul_smul, smul_add, smul_sub]
  have i1 : Complex.I / 2 * (-1 * (Complex.I / 2)) = 1 / 4 := by linear_combination (-1 / 4) * Complex.I_mul_I
  have i2 : -Complex.I / 2 * (-1 * (-Complex.I / 2)) = 1 / 4 := by linear_combination (-1 / 4) * Complex.I_mul_I
  rw [i1, i2]
  module

/-- The Kitaev chain in terms of spins. -/
theorem kitaev_spin (n : ℕ) (mu t delta : ℝ) :
    Spec.quad (kitaevChain n mu t delta) (al n) =
      (∑ i : Fin n, (mu : ℂ) • Spec.pauliString (Spec.oneSite i 3)) +
      ∑ i : Fin n, if (i : ℕ) + 1 < n then
        (-(t + delta) : ℂ) • Spec.pauliString (Spec.onBond i 1) + (-(t - delta) : ℂ) • Spec.pauliString (Spec.onBond i 2)
      else 0 := by
  rw [kitaev_quad]
  congr 1
  · refine sum_congr rfl fun i _ => ?_
    rw [number_pauli]; simp
  · refine sum_congr rfl fun i _ => ?_
    by_cases h : (i : ℕ) + 1 < n
    · rw [dif_pos h, if_pos h, hop_pauli, pair_pauli]
      module
    · rw [dif_neg h, if_neg h]

/-! ## Product states -/

/-- The product of the vectors `u i`. -/
def prodVec (u : Fin n → Fin 2 → ℂ) : Fin (2 ^ n) → ℂ := fun x => ∏ i, u i (Spec.digit 2 n x i)

theorem sum_prodVec (u : Fin n → Fin 2 → ℂ) : ∑ x : Fin (2 ^ n), ∏ i, u i (Spec.digit 2 n x i) = ∏ i, ∑ b, u i b := by
  rw [Finset.prod_univ_sum, ← sum_occ fun x => ∏ i, u i (Spec.digit 2 n x i), Fintype.piFinset_univ]
  refine sum_congr rfl fun b _ => ?_
  rw [(eq_bIdx (bIdx b) b).1 rfl]

theorem kronAll_prodVec (f : Fin n → Op 2) (u : Fin n → Fin 2 → ℂ) :
    kronAll n f *ᵥ prodVec u = prodVec fun i => f i *ᵥ u i := by
  funext x
  simp only [mulVec, dotProduct, prodVec, kronAll_apply, ← prod_mul_distrib]
  exact sum_prodVec fun i b => f i (Spec.digit 2 n x i) b * u i b

theorem prodVec_smul (c : Fin n → ℂ) (u : Fin n → Fin 2 → ℂ) :
    (prodVec fun i => c i • u i) = (∏ i, c i) • prodVec u := by
  funext x
  simp [prodVec, prod_mul_distrib]

/-- The vectors `|+⟩` and `|-⟩`. -/
noncomputable def plusMinus (s b : Fin 2) : ℂ := (-1) ^ ((s : ℕ) * (b : ℕ)) / (Real.sqrt 2 : ℂ)

theorem xState_eq (s : Fin n → Fin 2) : Spec.xState s = prodVec fun i => plusMinus (s i) := rfl

theorem pauliX_plusMinus (s : Fin 2) : Spec.pauli 1 *ᵥ plusMinus s = (Spec.spin s : ℂ) • plusMinus s := by
  funext b
  fin_cases s <;> fin_cases b <;> simp [Spec.pauli, plusMinus, Spec.spin, mulVec, dotProduct, Fin.sum_univ_two] <;> ring

theorem bond_xState (i : Fin n) (h : (i : ℕ) + 1 < n) (s : Fin n → Fin 2) :
    Spec.pauliString (Spec.onBond i 1) *ᵥ Spec.xState s =
      ((Spec.spin (s i) * Spec.spin (s ⟨i + 1, h⟩) : ℝ) : ℂ) • Spec.xState s := by
  have e : ∀ j, Spec.pauli (Spec.onBond i 1 j) *ᵥ plusMinus (s j) =
      ((if j = i then Spec.spin (s j) else 1 : ℝ) * (if j = ⟨i + 1, h⟩ then Spec.spin (s j) else 1 : ℝ) : ℂ) •
        plusMinus (s j) := by
    intro j
    by_cases h1 : j = i
    · subst h1
      have h2 : j ≠ ⟨j + 1, h⟩ := by intro h'; have := congrArg Fin.val h'; simp at this
      rw [if_pos rfl, if_neg h2, Spec.onBond, if_pos (.inl rfl), pauliX_plusMinus]; simp
    · by_cases h2 : j = ⟨i + 1, h⟩
      · rw [if_neg h1, if_pos h2, Spec.onBond, if_pos (.inr (by rw [h2])), pauliX_plusMinus]; simp
      · rw [if_neg h1, if_neg h2, Spec.onBond, if_neg, pauli_zero]
        · simp
        · rintro (h' | h')
          · exact h1 (Fin.ext h')
          · exact h2 (Fin.ext h')
  rw [pauliString_kron, xState_eq, kronAll_prodVec]
  simp_rw [e]
  rw [prodVec_smul]
  congr 1
  rw [prod_mul_distrib]
  simp only [← Complex.ofReal_prod]
  rw [prod_ite_eq', prod_ite_eq']
  simp

theorem xState_inner (s s' : Fin n → Fin 2) :
    ∑ x, star (Spec.xState s x) * Spec.xState s' x = if s = s' then 1 else 0 := by
  have e : ∀ x : Fin (2 ^ n), star (Spec.xState s x) * Spec.xState s' x =
      ∏ i, (fun i b => star (plusMinus (s i) b) * plusMinus (s' i) b) i (Spec.digit 2 n x i) := by
    intro x
    rw [xState_eq, xState_eq, prodVec, prodVec, star_prod, ← prod_mul_distrib]
  simp_rw [e]
  rw [sum_prodVec fun i b => star (plusMinus (s i) b) * plusMinus (s' i) b]
  have hs : (Real.sqrt 2 : ℂ) * (Real.sqrt 2 : ℂ) = 2 := by
    rw [← Complex.ofReal_mul, Real.mul_self_sqrt (by norm_num)]; simp
  have key : ∀ a b : Fin 2, ∑ c, star (plusMinus a c) * plusMinus b c = if a = b then 1 else 0 := by
    intro a b
    have h0 : (Real.sqrt 2 : ℂ) ≠ 0 := by simp
    fin_cases a <;> fin_cases b <;>
      simp [plusMinus, Fin.sum_univ_two] <;> field_simp <;> simp [pow_two, hs] <;> norm_num
  simp_rw [key]
  by_cases h : s = s'
  · subst h; simp
  · rw [if_neg h]
    obtain ⟨i, hi⟩ := Function.ne_iff.1 h
    exact prod_eq_zero (mem_univ i) (if_neg hi)

end FF
