import Verif.Proofs.Gauss

/-! # Proofs: product distributions and rotations of Gaussian states -/

namespace FF

open Matrix
open scoped ComplexOrder

variable {n : ℕ}

theorem gauss_rot {R : Op (n + n)} (hR : R.IsHermitian) {ρ : Op (2 ^ n)} {A B : Op (n + n)} (hu : IsUnit (A + B))
    (hk : ∀ k, ∑ l, A k l • (ρ * al n l) = ∑ l, B k l • (al n l * ρ)) (hp : Spec.parity n * ρ = ρ * Spec.parity n)
    {W : Op (2 ^ n)} (hW : W = expm ((-Complex.I) • Spec.quad R (al n))) : IsGauss (al n) (W * ρ * Wᴴ) := by
  have hU : W * Wᴴ = 1 := hW ▸ expm_unitary (skewHerm_I (quad_herm hR (al n)))
  have hU' : Wᴴ * W = 1 := mul_eq_one_comm.1 hU
  set E := expm ((-Complex.I) • adM R) with hE
  set E' := expm (-((-Complex.I) • adM R)) with hE'
  have hEE : E' * E = 1 := by
    rw [hE, hE', expm, expm, ← Matrix.exp_add_of_commute _ _ (Commute.neg_left (Commute.refl ((-Complex.I) • adM R))), neg_add_cancel,
      NormedSpace.exp_zero]
  have hEE' : E * E' = 1 := mul_eq_one_comm.1 hEE
  have hal : ∀ k, al n k * W = W * ∑ l, E k l • al n l := fun k => by rw [hW]; exact heis_quad R _ k
  have hal' : ∀ k, Wᴴ * al n k = (∑ l, E k l • al n l) * Wᴴ := fun k => by
    calc Wᴴ * al n k = Wᴴ * (al n k * W) * Wᴴ := by rw [Matrix.mul_assoc, Matrix.mul_assoc, hU, mul_one]
      _ = _ := by rw [hal, ← Matrix.mul_assoc, hU', one_mul]
  have comb1 : ∀ (X : Op (n + n)) k, ∑ l, (X * E') k l • (W * ρ * Wᴴ * al n l) = W * (∑ l, X k l • (ρ * al n l)) * Wᴴ := by
    intro X k
    have : ∀ l, W * ρ * Wᴴ * al n l = ∑ m, E l m • (W * (ρ * al n m) * Wᴴ) := fun l => by
      rw [Matrix.mul_assoc, hal', Matrix.sum_mul, Matrix.mul_sum]
      refine Finset.sum_congr rfl fun m _ => ?_
      rw [Matrix.smul_mul, Matrix.mul_smul]
      simp only [Matrix.mul_assoc]
    simp only [this, Finset.smul_sum, smul_smul]
    rw [Finset.sum_comm, Matrix.mul_sum, Matrix.sum_mul]
    refine Finset.sum_congr rfl fun m _ => ?_
    rw [← Finset.sum_smul, ← mul_apply, Matrix.mul_assoc, hEE, mul_one, Matrix.mul_smul, Matrix.smul_mul]
  have comb2 : ∀ (X : Op (n + n)) k, ∑ l, (X * E') k l • (al n l * (W * ρ * Wᴴ)) = W * (∑ l, X k l • (al n l * ρ)) * Wᴴ := by
    intro X k
    have : ∀ l, al n l * (W * ρ * Wᴴ) = ∑ m, E l m • (W * (al n m * ρ) * Wᴴ) := fun l => by
      rw [← Matrix.mul_assoc, ← Matrix.mul_assoc, hal, Matrix.mul_sum, Matrix.sum_mul, Matrix.sum_mul]
      refine Finset.sum_congr rfl fun m _ => ?_
      rw [Matrix.mul_smul, Matrix.smul_mul, Matrix.smul_mul]
      simp only [Matrix.mul_assoc]
    simp only [this, Finset.smul_sum, smul_smul]
    rw [Finset.sum_comm, Matrix.mul_sum, Matrix.sum_mul]
    refine Finset.sum_congr rfl fun m _ => ?_
    rw [← Finset.sum_smul, ← mul_apply, Matrix.mul_assoc, hEE, mul_one, Matrix.mul_smul, Matrix.smul_mul]
  refine ⟨A * E', B * E', ?_, fun k => ?_, .inr ⟨Spec.parity n, parity_sq n, parity_al, ?_⟩⟩
  · rw [← Matrix.add_mul]
    exact hu.mul (IsUnit.of_mul_eq_one _ hEE)
  · rw [comb1, comb2, hk]
  · have h1 : Spec.parity n * W = W * Spec.parity n := hW ▸ quad_parity R _
    have hph : (Spec.parity n)ᴴ = Spec.parity n := by
      rw [Spec.parity, diagonal_conjTranspose]
      congr 1
      funext x
      simp
    have h2 : Spec.parity n * Wᴴ = Wᴴ * Spec.parity n := by
      have := congrArg conjTranspose h1
      rw [conjTranspose_mul, conjTranspose_mul, hph] at this
      exact this.symm
    calc _ = (Spec.parity n * W) * ρ * Wᴴ := by simp only [Matrix.mul_assoc]
      _ = W * (Spec.parity n * ρ) * Wᴴ := by rw [h1]; simp only [Matrix.mul_assoc]
      _ = W * ρ * (Spec.parity n * Wᴴ) := by rw [hp]; simp only [Matrix.mul_assoc]
      _ = _ := by rw [h2]; simp only [Matrix.mul_assoc]

/-- The probability of an occupation pattern when site `i` is filled with probability `q_i` independently. -/
theorem product_kms {q : Fin n → ℝ} {p : Fin (2 ^ n) → ℝ}
    (h : ∀ x, p x = ∏ i, if Spec.digit 2 n x i = 1 then q i else 1 - q i) (i : Fin n) :
    (q i : ℂ) • (diagonal (fun x => (p x : ℂ)) * jwLower n i) =
      ((1 - q i : ℝ) : ℂ) • (jwLower n i * diagonal (fun x => (p x : ℂ))) := by
  classical
  ext x y
  rw [Matrix.smul_apply, Matrix.smul_apply, diagonal_mul, mul_diagonal, smul_eq_mul, smul_eq_mul]
  have hcol : jwLower n i x y = (jwLower n i *ᵥ Spec.fock (Spec.digit 2 n y)) x := by
    rw [fock_eq, ← (eq_bIdx y _).2 rfl, mulVec_single_one]; rfl
  rw [hcol, jwLower_fock]
  set b := Spec.digit 2 n y with hb
  split_ifs with h1
  · rw [Pi.smul_apply, fock_eq, Pi.single_apply]
    split_ifs with h2
    · have hx : Spec.digit 2 n x = Function.update b i 0 := (eq_bIdx x _).1 h2
      have e : q i * p x = (1 - q i) * p y := by
        rw [h x, h y, hx, ← hb, ← Finset.mul_prod_erase _ _ (Finset.mem_univ i), ← Finset.mul_prod_erase _ _ (Finset.mem_univ i),
          Function.update_self, if_neg (by decide), if_pos h1]
        have : ∏ j ∈ Finset.univ.erase i, (if Function.update b i 0 j = 1 then q j else 1 - q j) =
            ∏ j ∈ Finset.univ.erase i, (if b j = 1 then q j else 1 - q j) :=
          Finset.prod_congr rfl fun j hj => by rw [Function.update_of_ne (Finset.ne_of_mem_erase hj)]
        rw [this]; ring
      have e' : (q i : ℂ) * p x = ((1 - q i : ℝ) : ℂ) * p y := by exact_mod_cast e
      linear_combination (((-1 : ℂ) ^ (∑ k : Fin n, if k < i then (b k : ℕ) else 0)) • (1 : ℂ)) * e'
    · simp
  · simp

theorem product_gauss {q : Fin n → ℝ} {p : Fin (2 ^ n) → ℝ}
    (h : ∀ x, p x = ∏ i, if Spec.digit 2 n x i = 1 then q i else 1 - q i) {R : Op (n + n)} (hR : R.IsHermitian)
    {W : Op (2 ^ n)} (hW : W = expm ((-Complex.I) • Spec.quad R (al n))) :
    IsGauss (al n) (W * diagonal (fun x => (p x : ℂ)) * Wᴴ) := by
  set D := diagonal (fun x => (p x : ℂ)) with hD
  have hDH : Dᴴ = D := by
    rw [hD, diagonal_conjTranspose]; congr 1; funext x; simp
  have h2 : ∀ i : Fin n, ((1 - q i : ℝ) : ℂ) • (D * (jwLower n i)ᴴ) = (q i : ℂ) • ((jwLower n i)ᴴ * D) := fun i => by
    have := congrArg conjTranspose (product_kms h i)
    rw [← hD, conjTranspose_smul, conjTranspose_smul, conjTranspose_mul, conjTranspose_mul, hDH, Complex.star_def,
      Complex.conj_ofReal, Complex.conj_ofReal] at this
    exact this.symm
  let a : Fin (n + n) → ℂ := Fin.addCases (fun i => ((1 - q i : ℝ) : ℂ)) (fun i => (q i : ℂ))
  let b : Fin (n + n) → ℂ := Fin.addCases (fun i => (q i : ℂ)) (fun i => ((1 - q i : ℝ) : ℂ))
  refine gauss_rot hR (A := diagonal a) (B := diagonal b) ?_ (fun k => ?_) ?_ hW
  · have : diagonal a + diagonal b = 1 := by
      rw [diagonal_add, ← diagonal_one]
      congr 1
      funext k
      refine Fin.addCases (fun i => ?_) (fun i => ?_) k <;> simp only [a, b, Fin.addCases_left, Fin.addCases_right] <;> simp
    rw [this]; exact isUnit_one
  · simp only [diagonal_apply, ite_smul, zero_smul, Finset.sum_ite_eq, Finset.mem_univ, if_true]
    refine Fin.addCases (fun i => ?_) (fun i => ?_) k
    · simp only [a, b, Fin.addCases_left, al_left]; exact h2 i
    · simp only [a, b, Fin.addCases_right, al_right]; exact product_kms h i
  · rw [Spec.parity, hD, diagonal_mul_diagonal, diagonal_mul_diagonal]
    congr 1; funext x; exact mul_comm _ _

end FF
