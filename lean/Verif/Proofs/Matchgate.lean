import Verif.Proofs.Coefficients
import Verif.Proofs.Random

/-! # Helper lemmas: two-site free-fermion operators and matchgates -/

namespace FF

open Matrix

theorem digit2_zero : ∀ x : Fin 4, Spec.digit 2 2 x 0 = (![0, 0, 1, 1] : Fin 4 → Fin 2) x := by decide

theorem digit2_one : ∀ x : Fin 4, Spec.digit 2 2 x 1 = (![0, 1, 0, 1] : Fin 4 → Fin 2) x := by decide

theorem jw2_zero : (jwLower 2 0 : Op 4) = !![0, 0, 1, 0; 0, 0, 0, 1; 0, 0, 0, 0; 0, 0, 0, 0] := by
  ext x y
  have h : (jwLower 2 0 : Op 4) x y = sMinus ((![0, 0, 1, 1] : Fin 4 → Fin 2) x) ((![0, 0, 1, 1] : Fin 4 → Fin 2) y) *
      (1 : Op 2) ((![0, 1, 0, 1] : Fin 4 → Fin 2) x) ((![0, 1, 0, 1] : Fin 4 → Fin 2) y) := by
    rw [← digit2_zero, ← digit2_zero, ← digit2_one, ← digit2_one]
    rw [jwLower_eq, jwString]
    refine (kronAll_apply _ (n := 2) x y).trans ?_
    rw [Fin.prod_univ_two]
    simp
  rw [h, sMinus_eq, one_fin_two]
  fin_cases x <;> fin_cases y <;> simp

theorem jw2_one : (jwLower 2 1 : Op 4) = !![0, 1, 0, 0; 0, 0, 0, 0; 0, 0, 0, -1; 0, 0, 0, 0] := by
  ext x y
  have h : (jwLower 2 1 : Op 4) x y = sigmaZ ((![0, 0, 1, 1] : Fin 4 → Fin 2) x) ((![0, 0, 1, 1] : Fin 4 → Fin 2) y) *
      sMinus ((![0, 1, 0, 1] : Fin 4 → Fin 2) x) ((![0, 1, 0, 1] : Fin 4 → Fin 2) y) := by
    rw [← digit2_zero, ← digit2_zero, ← digit2_one, ← digit2_one]
    rw [jwLower_eq, jwString]
    refine (kronAll_apply _ (n := 2) x y).trans ?_
    rw [Fin.prod_univ_two]
    simp
  rw [h, sMinus_eq]
  fin_cases x <;> fin_cases y <;> simp [sigmaZ]

/-- The generators: no entries between the parity sectors, and the same trace in both. -/
def Gen (K : Op 4) : Prop :=
  (K 0 1 = 0 ∧ K 0 2 = 0 ∧ K 1 0 = 0 ∧ K 2 0 = 0 ∧ K 3 1 = 0 ∧ K 3 2 = 0 ∧ K 1 3 = 0 ∧ K 2 3 = 0) ∧
    K 1 1 + K 2 2 = K 0 0 + K 3 3

theorem Gen.zero : Gen 0 := by simp [Gen]

theorem Gen.add {K L : Op 4} (hK : Gen K) (hL : Gen L) : Gen (K + L) := by
  obtain ⟨⟨a1, a2, a3, a4, a5, a6, a7, a8⟩, ha⟩ := hK
  obtain ⟨⟨b1, b2, b3, b4, b5, b6, b7, b8⟩, hb⟩ := hL
  refine ⟨⟨?_, ?_, ?_, ?_, ?_, ?_, ?_, ?_⟩, ?_⟩ <;>
    simp only [Matrix.add_apply, a1, a2, a3, a4, a5, a6, a7, a8, b1, b2, b3, b4, b5, b6, b7, b8, add_zero]
  linear_combination ha + hb

theorem Gen.smul {K : Op 4} (hK : Gen K) (c : ℂ) : Gen (c • K) := by
  obtain ⟨⟨a1, a2, a3, a4, a5, a6, a7, a8⟩, ha⟩ := hK
  refine ⟨⟨?_, ?_, ?_, ?_, ?_, ?_, ?_, ?_⟩, ?_⟩ <;>
    simp only [Matrix.smul_apply, smul_eq_mul, a1, a2, a3, a4, a5, a6, a7, a8, mul_zero]
  linear_combination c * ha

theorem Gen.sum {ι : Type} {s : Finset ι} {f : ι → Op 4} (h : ∀ i ∈ s, Gen (f i)) : Gen (∑ i ∈ s, f i) :=
  Finset.sum_induction f Gen (fun _ _ => Gen.add) Gen.zero h

/-- The linear combinations of the four operators of two sites. -/
def lin (p q r s : ℂ) : Op 4 := !![0, r, p, 0; s, 0, 0, p; q, 0, 0, -r; 0, q, -s, 0]

theorem lin_mul (p q r s p' q' r' s' : ℂ) : Gen (lin p q r s * lin p' q' r' s') := by
  refine ⟨⟨?_, ?_, ?_, ?_, ?_, ?_, ?_, ?_⟩, ?_⟩ <;>
    simp [lin, Matrix.mul_apply, Fin.sum_univ_four]
  ring

theorem al2_lin (i : Fin (2 + 2)) : ∃ p q r s, (al 2 i : Op 4) = lin p q r s := by
  refine Fin.addCases (fun i => ?_) (fun i => ?_) i
  · rw [al_left]
    fin_cases i
    · refine ⟨0, 1, 0, 0, ?_⟩
      change (jwLower 2 0 : Op 4)ᴴ = _
      rw [jw2_zero]
      ext x y; fin_cases x <;> fin_cases y <;> simp [lin]
    · refine ⟨0, 0, 0, 1, ?_⟩
      change (jwLower 2 1 : Op 4)ᴴ = _
      rw [jw2_one]
      ext x y; fin_cases x <;> fin_cases y <;> simp [lin]
  · rw [al_right]
    fin_cases i
    · refine ⟨1, 0, 0, 0, ?_⟩
      change (jwLower 2 0 : Op 4) = _
      rw [jw2_zero]
      ext x y; fin_cases x <;> fin_cases y <;> simp [lin]
    · refine ⟨0, 0, 1, 0, ?_⟩
      change (jwLower 2 1 : Op 4) = _
      rw [jw2_one]
      ext x y; fin_cases x <;> fin_cases y <;> simp [lin]

theorem lin_al (p q r s : ℂ) : lin p q r s = ((q • al 2 (Fin.castAdd 2 0) + s • al 2 (Fin.castAdd 2 1) +
    p • al 2 (Fin.natAdd 2 0) + r • al 2 (Fin.natAdd 2 1) : Op (2 ^ 2)) : Op 4) := by
  rw [al_left, al_left, al_right, al_right]
  change _ = q • (jwLower 2 0 : Op 4)ᴴ + s • (jwLower 2 1 : Op 4)ᴴ + p • (jwLower 2 0 : Op 4) + r • (jwLower 2 1 : Op 4)
  rw [jw2_zero, jw2_one]
  ext x y; fin_cases x <;> fin_cases y <;> simp [lin]

theorem al2_conj (i : Fin (2 + 2)) : ∃ p q r s, ((al 2 i)ᴴ : Op 4) = lin p q r s := by
  obtain ⟨p, q, r, s, h⟩ := al2_lin i
  refine ⟨star q, star p, star s, star r, ?_⟩
  change (al 2 i : Op 4)ᴴ = _
  rw [h]
  ext x y; fin_cases x <;> fin_cases y <;> simp [lin]

theorem quad_gen (R : Op (2 + 2)) : Gen (Spec.quad R (al 2) : Op (2 ^ 2)) := by
  refine Gen.sum fun i _ => Gen.sum fun j _ => Gen.smul ?_ _
  obtain ⟨p, q, r, s, h⟩ := al2_conj i
  obtain ⟨p', q', r', s', h'⟩ := al2_lin j
  change Gen (((al 2 i)ᴴ : Op 4) * (al 2 j : Op 4))
  rw [h, h']
  exact lin_mul ..

theorem quadDirect_gen (R : Op (2 + 2)) : Gen (Spec.quadDirect R (al 2) : Op (2 ^ 2)) := by
  refine Gen.sum fun i _ => Gen.sum fun j _ => Gen.smul ?_ _
  obtain ⟨p, q, r, s, h⟩ := al2_lin i
  obtain ⟨p', q', r', s', h'⟩ := al2_lin j
  change Gen ((al 2 i : Op 4) * (al 2 j : Op 4))
  rw [h, h']
  exact lin_mul ..

/-- The area form of the two sectors. -/
def area : Op 4 := !![0, 0, 0, 1; 0, 0, 1, 0; 0, -1, 0, 0; -1, 0, 0, 0]

/-- The parity. -/
def par4 : Op 4 := !![1, 0, 0, 0; 0, -1, 0, 0; 0, 0, -1, 0; 0, 0, 0, 1]

theorem gen_par {K : Op 4} (h : Gen K) : K * par4 = par4 * K := by
  obtain ⟨⟨a1, a2, a3, a4, a5, a6, a7, a8⟩, -⟩ := h
  ext x y
  fin_cases x <;> fin_cases y <;> simp [par4, Matrix.mul_apply, Fin.sum_univ_four, *]

theorem gen_area {K : Op 4} (h : Gen K) : Kᵀ * area = area * ((K 0 0 + K 3 3) • 1 - K) := by
  obtain ⟨⟨a1, a2, a3, a4, a5, a6, a7, a8⟩, ha⟩ := h
  rw [← ha]
  have h3 : K 3 3 = K 1 1 + K 2 2 - K 0 0 := by linear_combination -ha
  ext x y
  fin_cases x <;> fin_cases y <;>
    simp [area, Matrix.mul_apply, Fin.sum_univ_four, a1, a2, a3, a4, a5, a6, a7, a8, h3]

theorem par_zeros {M : Op 4} (h : M * par4 = par4 * M) :
    M 0 1 = 0 ∧ M 0 2 = 0 ∧ M 1 0 = 0 ∧ M 2 0 = 0 ∧ M 3 1 = 0 ∧ M 3 2 = 0 ∧ M 1 3 = 0 ∧ M 2 3 = 0 := by
  have e : ∀ x y, (M * par4) x y = (par4 * M) x y := fun x y => by rw [h]
  have key : ∀ z : ℂ, -z = z → z = 0 := fun z hz => by linear_combination (-1 / 2 : ℂ) * hz
  have key' : ∀ z : ℂ, z = -z → z = 0 := fun z hz => key z hz.symm
  refine ⟨key _ ?_, key _ ?_, key' _ ?_, key' _ ?_, key _ ?_, key _ ?_, key' _ ?_, key' _ ?_⟩
  · simpa [par4, Matrix.mul_apply, Fin.sum_univ_four] using e 0 1
  · simpa [par4, Matrix.mul_apply, Fin.sum_univ_four] using e 0 2
  · simpa [par4, Matrix.mul_apply, Fin.sum_univ_four] using e 1 0
  · simpa [par4, Matrix.mul_apply, Fin.sum_univ_four] using e 2 0
  · simpa [par4, Matrix.mul_apply, Fin.sum_univ_four] using e 3 1
  · simpa [par4, Matrix.mul_apply, Fin.sum_univ_four] using e 3 2
  · simpa [par4, Matrix.mul_apply, Fin.sum_univ_four] using e 1 3
  · simpa [par4, Matrix.mul_apply, Fin.sum_univ_four] using e 2 3

theorem exp_gen {K : Op 4} (h : Gen K) : Spec.ExactMatchgate (NormedSpace.exp K) := by
  have h1 := exp_intertwine' K K par4 (gen_par h)
  have h2 := exp_intertwine' Kᵀ _ area (gen_area h)
  set t := K 0 0 + K 3 3 with ht
  set M := NormedSpace.exp K with hM
  have hz := par_zeros h1
  have h3 : NormedSpace.exp (t • (1 : Op 4) - K) * M = NormedSpace.exp (t • (1 : Op 4)) := by
    rw [hM, ← Matrix.exp_add_of_commute, sub_add_cancel]
    exact ((Commute.one_left K).smul_left t).sub_left (Commute.refl K)
  have h4 : NormedSpace.exp (t • (1 : Op 4)) = Complex.exp t • (1 : Op 4) := by
    rw [smul_one_eq_diagonal, Matrix.exp_diagonal, smul_one_eq_diagonal]
    congr 1
    funext i
    rw [Pi.coe_exp, Complex.exp_eq_exp_ℂ]
  have h5 : Mᵀ * area * M = Complex.exp t • area := by
    rw [hM, ← Matrix.exp_transpose, h2, Matrix.mul_assoc, ← hM, h3, h4, Matrix.mul_smul, Matrix.mul_one]
  obtain ⟨a1, a2, a3, a4, a5, a6, a7, a8⟩ := hz
  refine ⟨⟨a1, a2, a3, a4, a5, a6, a7, a8⟩, ?_⟩
  have e1 := congrFun (congrFun h5 1) 2
  have e2 := congrFun (congrFun h5 0) 3
  simp [area, Matrix.mul_apply, Fin.sum_univ_four, a1, a2, a3, a4, a5, a6, a7, a8] at e1 e2
  linear_combination e1 - e2

/-! ## matchgates are the parity-preserving operators that map the four operators to linear combinations -/

theorem lin_par (p q r s : ℂ) : lin p q r s * par4 = -(par4 * lin p q r s) := by
  ext x y
  fin_cases x <;> fin_cases y <;> simp [lin, par4, Matrix.mul_apply, Fin.sum_univ_four]

theorem lin_area (p q r s : ℂ) : (lin p q r s)ᵀ * area = -(area * lin p q r s) := by
  ext x y
  fin_cases x <;> fin_cases y <;> simp [lin, area, Matrix.mul_apply, Fin.sum_univ_four]

theorem lin_of {X : Op 4} (h1 : X * par4 = -(par4 * X)) (h2 : Xᵀ * area = -(area * X)) : ∃ p q r s, X = lin p q r s := by
  have e : ∀ x y, (X * par4) x y = -((par4 * X) x y) := fun x y => by rw [h1]; rfl
  have f : ∀ x y, (Xᵀ * area) x y = -((area * X) x y) := fun x y => by rw [h2]; rfl
  have key : ∀ z : ℂ, -z = z → z = 0 := fun z hz => by linear_combination (-1 / 2 : ℂ) * hz
  have key' : ∀ z : ℂ, z = -z → z = 0 := fun z hz => key z hz.symm
  have z00 : X 0 0 = 0 := key' _ (by simpa [par4, Matrix.mul_apply, Fin.sum_univ_four] using e 0 0)
  have z03 : X 0 3 = 0 := key' _ (by simpa [par4, Matrix.mul_apply, Fin.sum_univ_four] using e 0 3)
  have z30 : X 3 0 = 0 := key' _ (by simpa [par4, Matrix.mul_apply, Fin.sum_univ_four] using e 3 0)
  have z33 : X 3 3 = 0 := key' _ (by simpa [par4, Matrix.mul_apply, Fin.sum_univ_four] using e 3 3)
  have z11 : X 1 1 = 0 := key _ (by simpa [par4, Matrix.mul_apply, Fin.sum_univ_four] using e 1 1)
  have z12 : X 1 2 = 0 := key _ (by simpa [par4, Matrix.mul_apply, Fin.sum_univ_four] using e 1 2)
  have z21 : X 2 1 = 0 := key _ (by simpa [par4, Matrix.mul_apply, Fin.sum_univ_four] using e 2 1)
  have z22 : X 2 2 = 0 := key _ (by simpa [par4, Matrix.mul_apply, Fin.sum_univ_four] using e 2 2)
  have f1 : X 2 3 = -X 0 1 := by
    have := f 1 3
    simp [area, Matrix.mul_apply, Fin.sum_univ_four] at this
    linear_combination this
  have f2 : X 1 3 = X 0 2 := by
    have := f 2 3
    simp [area, Matrix.mul_apply, Fin.sum_univ_four] at this
    linear_combination -this
  have f3 : X 3 1 = X 2 0 := by
    have := f 0 1
    simp [area, Matrix.mul_apply, Fin.sum_univ_four] at this
    linear_combination -this
  have f4 : X 3 2 = -X 1 0 := by
    have := f 0 2
    simp [area, Matrix.mul_apply, Fin.sum_univ_four] at this
    linear_combination this
  refine ⟨X 0 2, X 2 0, X 0 1, X 1 0, ?_⟩
  ext x y
  fin_cases x <;> fin_cases y <;> simp [lin, z00, z03, z30, z33, z11, z12, z21, z22, f1, f2, f3, f4]

/-- The determinants of the two sectors, in the places of the form. -/
def dets (M : Op 4) : Op 4 :=
  !![M 0 0 * M 3 3 - M 0 3 * M 3 0, 0, 0, 0; 0, M 1 1 * M 2 2 - M 1 2 * M 2 1, 0, 0;
    0, 0, M 1 1 * M 2 2 - M 1 2 * M 2 1, 0; 0, 0, 0, M 0 0 * M 3 3 - M 0 3 * M 3 0]

theorem par_area {M : Op 4} (h : M * par4 = par4 * M) : Mᵀ * area * M = area * dets M := by
  obtain ⟨a1, a2, a3, a4, a5, a6, a7, a8⟩ := par_zeros h
  ext x y
  fin_cases x <;> fin_cases y <;>
    simp [area, dets, Matrix.mul_apply, Fin.sum_univ_four, a1, a2, a3, a4, a5, a6, a7, a8] <;> ring

theorem area_sq : area * area = -1 := by
  ext x y
  fin_cases x <;> fin_cases y <;> simp [area, Matrix.mul_apply, Fin.sum_univ_four]

theorem zeros_par {M : Op 4} (h : M 0 1 = 0 ∧ M 0 2 = 0 ∧ M 1 0 = 0 ∧ M 2 0 = 0 ∧ M 3 1 = 0 ∧ M 3 2 = 0 ∧ M 1 3 = 0 ∧
    M 2 3 = 0) : M * par4 = par4 * M := by
  obtain ⟨a1, a2, a3, a4, a5, a6, a7, a8⟩ := h
  ext x y
  fin_cases x <;> fin_cases y <;>
    simp [par4, Matrix.mul_apply, Fin.sum_univ_four, a1, a2, a3, a4, a5, a6, a7, a8]

theorem conj_lin {M N : Op 4} (hMN : M * N = 1) (hp : M * par4 = par4 * M)
    (hd : M 1 1 * M 2 2 - M 1 2 * M 2 1 = M 0 0 * M 3 3 - M 0 3 * M 3 0) (p q r s : ℂ) :
    ∃ p' q' r' s', M * lin p q r s * N = lin p' q' r' s' := by
  have hNM : N * M = 1 := mul_eq_one_comm.1 hMN
  have hpN : N * par4 = par4 * N := by
    calc N * par4 = N * (par4 * M) * N := by rw [Matrix.mul_assoc, Matrix.mul_assoc, hMN, Matrix.mul_one]
      _ = N * M * par4 * N := by rw [← hp, ← Matrix.mul_assoc N M]
      _ = _ := by rw [hNM, Matrix.one_mul]
  set d := M 0 0 * M 3 3 - M 0 3 * M 3 0 with hdef
  have hdets : dets M = d • 1 := by
    rw [dets, hd, ← hdef]
    ext i j
    fin_cases i <;> fin_cases j <;> simp
  have h5 : Mᵀ * area * M = d • area := by rw [par_area hp, hdets, Matrix.mul_smul, Matrix.mul_one]
  have h6 : Mᵀ * area = d • (area * N) := by
    calc Mᵀ * area = Mᵀ * area * M * N := by rw [Matrix.mul_assoc _ M, hMN, Matrix.mul_one]
      _ = _ := by rw [h5, Matrix.smul_mul]
  have h7 : d • (Nᵀ * area) = area * M := by
    calc d • (Nᵀ * area) = Nᵀ * (Mᵀ * area * M) := by rw [h5, Matrix.mul_smul]
      _ = (M * N)ᵀ * (area * M) := by rw [transpose_mul, Matrix.mul_assoc, Matrix.mul_assoc]
      _ = _ := by rw [hMN, transpose_one, Matrix.one_mul]
  set X := lin p q r s with hX
  refine lin_of ?_ ?_
  · calc M * X * N * par4 = M * (X * par4) * N := by rw [Matrix.mul_assoc _ N, hpN]; simp only [Matrix.mul_assoc]
      _ = -(M * par4 * X * N) := by rw [hX, lin_par]; simp only [Matrix.mul_neg, Matrix.neg_mul, Matrix.mul_assoc]
      _ = _ := by rw [hp]; simp only [Matrix.mul_assoc]
  · calc (M * X * N)ᵀ * area = Nᵀ * Xᵀ * (Mᵀ * area) := by
          rw [transpose_mul, transpose_mul]; simp only [Matrix.mul_assoc]
      _ = d • (Nᵀ * (Xᵀ * area) * N) := by rw [h6, Matrix.mul_smul]; simp only [Matrix.mul_assoc]
      _ = -(d • (Nᵀ * area) * X * N) := by
        rw [hX, lin_area]; simp only [Matrix.mul_neg, Matrix.neg_mul, Matrix.mul_assoc, Matrix.smul_mul, smul_neg]
      _ = _ := by rw [h7]; simp only [Matrix.mul_assoc]

theorem lin_conj {M N : Op 4} (hMN : M * N = 1) (hp : M * par4 = par4 * M) {p' q' r' s' : ℂ}
    (h : M * lin 1 0 0 0 * N = lin p' q' r' s') :
    M 1 1 * M 2 2 - M 1 2 * M 2 1 = M 0 0 * M 3 3 - M 0 3 * M 3 0 := by
  have hNM : N * M = 1 := mul_eq_one_comm.1 hMN
  set X := lin 1 0 0 0 with hX
  set Y := lin p' q' r' s' with hY
  have h1 : M * X = Y * M := by rw [← h, Matrix.mul_assoc, hNM, Matrix.mul_one]
  have h2 : Xᵀ * (Mᵀ * area * M) = -(Mᵀ * area * M * X) := by
    calc Xᵀ * (Mᵀ * area * M) = (M * X)ᵀ * area * M := by rw [transpose_mul]; simp only [Matrix.mul_assoc]
      _ = Mᵀ * (Yᵀ * area) * M := by rw [h1, transpose_mul]; simp only [Matrix.mul_assoc]
      _ = -(Mᵀ * area * (Y * M)) := by
        rw [hY, lin_area]; simp only [Matrix.mul_neg, Matrix.neg_mul, Matrix.mul_assoc]
      _ = _ := by rw [← h1]; simp only [Matrix.mul_assoc]
  rw [par_area hp] at h2
  have h3 : (Xᵀ * (area * dets M)) 3 2 = -((area * dets M * X) 3 2) := by rw [h2]; rfl
  simp [hX, lin, area, dets, Matrix.mul_apply, Fin.sum_univ_four] at h3
  linear_combination h3

end FF
