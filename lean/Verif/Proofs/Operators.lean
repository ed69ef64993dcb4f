import Verif.Model.Operators
import Verif.Spec.Operators
import Verif.Proofs.Loops
import Mathlib.LinearAlgebra.Matrix.Kronecker
import Mathlib.Tactic.FinCases
import Mathlib.Tactic.LinearCombination
import Mathlib.Tactic.NoncommRing

/-! # Helper lemmas about tensor products and Jordan-Wigner operators -/

namespace FF

open Matrix
open scoped ComplexConjugate Kronecker

/-! ## `npKron` and `kronAll` -/

theorem npKron_eq {m n p q : ℕ} (A : Matrix (Fin m) (Fin n) ℂ) (B : Matrix (Fin p) (Fin q) ℂ) :
    npKron A B = (A ⊗ₖ B).submatrix finProdFinEquiv.symm finProdFinEquiv.symm := rfl

theorem npKron_mul {a b : ℕ} (A C : Op a) (B D : Op b) :
    npKron A B * npKron C D = npKron (A * C) (B * D) := by
  simp only [npKron_eq]
  rw [submatrix_mul_equiv, mul_kronecker_mul]

theorem npKron_one {a b : ℕ} : npKron (1 : Op a) (1 : Op b) = 1 := by
  rw [npKron_eq, one_kronecker_one, submatrix_one_equiv]

theorem npKron_conjTranspose {a b : ℕ} (A : Op a) (B : Op b) :
    (npKron A B)ᴴ = npKron Aᴴ Bᴴ := by
  simp only [npKron_eq]
  rw [conjTranspose_submatrix, conjTranspose_kronecker]

theorem npKron_trace {a b : ℕ} (A : Op a) (B : Op b) :
    (npKron A B).trace = A.trace * B.trace := by
  rw [npKron_eq, ← trace_kronecker, Matrix.trace, Matrix.trace]
  simp only [diag_apply, submatrix_apply]
  exact Equiv.sum_comp finProdFinEquiv.symm (fun x => (A ⊗ₖ B) x x)

theorem kronAll_one (n : ℕ) : kronAll n (fun _ => 1) = 1 := by
  induction n with
  | zero => rfl
  | succ k ih =>
    rw [kronAll, show ((fun _ => 1 : Fin (k + 1) → Op 2) ∘ Fin.castSucc) = fun _ => 1 from rfl, ih]
    exact npKron_one

theorem kronAll_mul {n : ℕ} (f g : Fin n → Op 2) :
    kronAll n f * kronAll n g = kronAll n fun i => f i * g i := by
  induction n with
  | zero => exact Matrix.mul_one _
  | succ k ih =>
    simp only [kronAll]
    have := npKron_mul (kronAll k (f ∘ Fin.castSucc)) (kronAll k (g ∘ Fin.castSucc)) (f (Fin.last k))
      (g (Fin.last k))
    rw [ih] at this
    exact this

theorem kronAll_conjTranspose {n : ℕ} (f : Fin n → Op 2) :
    (kronAll n f)ᴴ = kronAll n fun i => (f i)ᴴ := by
  induction n with
  | zero => exact conjTranspose_one
  | succ k ih =>
    simp only [kronAll]
    have := npKron_conjTranspose (kronAll k (f ∘ Fin.castSucc)) (f (Fin.last k))
    rw [ih] at this
    exact this

theorem kronAll_trace {n : ℕ} (f : Fin n → Op 2) : (kronAll n f).trace = ∏ i, (f i).trace := by
  induction n with
  | zero => simp [kronAll]
  | succ k ih =>
    rw [Fin.prod_univ_castSucc]
    have := npKron_trace (kronAll k (f ∘ Fin.castSucc)) (f (Fin.last k))
    rw [ih] at this
    exact this

theorem digit_castSucc (k : ℕ) (x : Fin (2 ^ (k + 1))) (i : Fin k) :
    Spec.digit 2 (k + 1) x i.castSucc = Spec.digit 2 k (Fin.divNat (m := 2 ^ k) (n := 2) x) i := by
  apply Fin.ext
  have h : k + 1 - 1 - (i : ℕ) = (k - 1 - i) + 1 := by omega
  change (x : ℕ) / 2 ^ (k + 1 - 1 - (i : ℕ)) % 2 = ((x : ℕ) / 2) / 2 ^ (k - 1 - (i : ℕ)) % 2
  generalize (x : ℕ) = x
  rw [Nat.div_div_eq_div_mul, h, pow_succ, mul_comm 2]

theorem digit_last (k : ℕ) (x : Fin (2 ^ (k + 1))) :
    Spec.digit 2 (k + 1) x (Fin.last k) = Fin.modNat (m := 2 ^ k) (n := 2) x := by
  apply Fin.ext
  change (x : ℕ) / 2 ^ (k + 1 - 1 - k) % 2 = (x : ℕ) % 2
  simp

/-- Entries of an iterated Kronecker product. -/
theorem kronAll_apply {n : ℕ} (f : Fin n → Op 2) (x y : Fin (2 ^ n)) :
    kronAll n f x y = ∏ i, f i (Spec.digit 2 n x i) (Spec.digit 2 n y i) := by
  induction n with
  | zero =>
    have : x = y := Subsingleton.elim (α := Fin 1) x y
    subst this
    simp [kronAll]
  | succ k ih =>
    rw [Fin.prod_univ_castSucc]
    simp only [digit_castSucc, digit_last]
    rw [← ih (fun i => f i.castSucc)]
    rfl

/-- `kronAll` is linear in each factor. -/
theorem kronAll_lin {n : ℕ} (i : Fin n) (f g h : Fin n → Op 2) (a b : ℂ)
    (hg : ∀ j, j ≠ i → f j = g j) (hh : ∀ j, j ≠ i → f j = h j)
    (hi : f i = a • g i + b • h i) :
    kronAll n f = a • kronAll n g + b • kronAll n h := by
  ext x y
  simp only [Matrix.add_apply, Matrix.smul_apply, kronAll_apply, smul_eq_mul]
  rw [← Finset.mul_prod_erase Finset.univ _ (Finset.mem_univ i),
    ← Finset.mul_prod_erase Finset.univ (fun j => g j _ _) (Finset.mem_univ i),
    ← Finset.mul_prod_erase Finset.univ (fun j => h j _ _) (Finset.mem_univ i)]
  have e1 : ∏ j ∈ Finset.univ.erase i, f j (Spec.digit 2 n x j) (Spec.digit 2 n y j)
      = ∏ j ∈ Finset.univ.erase i, g j (Spec.digit 2 n x j) (Spec.digit 2 n y j) :=
    Finset.prod_congr rfl fun j hj => by rw [hg j (Finset.ne_of_mem_erase hj)]
  have e2 : ∏ j ∈ Finset.univ.erase i, f j (Spec.digit 2 n x j) (Spec.digit 2 n y j)
      = ∏ j ∈ Finset.univ.erase i, h j (Spec.digit 2 n x j) (Spec.digit 2 n y j) :=
    Finset.prod_congr rfl fun j hj => by rw [hh j (Finset.ne_of_mem_erase hj)]
  rw [hi, ← e1, ← e2]
  simp only [Matrix.add_apply, Matrix.smul_apply, smul_eq_mul]
  ring

theorem kronAll_neg {n : ℕ} (i : Fin n) (f g : Fin n → Op 2)
    (hg : ∀ j, j ≠ i → f j = g j) (hi : f i = - g i) : kronAll n f = - kronAll n g := by
  rw [kronAll_lin i f g g (-1) 0 hg hg (by simp [hi])]; simp

theorem kronAll_zero {n : ℕ} (i : Fin n) (f : Fin n → Op 2) (hi : f i = 0) : kronAll n f = 0 := by
  rw [kronAll_lin i f f f 0 0 (fun _ _ => rfl) (fun _ _ => rfl) (by simp [hi])]; simp

theorem kronAll_add {n : ℕ} (i : Fin n) (f g h : Fin n → Op 2)
    (hg : ∀ j, j ≠ i → f j = g j) (hh : ∀ j, j ≠ i → f j = h j) (hi : f i = g i + h i) :
    kronAll n f = kronAll n g + kronAll n h := by
  rw [kronAll_lin i f g h 1 1 hg hh (by simp [hi])]; simp

/-! ## Jordan-Wigner strings -/

/-- `Z ... Z M 1 ... 1` with `M` at site `i`. -/
def jwString (n i : ℕ) (M : Op 2) : Op (2 ^ n) :=
  kronAll n fun j => if (j : ℕ) < i then sigmaZ else if (j : ℕ) = i then M else 1

theorem jwLower_eq (n i : ℕ) : jwLower n i = jwString n i sMinus := rfl

theorem sMinus_eq : sMinus = !![0, 1; 0, 0] := by
  ext i j
  fin_cases i <;> fin_cases j <;> simp [sMinus, sigmaX, sigmaY] <;> norm_num

theorem sMinus_conjTranspose : sMinusᴴ = !![0, 0; 1, 0] := by
  rw [sMinus_eq]; ext i j
  fin_cases i <;> fin_cases j <;> simp

theorem sigmaZ_conjTranspose : sigmaZᴴ = sigmaZ := by
  ext i j; fin_cases i <;> fin_cases j <;> simp [sigmaZ]

theorem sigmaZ_sq : sigmaZ * sigmaZ = 1 := by
  ext i j; fin_cases i <;> fin_cases j <;> simp [sigmaZ]

theorem jwString_conjTranspose (n i : ℕ) (M : Op 2) : (jwString n i M)ᴴ = jwString n i Mᴴ := by
  rw [jwString, kronAll_conjTranspose, jwString]
  congr 1; funext j
  split_ifs
  · exact sigmaZ_conjTranspose
  · rfl
  · exact conjTranspose_one

theorem jwString_anticomm {n i j : ℕ} (hi : i < n) (hij : i < j) (M N : Op 2)
    (hM : M * sigmaZ = -(sigmaZ * M)) :
    jwString n i M * jwString n j N + jwString n j N * jwString n i M = 0 := by
  simp only [jwString, kronAll_mul]
  rw [add_eq_zero_iff_eq_neg]
  apply kronAll_neg ⟨i, hi⟩
  · intro k hk
    have hk' : (k : ℕ) ≠ i := fun h => hk (Fin.ext h)
    by_cases h1 : (k : ℕ) < i
    · simp [h1, h1.trans hij]
    · simp [h1, hk']
  · simp [hij, hM]

theorem jwString_mul_same {n i : ℕ} (M N : Op 2) :
    jwString n i M * jwString n i N =
      kronAll n fun j => if (j : ℕ) = i then M * N else 1 := by
  simp only [jwString, kronAll_mul]
  congr 1; funext k
  by_cases h1 : (k : ℕ) < i
  · simp [h1, h1.ne, sigmaZ_sq]
  · by_cases h2 : (k : ℕ) = i <;> simp [h1, h2]

theorem sMinus_Z : sMinus * sigmaZ = -(sigmaZ * sMinus) := by
  rw [sMinus_eq]; ext i j; fin_cases i <;> fin_cases j <;> simp [sigmaZ]

theorem sPlus_Z : sMinusᴴ * sigmaZ = -(sigmaZ * sMinusᴴ) := by
  rw [sMinus_conjTranspose]; ext i j; fin_cases i <;> fin_cases j <;> simp [sigmaZ]

theorem sMinus_sq : sMinus * sMinus = 0 := by
  rw [sMinus_eq]; ext i j; fin_cases i <;> fin_cases j <;> simp

theorem sMinus_car : sMinus * sMinusᴴ + sMinusᴴ * sMinus = 1 := by
  rw [sMinus_conjTranspose, sMinus_eq]; ext i j; fin_cases i <;> fin_cases j <;> simp

/-- `{a_i, a_j} = 0`. -/
theorem car_lower {n : ℕ} (i j : Fin n) :
    jwLower n i * jwLower n j + jwLower n j * jwLower n i = 0 := by
  rcases lt_trichotomy (i : ℕ) j with h | h | h
  · exact jwString_anticomm i.2 h _ _ sMinus_Z
  · rw [h, jwLower_eq, jwString_mul_same, kronAll_zero j _ (by simp [sMinus_sq]), add_zero]
  · rw [add_comm]; exact jwString_anticomm j.2 h _ _ sMinus_Z

/-- `{a_i, a_j†} = δ_ij`. -/
theorem car_mixed {n : ℕ} (i j : Fin n) :
    jwLower n i * (jwLower n j)ᴴ + (jwLower n j)ᴴ * jwLower n i = if i = j then 1 else 0 := by
  simp only [jwLower_eq, jwString_conjTranspose]
  rcases lt_trichotomy (i : ℕ) j with h | h | h
  · rw [if_neg (fun e => h.ne (congrArg _ e))]
    exact jwString_anticomm i.2 h _ _ sMinus_Z
  · have hij : i = j := Fin.ext h
    subst hij
    rw [if_pos rfl, jwString_mul_same, jwString_mul_same, ← kronAll_one n]
    symm
    apply kronAll_add i
    · intro k hk; rw [if_neg (fun e => hk (Fin.ext e))]
    · intro k hk; rw [if_neg (fun e => hk (Fin.ext e))]
    · simp [sMinus_car]
  · rw [if_neg (fun e => h.ne (congrArg _ e.symm)), add_comm]
    exact jwString_anticomm j.2 h _ _ sPlus_Z

/-- The alphas as a function of the index: raising operators first. -/
noncomputable def al (n : ℕ) : Fin (n + n) → Op (2 ^ n) :=
  Fin.addCases (fun i => (jwLower n i)ᴴ) (fun i => jwLower n i)

@[simp] theorem al_left (n : ℕ) (i : Fin n) : al n (Fin.castAdd n i) = (jwLower n i)ᴴ := by
  simp [al]
@[simp] theorem al_right (n : ℕ) (i : Fin n) : al n (Fin.natAdd n i) = jwLower n i := by
  simp [al, -Fin.natAdd_eq_addNat]

theorem jordanWignerLowering_eq (n : ℕ) :
    jordanWignerLowering n = List.ofFn fun i : Fin n => jwLower n i := by
  apply List.ext_getElem
  · simp [jordanWignerLowering]
  · intro i h1 h2; simp [jordanWignerLowering]

theorem jordanWignerAlphas_eq (n : ℕ) : jordanWignerAlphas n = List.ofFn (al n) := by
  rw [jordanWignerAlphas, jordanWignerLowering_eq]
  rw [List.map_ofFn, List.ofFn_add]
  congr 1
  · congr 1; funext i; exact (al_left n i).symm
  · congr 1; funext i; simp [-Fin.natAdd_eq_addNat]

end FF
