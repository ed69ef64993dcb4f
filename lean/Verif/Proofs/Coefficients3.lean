import Verif.Proofs.Coefficients2
import Verif.Proofs.Utils
import Mathlib.Analysis.Complex.Basic

/-! # Helper lemmas: dropped entries, algebra of rotated operators, conservation laws, Kitaev chain -/

namespace FF

open Matrix
open scoped ComplexConjugate

theorem foldlM_error {α β : Type} {F : β → α → Except PyErr β} {e : PyErr} {l : List α}
    (h : ∀ a ∈ l, ∀ b, (∃ b', F b a = .ok b') ∨ F b a = .error e) (a : α) (ha : a ∈ l)
    (he : ∀ b, F b a = .error e) (b : β) : l.foldlM F b = .error e := by
  induction l generalizing b with
  | nil => simp at ha
  | cons x l ih =>
    rw [List.foldlM_cons]
    rcases h x (by simp) b with ⟨b', hb⟩ | hb
    · rw [hb]
      rcases List.mem_cons.1 ha with rfl | hm
      · rw [he] at hb; cases hb
      · exact ih (fun a ha b => h a (List.mem_cons_of_mem _ ha) b) hm b'
    · rw [hb]; rfl

theorem mapM_error {α β : Type} {F : α → Except PyErr β} {e : PyErr} {l : List α}
    (h : ∀ a ∈ l, (∃ b, F a = .ok b) ∨ F a = .error e) (a : α) (ha : a ∈ l)
    (he : F a = .error e) : l.mapM F = .error e := by
  induction l with
  | nil => simp at ha
  | cons x l ih =>
    rw [List.mapM_cons]
    rcases h x (by simp) with ⟨b', hb⟩ | hb
    · rw [hb]
      rcases List.mem_cons.1 ha with rfl | hm
      · rw [he] at hb; cases hb
      · rw [ih (fun a ha => h a (List.mem_cons_of_mem _ ha)) hm]; rfl
    · rw [hb]; rfl

/-! ## dropSmall -/

section drop
variable {m n : ℕ} (ε : ℝ)

theorem dropSmall_apply (M : Matrix (Fin m) (Fin n) ℂ) (i j) :
    Spec.dropSmall ε M i j = open Classical in if ‖M i j‖ < ε then 0 else M i j := rfl

theorem dropSmall_conjTranspose (M : Matrix (Fin m) (Fin n) ℂ) :
    (Spec.dropSmall ε M)ᴴ = Spec.dropSmall ε Mᴴ := by
  ext i j; simp only [conjTranspose_apply, dropSmall_apply, norm_star]; split_ifs <;> simp

theorem dropSmall_transpose (M : Matrix (Fin m) (Fin n) ℂ) :
    (Spec.dropSmall ε M)ᵀ = Spec.dropSmall ε Mᵀ := by
  ext i j; rfl

theorem dropSmall_neg (M : Matrix (Fin m) (Fin n) ℂ) :
    Spec.dropSmall ε (-M) = - Spec.dropSmall ε M := by
  ext i j; simp only [Matrix.neg_apply, dropSmall_apply, norm_neg]; split_ifs <;> simp

theorem dropSmall_cj (M : Matrix (Fin m) (Fin n) ℂ) :
    Spec.dropSmall ε (cj M) = cj (Spec.dropSmall ε M) := by
  ext i j
  simp only [cj, map_apply, dropSmall_apply, RCLike.norm_conj]
  split_ifs <;> simp

theorem dropSmall_zero : Spec.dropSmall ε (0 : Matrix (Fin m) (Fin n) ℂ) = 0 := by
  ext i j; simp [dropSmall_apply]

theorem dropSmall_id {ε : ℝ} {M : Matrix (Fin m) (Fin n) ℂ} (h : ∀ i j, M i j = 0 ∨ ε ≤ ‖M i j‖) :
    Spec.dropSmall ε M = M := by
  ext i j
  rw [dropSmall_apply]
  rcases h i j with h | h
  · simp [h]
  · rw [if_neg (not_lt.2 h)]

theorem dropSmall_blk (A B C D : Op n) :
    Spec.dropSmall ε (blk A B C D) =
      blk (Spec.dropSmall ε A) (Spec.dropSmall ε B) (Spec.dropSmall ε C) (Spec.dropSmall ε D) := by
  apply ext_halves <;> intro i j <;>
    simp only [dropSmall_apply, blk_11, blk_12, blk_21, blk_22]

theorem dropSmall_swapS_mul (M : Op (n + n)) :
    Spec.dropSmall ε (swapS n * M) = swapS n * Spec.dropSmall ε M := by
  ext i j; simp only [dropSmall_apply, swapS_mul]

theorem dropSmall_buildH (A : Op n) (B : Option (Op n)) :
    Spec.dropSmall ε (buildH n A B) =
      buildH n (Spec.dropSmall ε A) (some (Spec.dropSmall ε (B.getD 0))) := by
  simp only [buildH, dropSmall_blk, dropSmall_neg, dropSmall_cj, Option.getD_some]

end drop

theorem swapS_eq (n : ℕ) : swapS n = Spec.swap n := by
  apply ext_halves <;> intro i j <;>
    simp [swapS, Spec.swap, -Fin.natAdd_eq_addNat, Matrix.one_apply, Fin.ext_iff] <;>
    (try (split_ifs <;> first | rfl | omega)) <;> omega

theorem buildV_eq {n : ℕ} (A : Op n) (B : Option (Op n)) :
    buildV n A B = swapS n * buildH n A B := by
  simp only [buildV, buildH, swapS, blk_mul]
  apply blk_congr <;> simp

theorem quadDirect_al {n : ℕ} (R : Op (n + n)) :
    Spec.quadDirect (swapS n * R) (al n) = Spec.quad R (al n) := by
  simp only [Spec.quadDirect, Spec.quad, swapS_mul]
  rw [← Equiv.sum_comp flE]
  apply Finset.sum_congr rfl; intro i _
  apply Finset.sum_congr rfl; intro j _
  change R (fl (fl i)) j • (al n (fl i) * al n j) = _
  rw [fl_fl, al_conjTranspose]

theorem buildH_ph {n : ℕ} (A B : Op n) (hA : A.IsHermitian) (hB : Bᵀ = -B) :
    swapS n * (buildH n A (some B))ᵀ * swapS n = - buildH n A (some B) := by
  have hA' : (cj A)ᵀ = A := by rw [cj_transpose]; exact hA
  have hA'' : Aᵀ = cj A := by
    rw [← transpose_transpose (cj A), hA']
  have hB' : (cj B)ᵀ = - cj B := by
    rw [cj_transpose]
    ext i j
    have := congrFun (congrFun hB i) j
    simp only [transpose_apply, Matrix.neg_apply] at this
    simp [cj, this]
  simp only [buildH, swapS, blk_transpose, blk_mul, blk_neg, Option.getD_some, transpose_neg]
  apply blk_congr <;> simp [hA', hA'', hB, hB']

theorem buildH_herm {n : ℕ} (A B : Op n) (hA : A.IsHermitian) (hB : Bᵀ = -B) :
    (buildH n A (some B)).IsHermitian := by
  have hA'' : (cj A)ᴴ = cj A := by
    rw [cj_conjTranspose]; ext i j
    have := congrFun (congrFun hA.symm j) i
    simpa [cj] using this
  have hB1 : (cj B)ᴴ = -B := by rw [cj_conjTranspose, hB]
  have hB2 : Bᴴ = - cj B := by
    ext i j
    have := congrFun (congrFun hB i) j
    simp only [transpose_apply, Matrix.neg_apply] at this
    simp [cj, this]
  rw [IsHermitian]
  simp only [buildH, blk_conjTranspose, Option.getD_some, conjTranspose_neg, hA'', hB1, hB2, neg_neg]
  rw [hA.eq]

/-! ## algebra of linear combinations -/

theorem rotated_anticomm {n N : ℕ} (C : Matrix (Fin N) (Fin (n + n)) ℂ) (j k : Fin N) :
    (∑ i, C j i • al n i) * (∑ i, C k i • al n i) + (∑ i, C k i • al n i) * (∑ i, C j i • al n i) =
      (C * swapS n * Cᵀ) j k • 1 := by
  have h : (∑ i, C j i • al n i) * (∑ i, C k i • al n i) + (∑ i, C k i • al n i) * (∑ i, C j i • al n i) =
      ∑ i, ∑ l, (C j i * C k l) • (al n i * al n l + al n l * al n i) := by
    simp only [Finset.sum_mul, Finset.mul_sum, Matrix.smul_mul, Matrix.mul_smul, smul_smul, smul_add,
      Finset.sum_add_distrib]
    congr 1
    rw [Finset.sum_comm]
    apply Finset.sum_congr rfl; intro i _
    apply Finset.sum_congr rfl; intro l _
    rw [mul_comm]
  rw [h]
  simp only [al_anticomm, smul_smul]
  simp only [← Finset.sum_smul]
  congr 1
  rw [mul_apply]
  simp only [mul_apply, Finset.sum_mul, transpose_apply]
  rw [Finset.sum_comm]
  apply Finset.sum_congr rfl; intro i _
  apply Finset.sum_congr rfl; intro l _
  ring

theorem smul_one_inj {d : ℕ} (hd : 0 < d) {a b : ℂ} (h : a • (1 : Op d) = b • 1) : a = b := by
  have := congrFun (congrFun h ⟨0, hd⟩) ⟨0, hd⟩
  simpa using this

theorem allclose_smul_one {d : ℕ} (hd : 0 < d) (s : ℂ) :
    allclose (s • (1 : Op d)) 0 ↔ ‖s‖ ≤ 1e-8 := by
  constructor
  · intro h
    have := h ⟨0, hd⟩ ⟨0, hd⟩
    simpa [isclose] using this
  · intro h i j
    by_cases hij : i = j
    · simpa [isclose, hij] using h
    · simp [isclose, hij]; norm_num

theorem computeAlgebraS_ok {d n : ℕ} (hd : 0 < d) (hn : 1 ≤ n) (f : Fin (n + n) → Op d) (s : Op (n + n))
    (h : ∀ i j, f i * f j + f j * f i = s i j • 1) :
    computeAlgebraS (List.ofFn f) =
      .ok ⟨n, open Classical in Matrix.of fun i j => if ‖s i j‖ ≤ 1e-8 then 0 else s i j⟩ := by
  classical
  rw [computeAlgebraS, listGet_ofFn f 0 (by omega)]
  have hl : (List.ofFn f).length / 2 = n := by rw [List.length_ofFn]; omega
  generalize (List.ofFn f).length / 2 = k at hl
  subst hl
  change (fillArray k _ >>= _) = _
  rw [fillArray_ok (g := Matrix.of fun i j => if ‖s i j‖ ≤ 1e-8 then 0 else s i j)]
  · rfl
  · intro i j
    rw [listGet_ofFn f i i.2, listGet_ofFn f j j.2]
    change (if allclose (f i * f j + f j * f i) 0 then (pure 0 : Except PyErr ℂ)
      else get2 (f i * f j + f j * f i) 0 0) = _
    rw [h i j, allclose_smul_one hd, get2_lt _ hd hd]
    simp only [of_apply]
    split_ifs
    · rfl
    · simp

/-! ## Majoranas -/

theorem jordanWignerMajoranas_eq (n : ℕ) :
    jordanWignerMajoranas n = List.ofFn fun j => ∑ i, buildOmega n j i • al n i := by
  have hinv : (((Real.sqrt 2 : ℝ) : ℂ)⁻¹) = nu := by simp [nu]
  rw [jordanWignerMajoranas, jordanWignerLowering_eq]
  rw [List.map_ofFn, List.map_ofFn, List.ofFn_add]
  congr 1
  · congr 1; funext i
    simp only [Function.comp]
    rw [Fin.sum_univ_add]
    change _ = ∑ j, buildOmega n (Fin.castAdd n i) _ • _ + ∑ j, buildOmega n (Fin.castAdd n i) _ • _
    simp [buildOmega, Matrix.one_apply, -Fin.natAdd_eq_addNat, hinv]
  · congr 1; funext i
    simp only [Function.comp]
    rw [Fin.sum_univ_add]
    simp [buildOmega, Matrix.one_apply, -Fin.natAdd_eq_addNat, hinv, smul_sub, smul_smul]
    rw [mul_comm nu]
    abel

theorem nu_sq : nu * nu = 1 / 2 := by
  rw [nu, ← Complex.ofReal_mul, div_mul_div_comm, Real.mul_self_sqrt (by norm_num)]; norm_num

theorem nu_norm : ‖nu‖ = 1 / Real.sqrt 2 := by
  rw [nu, Complex.norm_real]
  exact abs_of_nonneg (by positivity)

theorem nu_ge : (1e-9 : ℝ) ≤ ‖nu‖ := by
  rw [nu_norm]
  have h1 : Real.sqrt 2 ≤ 2 := by
    rw [Real.sqrt_le_left (by norm_num)]; norm_num
  have : (1 : ℝ) / 2 ≤ 1 / Real.sqrt 2 := one_div_le_one_div_of_le (by positivity) h1
  have : (1e-9 : ℝ) ≤ 1 / 2 := by norm_num
  linarith

theorem nu_conj : (starRingEnd ℂ) nu = nu := by rw [nu, Complex.conj_ofReal]

theorem omega_entries (n : ℕ) (i j : Fin (n + n)) :
    buildOmega n i j = 0 ∨ (1e-9 : ℝ) ≤ ‖buildOmega n i j‖ := by
  have h := nu_ge
  refine Fin.addCases (fun i => ?_) (fun i => ?_) i <;>
    refine Fin.addCases (fun j => ?_) (fun j => ?_) j <;>
    simp only [buildOmega, blk_11, blk_12, blk_21, blk_22, Matrix.smul_apply, Matrix.one_apply] <;>
    by_cases hij : i = j <;> simp [hij, h]

theorem omega_swap (n : ℕ) : buildOmega n * swapS n * (buildOmega n)ᵀ = 1 := by
  simp only [buildOmega, swapS, blk_transpose, blk_mul, ← blk_one]
  have h := nu_sq
  have h3 : (-Complex.I * nu) * (Complex.I * nu) = 1 / 2 := by
    linear_combination (-Complex.I ^ 2) * h - (1 / 2 : ℂ) * Complex.I_sq
  apply blk_congr <;>
    simp only [Matrix.mul_zero, Matrix.mul_one, zero_add, add_zero, transpose_smul, transpose_one,
      Matrix.smul_mul, Matrix.mul_smul, Matrix.one_mul, smul_smul, ← add_smul, h]
  · norm_num
  · ring_nf; simp
  · ring_nf; simp
  · rw [mul_comm (Complex.I * nu), h3]; norm_num

/-! ## conservation laws -/

theorem quad_commute {m d : ℕ} (R : Op m) (f : Fin m → Op d) (P : Op d)
    (h : ∀ i, P * f i = -(f i * P)) (h' : ∀ i, P * (f i)ᴴ = -((f i)ᴴ * P)) :
    Spec.quad R f * P = P * Spec.quad R f := by
  simp only [Spec.quad, Finset.sum_mul, Finset.mul_sum, Matrix.smul_mul, Matrix.mul_smul]
  apply Finset.sum_congr rfl; intro i _
  apply Finset.sum_congr rfl; intro j _
  congr 1
  rw [← mul_assoc P, h', Matrix.neg_mul, mul_assoc, mul_assoc, h, Matrix.mul_neg, neg_neg]

theorem parity_eq (n : ℕ) : Spec.parity n = kronAll n fun _ => sigmaZ := by
  ext x y
  have hZ (p q : Fin 2) : sigmaZ p q = if p = q then (-1 : ℂ) ^ (p : ℕ) else 0 := by
    fin_cases p <;> fin_cases q <;> simp [sigmaZ]
  rw [kronAll_apply, Spec.parity, diagonal_apply]
  by_cases h : x = y
  · subst h; simp [hZ, Finset.prod_pow_eq_pow_sum]
  · rw [if_neg h]
    have : Spec.digit 2 n x ≠ Spec.digit 2 n y := fun e => h (Fin.ext (digit_inj x.2 y.2 e))
    obtain ⟨k, hk⟩ := Function.ne_iff.1 this
    exact (Finset.prod_eq_zero (Finset.mem_univ k) (by simp [hZ, hk])).symm

theorem parity_jwString {n i : ℕ} (hi : i < n) (M : Op 2) (hM : M * sigmaZ = -(sigmaZ * M)) :
    Spec.parity n * jwString n i M = -(jwString n i M * Spec.parity n) := by
  rw [parity_eq, jwString, kronAll_mul, kronAll_mul]
  apply kronAll_neg ⟨i, hi⟩
  · intro k hk
    have : (k : ℕ) ≠ i := fun h => hk (Fin.ext h)
    by_cases h1 : (k : ℕ) < i <;> simp [h1, this]
  · simp [hM]

theorem parity_al {n : ℕ} (i : Fin (n + n)) : Spec.parity n * al n i = -(al n i * Spec.parity n) := by
  refine Fin.addCases (fun i => ?_) (fun i => ?_) i
  · rw [al_left, jwLower_eq, jwString_conjTranspose]
    exact parity_jwString i.2 _ sPlus_Z
  · rw [al_right, jwLower_eq]
    exact parity_jwString i.2 _ sMinus_Z

/-- The number operator as a qlift. -/
theorem number_quad (n : ℕ) :
    (∑ i : Fin n, (jwLower n i)ᴴ * jwLower n i) = Spec.quad (blk 0 0 0 1) (al n) := by
  simp only [Spec.quad, Fin.sum_univ_add]
  simp [Matrix.one_apply, -Fin.natAdd_eq_addNat]

/-! ## blocks of a qlift -/

theorem quad_blk {n : ℕ} (A B C D : Op n) :
    Spec.quad (blk A B C D) (al n) =
      ∑ i : Fin n, ∑ j : Fin n, (A i j • (jwLower n i * (jwLower n j)ᴴ) +
        B i j • (jwLower n i * jwLower n j) + C i j • ((jwLower n i)ᴴ * (jwLower n j)ᴴ) +
        D i j • ((jwLower n i)ᴴ * jwLower n j)) := by
  simp only [Spec.quad, Fin.sum_univ_add, Finset.sum_add_distrib]
  simp [-Fin.natAdd_eq_addNat, Finset.sum_add_distrib]
  abel

/-- Tridiagonal matrix with constant diagonals. -/
def tri (n : ℕ) (d u v : ℂ) : Op n :=
  Matrix.of fun x y => if (x : ℕ) + 1 = y then u else if (y : ℕ) + 1 = x then v else if x = y then d else 0

theorem tri_fold {n : ℕ} (M : Op n) (u v : ℂ) (k : ℕ) (hk : k ≤ n - 1) :
    (List.range k).foldl (fun A i =>
      if h : i + 1 < n then
        set2 (set2 A ⟨i, by omega⟩ ⟨i + 1, h⟩ u) ⟨i + 1, h⟩ ⟨i, by omega⟩ v
      else A) M =
    Matrix.of fun (x y : Fin n) => if (x : ℕ) < k ∧ (x : ℕ) + 1 = y then u
      else if (y : ℕ) < k ∧ (y : ℕ) + 1 = x then v else M x y := by
  induction k with
  | zero => ext x y; simp
  | succ k ih =>
    rw [List.range_succ, List.foldl_append, ih (by omega)]
    simp only [List.foldl_cons, List.foldl_nil]
    rw [dif_pos (by omega)]
    ext x y
    simp only [set2, of_apply, Fin.ext_iff]
    split_ifs <;> first | rfl | omega

theorem kitaev_eq (n : ℕ) (mu t delta : ℝ) :
    kitaevChain n mu t delta =
      buildH n (tri n ((-mu : ℝ) : ℂ) ((-t : ℝ) : ℂ) ((-t : ℝ) : ℂ))
        (some (tri n 0 (delta : ℂ) ((-delta : ℝ) : ℂ))) := by
  rw [kitaevChain]
  rw [tri_fold _ _ _ _ le_rfl, tri_fold _ _ _ _ le_rfl]
  congr 2
  · ext x y
    simp only [tri, of_apply, Matrix.smul_apply, Matrix.one_apply, smul_eq_mul, mul_ite, mul_one, mul_zero]
    split_ifs <;> first | rfl | omega
  · congr 1
    ext x y
    simp only [tri, of_apply, Matrix.zero_apply]
    split_ifs <;> first | rfl | omega

theorem sum_next {n : ℕ} {M : Type} [AddCommMonoid M] (i : Fin n) (f : Fin n → M) :
    (∑ j : Fin n, if (i : ℕ) + 1 = j then f j else 0) = if h : (i : ℕ) + 1 < n then f ⟨i + 1, h⟩ else 0 := by
  split_ifs with h
  · rw [Finset.sum_eq_single ⟨i + 1, h⟩]
    · simp
    · intro b _ hb
      rw [if_neg]
      intro e; exact hb (Fin.ext e.symm)
    · simp
  · apply Finset.sum_eq_zero
    intro j _
    rw [if_neg]
    have := j.2; omega

/-- A sum against a tridiagonal matrix: sites and bonds. -/
theorem sum_tri {n : ℕ} {M : Type} [AddCommGroup M] [Module ℂ M] (d u v : ℂ) (f : Fin n → Fin n → M) :
    (∑ i, ∑ j, tri n d u v i j • f i j) = (∑ i, d • f i i) +
      ∑ i : Fin n, (if h : (i : ℕ) + 1 < n then u • f i ⟨i + 1, h⟩ + v • f ⟨i + 1, h⟩ i else 0) := by
  have h1 (i j : Fin n) : tri n d u v i j • f i j =
      (if i = j then d • f i j else 0) + (if (i : ℕ) + 1 = j then u • f i j else 0) +
        (if (j : ℕ) + 1 = i then v • f i j else 0) := by
    simp only [tri, of_apply, Fin.ext_iff]
    split_ifs <;> first | omega | simp
  simp only [h1, Finset.sum_add_distrib, Finset.sum_ite_eq, Finset.mem_univ, if_true, sum_next]
  rw [add_assoc]
  congr 1
  have h2 : (∑ i : Fin n, ∑ j : Fin n, if (j : ℕ) + 1 = i then v • f i j else 0) =
      ∑ i : Fin n, (if h : (i : ℕ) + 1 < n then v • f ⟨i + 1, h⟩ i else 0) := by
    rw [Finset.sum_comm]
    apply Finset.sum_congr rfl; intro i _
    exact sum_next i (fun j => v • f j i)
  rw [h2, ← Finset.sum_add_distrib]
  apply Finset.sum_congr rfl; intro i _
  split_ifs <;> simp

theorem rotate_right {m k d N : ℕ} (C : Matrix (Fin m) (Fin k) ℂ) (f : Fin N → Op d)
    (hm : N ≤ m) (hk : N ≤ k) :
    rotateOperators (.matrixFirst C (List.ofFn f)) false =
      .ok (some (List.ofFn fun j : Fin N =>
        ∑ i : Fin N, Spec.dropSmall 1e-9 C (Fin.castLE hm j) (Fin.castLE hk i) • f i)) := by
  simp only [rotateOperators, List.length_ofFn]
  rw [if_neg (by omega)]
  simp only [Bool.false_eq_true, if_false]
  rw [performRotation_ok C f hm hk]; rfl

theorem rotate_exact {d N : ℕ} (C : Op N) (f : Fin N → Op d) (hC : ∀ i j, C i j = 0 ∨ 1e-9 ≤ ‖C i j‖) :
    rotateOperators (.matrixFirst C (List.ofFn f)) false =
      .ok (some (List.ofFn fun j : Fin N => ∑ i : Fin N, C j i • f i)) := by
  rw [rotate_right C f le_rfl le_rfl, dropSmall_id hC]; rfl

theorem drop_herm {n : ℕ} {A : Op n} (hA : A.IsHermitian) (ε : ℝ) : (Spec.dropSmall ε A).IsHermitian := by
  rw [IsHermitian, dropSmall_conjTranspose, hA.eq]

theorem drop_skew {n : ℕ} {B : Op n} (hB : Bᵀ = -B) (ε : ℝ) :
    (Spec.dropSmall ε B)ᵀ = - Spec.dropSmall ε B := by
  rw [dropSmall_transpose, hB, dropSmall_neg]

theorem drop_ph {n : ℕ} (A B : Op n) (hA : A.IsHermitian) (hB : Bᵀ = -B) (ε : ℝ := 1e-10) :
    swapS n * (Spec.dropSmall ε (buildH n A (some B)))ᵀ * swapS n =
      - Spec.dropSmall ε (buildH n A (some B)) := by
  rw [dropSmall_buildH]
  exact buildH_ph _ _ (drop_herm hA _) (drop_skew hB _)

theorem kitaev_quad (n : ℕ) (mu t delta : ℝ) :
    Spec.quad (kitaevChain n mu t delta) (al n) =
      (∑ i : Fin n, (-mu : ℂ) • ((2 : ℂ) • ((jwLower n i)ᴴ * jwLower n i) - 1)) +
      ∑ i : Fin n, if h : (i : ℕ) + 1 < n then
        (-2 * t : ℂ) • ((jwLower n i)ᴴ * jwLower n (⟨i + 1, h⟩ : Fin n) +
          (jwLower n (⟨i + 1, h⟩ : Fin n))ᴴ * jwLower n i) +
        (2 * delta : ℂ) • (jwLower n i * jwLower n (⟨i + 1, h⟩ : Fin n) +
          (jwLower n i * jwLower n (⟨i + 1, h⟩ : Fin n))ᴴ) else 0 := by
  set a : Fin n → Op (2 ^ n) := fun i => jwLower n i with ha
  have c1 (i j : Fin n) : a i * a j + a j * a i = 0 := car_lower i j
  have c2 (i j : Fin n) : a i * (a j)ᴴ + (a j)ᴴ * a i = if i = j then 1 else 0 := car_mixed i j
  have e1 : -(cj (tri n ((-mu : ℝ) : ℂ) ((-t : ℝ) : ℂ) ((-t : ℝ) : ℂ))) = tri n (mu : ℂ) (t : ℂ) (t : ℂ) := by
    ext x y
    simp only [Matrix.neg_apply, cj, map_apply, tri, of_apply]
    split_ifs <;> simp
  have e2 : -(cj (tri n 0 (delta : ℂ) ((-delta : ℝ) : ℂ))) = tri n 0 (-delta : ℂ) (delta : ℂ) := by
    ext x y
    simp only [Matrix.neg_apply, cj, map_apply, tri, of_apply]
    split_ifs <;> simp
  rw [kitaev_eq, buildH, Option.getD_some, quad_blk, e1, e2]
  simp only [Finset.sum_add_distrib]
  rw [sum_tri, sum_tri, sum_tri, sum_tri]
  simp only [zero_smul, Finset.sum_const_zero, zero_add]
  change (∑ i, (mu : ℂ) • (a i * (a i)ᴴ) +
      ∑ i : Fin n, (if h : (i : ℕ) + 1 < n then (t : ℂ) • (a i * (a ⟨i + 1, h⟩)ᴴ) +
        (t : ℂ) • (a ⟨i + 1, h⟩ * (a i)ᴴ) else 0)) +
      (∑ i : Fin n, (if h : (i : ℕ) + 1 < n then (delta : ℂ) • (a i * a ⟨i + 1, h⟩) +
        ((-delta : ℝ) : ℂ) • (a ⟨i + 1, h⟩ * a i) else 0)) +
      (∑ i : Fin n, (if h : (i : ℕ) + 1 < n then (-delta : ℂ) • ((a i)ᴴ * (a ⟨i + 1, h⟩)ᴴ) +
        (delta : ℂ) • ((a ⟨i + 1, h⟩)ᴴ * (a i)ᴴ) else 0)) +
      (∑ i, ((-mu : ℝ) : ℂ) • ((a i)ᴴ * a i) +
      ∑ i : Fin n, (if h : (i : ℕ) + 1 < n then ((-t : ℝ) : ℂ) • ((a i)ᴴ * a ⟨i + 1, h⟩) +
        ((-t : ℝ) : ℂ) • ((a ⟨i + 1, h⟩)ᴴ * a i) else 0)) =
      (∑ i, (-mu : ℂ) • ((2 : ℂ) • ((a i)ᴴ * a i) - 1)) +
      ∑ i : Fin n, if h : (i : ℕ) + 1 < n then
        (-2 * t : ℂ) • ((a i)ᴴ * a ⟨i + 1, h⟩ + (a ⟨i + 1, h⟩)ᴴ * a i) +
        (2 * delta : ℂ) • (a i * a ⟨i + 1, h⟩ + (a i * a ⟨i + 1, h⟩)ᴴ) else 0
  rw [show ∀ X1 X2 X3 X4 X5 X6 : Op (2 ^ n), X1 + X2 + X3 + X4 + (X5 + X6) = (X1 + X5) + (X2 + X3 + X4 + X6)
    from fun _ _ _ _ _ _ => by abel]
  simp only [← Finset.sum_add_distrib]
  apply Finset.sum_congr rfl
  intro i _
  congr 1
  · have : a i * (a i)ᴴ = 1 - (a i)ᴴ * a i := by
      have := c2 i i
      rw [if_pos rfl] at this
      rw [← this]; abel
    rw [this, Complex.ofReal_neg]
    module
  · split_ifs with h
    · have hne : i ≠ ⟨i + 1, h⟩ := fun e => by have := congrArg Fin.val e; simp at this
      have f1 : a i * (a ⟨i + 1, h⟩)ᴴ = - ((a ⟨i + 1, h⟩)ᴴ * a i) := by
        have := c2 i ⟨i + 1, h⟩
        rw [if_neg hne] at this
        exact eq_neg_of_add_eq_zero_left this
      have f2 : a ⟨i + 1, h⟩ * (a i)ᴴ = - ((a i)ᴴ * a ⟨i + 1, h⟩) := by
        have := c2 ⟨i + 1, h⟩ i
        rw [if_neg hne.symm] at this
        exact eq_neg_of_add_eq_zero_left this
      have f3 : a ⟨i + 1, h⟩ * a i = - (a i * a ⟨i + 1, h⟩) := eq_neg_of_add_eq_zero_left (c1 _ _)
      have f4 : (a i)ᴴ * (a ⟨i + 1, h⟩)ᴴ = - ((a ⟨i + 1, h⟩)ᴴ * (a i)ᴴ) := by
        rw [← conjTranspose_mul, ← conjTranspose_mul, f3, conjTranspose_neg]
      rw [conjTranspose_mul, f1, f2, f3, f4, Complex.ofReal_neg, Complex.ofReal_neg]
      module
    · simp

end FF
