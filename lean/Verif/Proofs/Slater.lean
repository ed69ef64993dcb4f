import Verif.Proofs.Evolve
import Verif.Proofs.GibbsInj
import Verif.Spec.Slater

/-! # Helper lemmas: Slater determinants -/

namespace FF

open Matrix
open scoped ComplexOrder

section general
variable {d : ℕ} {v : Fin d → ℂ}

/-- Moving an operator that kills the vacuum through a product. -/
theorem lower_prod {X : Op d} (hX : X *ᵥ v = 0) : ∀ {m : ℕ} {f : Fin (m + 1) → Op d} {s : Fin (m + 1) → ℂ}
    (_ : ∀ i, X * f i + f i * X = s i • 1), X *ᵥ ((List.ofFn f).prod *ᵥ v) =
      ∑ p : Fin (m + 1), ((-1) ^ (p : ℕ) * s p) • ((List.ofFn fun i => f (p.succAbove i)).prod *ᵥ v)
  | 0, f, s, hs => by
    have h := hs 0
    rw [List.ofFn_succ, List.ofFn_zero, List.prod_cons, List.prod_nil, mul_one, mulVec_mulVec, eq_sub_of_add_eq h, sub_mulVec,
      ← mulVec_mulVec, hX, mulVec_zero, sub_zero, Fin.sum_univ_one]
    simp [smul_mulVec]
  | m + 1, f, s, hs => by
    have h := hs 0
    have ih := lower_prod hX (f := fun i => f i.succ) fun i => hs i.succ
    rw [List.ofFn_succ, List.prod_cons, mulVec_mulVec, ← Matrix.mul_assoc, eq_sub_of_add_eq h, sub_mul, sub_mulVec,
      Matrix.mul_assoc (f 0), ← mulVec_mulVec, ← mulVec_mulVec, ← mulVec_mulVec, ih, Fin.sum_univ_succ (n := m + 1), sub_eq_add_neg]
    congr 1
    · simp [smul_mulVec]
    · rw [mulVec_sum, ← Finset.sum_neg_distrib]
      refine Finset.sum_congr rfl fun p _ => ?_
      rw [List.ofFn_succ (f := fun i => f (p.succ.succAbove i)), List.prod_cons, ← mulVec_mulVec, mulVec_smul, ← neg_smul]
      congr 1
      · rw [Fin.val_succ, pow_succ]; ring
      · simp

/-- The matrix elements of products of creation and annihilation operators are determinants. -/
theorem slater_det : ∀ {m : ℕ} {X f : Fin m → Op d} {G : Op m} (_ : ∀ i, X i *ᵥ v = 0)
    (_ : ∀ i j, X i * f j + f j * X i = G i j • 1),
    (List.ofFn X).reverse.prod *ᵥ ((List.ofFn f).prod *ᵥ v) = G.det • v
  | 0, X, f, G, _, _ => by simp
  | m + 1, X, f, G, hX, hG => by
    rw [List.ofFn_succ (f := X), List.reverse_cons, List.prod_append, List.prod_singleton, ← mulVec_mulVec,
      lower_prod (hX 0) (hG 0), mulVec_sum, det_succ_row_zero, Finset.sum_smul]
    refine Finset.sum_congr rfl fun p _ => ?_
    rw [mulVec_smul, slater_det (X := fun i => X i.succ) (f := fun i => f (p.succAbove i))
      (G := G.submatrix Fin.succ p.succAbove) (fun i => hX _) (fun i j => hG _ _), smul_smul]

/-- More annihilation than creation operators give zero. -/
theorem slater_kill : ∀ {m k : ℕ} {X : Fin k → Op d} {f : Fin m → Op d} {G : Fin k → Fin m → ℂ} (_ : ∀ i, X i *ᵥ v = 0)
    (_ : ∀ i j, X i * f j + f j * X i = G i j • 1) (_ : m < k),
    (List.ofFn X).reverse.prod *ᵥ ((List.ofFn f).prod *ᵥ v) = 0
  | 0, k + 1, X, f, G, hX, _, _ => by
    rw [List.ofFn_succ (f := X), List.reverse_cons, List.prod_append, List.prod_singleton, ← mulVec_mulVec]
    simp [hX]
  | m + 1, k + 1, X, f, G, hX, hG, h => by
    rw [List.ofFn_succ (f := X), List.reverse_cons, List.prod_append, List.prod_singleton, ← mulVec_mulVec,
      lower_prod (hX 0) (hG 0), mulVec_sum]
    refine Finset.sum_eq_zero fun p _ => ?_
    rw [mulVec_smul, slater_kill (X := fun i => X i.succ) (f := fun i => f (p.succAbove i))
      (G := fun i j => G i.succ (p.succAbove j)) (fun i => hX _) (fun i j => hG _ _) (by omega), smul_zero]

theorem inner_mulVec {d : ℕ} (M : Op d) (x y : Fin d → ℂ) : Spec.inner (M *ᵥ x) y = Spec.inner x (Mᴴ *ᵥ y) := by
  have h : ∀ x y : Fin d → ℂ, Spec.inner x y = star x ⬝ᵥ y := fun x y => rfl
  rw [h, h, star_mulVec, dotProduct_mulVec]

theorem conjTranspose_prod_ofFn {m : ℕ} (f : Fin m → Op d) :
    ((List.ofFn f).prod)ᴴ = (List.ofFn fun i => (f i)ᴴ).reverse.prod := by
  induction m with
  | zero => simp
  | succ m ih => rw [List.ofFn_succ, List.prod_cons, conjTranspose_mul, ih, List.ofFn_succ (f := fun i => (f i)ᴴ),
      List.reverse_cons, List.prod_append, List.prod_singleton]

/-- Overlaps of two products of creation operators on the vacuum. -/
theorem slater_overlap {m : ℕ} {e f : Fin m → Op d} {G : Op m} (hv : Spec.inner v v = 1) (he : ∀ i, (e i)ᴴ *ᵥ v = 0)
    (hG : ∀ i j, (e i)ᴴ * f j + f j * (e i)ᴴ = G i j • 1) :
    Spec.inner ((List.ofFn e).prod *ᵥ v) ((List.ofFn f).prod *ᵥ v) = G.det := by
  rw [inner_mulVec, conjTranspose_prod_ofFn, slater_det he hG]
  have : Spec.inner v (G.det • v) = G.det * Spec.inner v v := by
    simp only [Spec.inner, Finset.mul_sum, Pi.smul_apply, smul_eq_mul]
    refine Finset.sum_congr rfl fun i _ => by ring
  rw [this, hv, mul_one]

theorem inner_swap {d : ℕ} (x y : Fin d → ℂ) : Spec.inner x y = star (Spec.inner y x) := by
  simp only [Spec.inner, star_sum, star_mul', star_star]
  exact Finset.sum_congr rfl fun i _ => mul_comm _ _

theorem slater_orthogonal {m k : ℕ} {e : Fin m → Op d} {f : Fin k → Op d} {G : Fin m → Fin k → ℂ} (hmk : m ≠ k)
    (he : ∀ i, (e i)ᴴ *ᵥ v = 0) (hf : ∀ i, (f i)ᴴ *ᵥ v = 0) (hG : ∀ i j, (e i)ᴴ * f j + f j * (e i)ᴴ = G i j • 1) :
    Spec.inner ((List.ofFn e).prod *ᵥ v) ((List.ofFn f).prod *ᵥ v) = 0 := by
  rcases lt_or_gt_of_ne hmk with h | h
  · rw [inner_swap, inner_mulVec, conjTranspose_prod_ofFn, slater_kill (G := fun i j => star (G j i)) hf ?_ h]
    · simp [Spec.inner]
    · intro i j
      have := congrArg conjTranspose (hG j i)
      rw [conjTranspose_add, conjTranspose_mul, conjTranspose_mul, conjTranspose_smul, conjTranspose_conjTranspose,
        conjTranspose_one] at this
      exact this
  · rw [inner_mulVec, conjTranspose_prod_ofFn, slater_kill he hG h]
    simp [Spec.inner]

end general

section fock
variable {n : ℕ}

/-- The vacuum. -/
theorem lower_vac (i : Fin n) : jwLower n i *ᵥ Spec.fock (fun _ : Fin n => (0 : Fin 2)) = 0 := by
  rw [jwLower_fock, if_neg (by simp)]

theorem inner_fock (b : Fin n → Fin 2) (x : Fin (2 ^ n) → ℂ) : Spec.inner (Spec.fock b) x = x (bIdx b) := by
  rw [fock_eq, Spec.inner, Finset.sum_eq_single (bIdx b)]
  · simp
  · intro j _ hj; simp [Pi.single_apply, hj]
  · simp

theorem inner_fock_self (b : Fin n → Fin 2) : Spec.inner (Spec.fock b) (Spec.fock b) = 1 := by
  rw [inner_fock, fock_eq]; simp

/-- Basis states are products of creation operators, in ascending order of the sites, on the vacuum. -/
theorem fock_prod : ∀ {N : ℕ} {s : Fin N → Fin n} (_ : StrictMono s),
    (List.ofFn fun i => (jwLower n (s i))ᴴ).prod *ᵥ Spec.fock (fun _ : Fin n => (0 : Fin 2)) = Spec.fock (Spec.occ s)
  | 0, s, _ => by
    have : Spec.occ s = fun _ => 0 := by funext i; simp [Spec.occ]
    rw [List.ofFn_zero, List.prod_nil, one_mulVec, this]
  | N + 1, s, hs => by
    have ih := fock_prod (s := fun i => s i.succ) fun i j h => hs (Fin.succ_lt_succ_iff.2 h)
    have h0 : Spec.occ (fun i : Fin N => s i.succ) (s 0) = 0 := by
      rw [Spec.occ, if_neg]
      rintro ⟨j, hj⟩
      exact absurd (hs (Fin.succ_pos j)) (by rw [hj]; exact lt_irrefl _)
    rw [List.ofFn_succ, List.prod_cons, ← mulVec_mulVec, ih, jwRaise_fock, if_pos h0]
    have h1 : (∑ k : Fin n, if k < s 0 then ((Spec.occ (fun i : Fin N => s i.succ) k : Fin 2) : ℕ) else 0) = 0 := by
      refine Finset.sum_eq_zero fun k _ => ?_
      split_ifs with hk
      · rw [Spec.occ, if_neg]
        · rfl
        · rintro ⟨j, rfl⟩
          exact absurd (hs (Fin.succ_pos j)) (not_lt_of_gt hk)
      · rfl
    rw [h1, pow_zero, one_smul]
    congr 1
    funext i
    rw [Function.update_apply, Spec.occ, Spec.occ]
    by_cases h : i = s 0
    · rw [if_pos h, if_pos ⟨0, h.symm⟩]
    · rw [if_neg h]
      congr 1
      rw [Fin.exists_fin_succ]
      simp [Ne.symm h]

/-- Every basis state is of this form. -/
theorem exists_occ (b : Fin n → Fin 2) : ∃ (N : ℕ) (s : Fin N → Fin n), StrictMono s ∧ Spec.occ s = b ∧
    N = ∑ i, (b i : ℕ) := by
  classical
  set S : Finset (Fin n) := Finset.univ.filter fun i => b i = 1 with hS
  refine ⟨S.card, S.orderEmbOfFin rfl, (S.orderEmbOfFin rfl).strictMono, ?_, ?_⟩
  · funext i
    have : (∃ j, S.orderEmbOfFin rfl j = i) ↔ b i = 1 := by
      rw [← Set.mem_range, Finset.range_orderEmbOfFin, Finset.mem_coe, hS, Finset.mem_filter]
      simp
    rw [Spec.occ]
    by_cases h : b i = 1
    · rw [if_pos (this.2 h), h]
    · rw [if_neg (fun h' => h (this.1 h'))]
      have := (b i).2
      apply Fin.ext
      have h2 : ((b i : Fin 2) : ℕ) ≠ 1 := fun e => h (Fin.ext e)
      simp; omega
  · rw [hS, Finset.card_filter]
    refine Finset.sum_congr rfl fun i _ => ?_
    have := (b i).2
    split_ifs with h
    · rw [h]; rfl
    · have h2 : ((b i : Fin 2) : ℕ) ≠ 1 := fun e => h (Fin.ext e)
      omega

theorem occ_sum {N : ℕ} {s : Fin N → Fin n} (hs : StrictMono s) : ∑ i, (Spec.occ s i : ℕ) = N := by
  classical
  have h : ∀ i : Fin n, ((Spec.occ s i : Fin 2) : ℕ) = if i ∈ Finset.univ.image s then 1 else 0 := by
    intro i
    rw [Spec.occ]
    simp only [Finset.mem_image, Finset.mem_univ, true_and]
    split_ifs <;> rfl
  rw [Finset.sum_congr rfl fun i _ => h i, Finset.sum_ite_mem, Finset.univ_inter, Finset.sum_const, smul_eq_mul, mul_one,
    Finset.card_image_of_injective _ hs.injective, Finset.card_univ, Fintype.card_fin]

/-- Combinations of creation operators. -/
noncomputable def cr (w : Fin n → ℂ) : Op (2 ^ n) := ∑ j, w j • (jwLower n j)ᴴ

theorem cr_dag (w : Fin n → ℂ) : (cr w)ᴴ = ∑ j, star (w j) • jwLower n j := by
  rw [cr, conjTranspose_sum]
  exact Finset.sum_congr rfl fun j _ => by rw [conjTranspose_smul, conjTranspose_conjTranspose]

theorem cr_single (i : Fin n) : cr (Pi.single i 1) = (jwLower n i)ᴴ := by
  rw [cr, Finset.sum_eq_single i] <;> simp +contextual [Pi.single_apply]

theorem cr_vac (w : Fin n → ℂ) : (cr w)ᴴ *ᵥ Spec.fock (fun _ : Fin n => (0 : Fin 2)) = 0 := by
  rw [cr_dag, sum_mulVec]
  exact Finset.sum_eq_zero fun j _ => by rw [smul_mulVec, lower_vac, smul_zero]

theorem cr_car (w z : Fin n → ℂ) : (cr w)ᴴ * cr z + cr z * (cr w)ᴴ = Spec.inner w z • (1 : Op (2 ^ n)) := by
  rw [cr_dag, cr, Finset.sum_mul_sum, Finset.sum_mul_sum, Finset.sum_comm (s := Finset.univ) (f := fun i j => _ * _),
    ← Finset.sum_add_distrib, Spec.inner, Finset.sum_smul]
  refine Finset.sum_congr rfl fun j _ => ?_
  rw [← Finset.sum_add_distrib, Finset.sum_eq_single j]
  · have := car_mixed j j
    rw [if_pos rfl] at this
    rw [← this, smul_mul_smul_comm, smul_mul_smul_comm, smul_add, mul_comm (z j)]
  · intro i _ hi
    have := car_mixed i j
    rw [if_neg hi] at this
    rw [smul_mul_smul_comm, smul_mul_smul_comm, mul_comm (z j), ← smul_add, this, smul_zero]
  · simp

/-- Overlaps of Slater determinants. -/
theorem cr_overlap {N : ℕ} (w z : Fin N → Fin n → ℂ) :
    Spec.inner ((List.ofFn fun i => cr (w i)).prod *ᵥ Spec.fock (fun _ : Fin n => (0 : Fin 2)))
      ((List.ofFn fun i => cr (z i)).prod *ᵥ Spec.fock (fun _ : Fin n => (0 : Fin 2))) =
      (Matrix.of fun i j => Spec.inner (w i) (z j)).det :=
  slater_overlap (inner_fock_self _) (fun i => cr_vac _) fun i j => cr_car _ _

/-- Amplitudes of Slater determinants. -/
theorem cr_amplitude {N : ℕ} (z : Fin N → Fin n → ℂ) {s : Fin N → Fin n} (hs : StrictMono s) :
    Spec.inner (Spec.fock (Spec.occ s)) ((List.ofFn fun i => cr (z i)).prod *ᵥ Spec.fock (fun _ : Fin n => (0 : Fin 2))) =
      (Matrix.of fun i j => z i (s j)).det := by
  rw [← fock_prod hs, ← det_transpose]
  have h : (fun i => (jwLower n (s i))ᴴ) = fun i => cr (Pi.single (s i) 1) := by
    funext i; rw [cr_single]
  rw [h, cr_overlap]
  congr 1
  ext i j
  rw [transpose_apply, of_apply, of_apply, Spec.inner, Finset.sum_eq_single (s i)] <;>
    simp +contextual [Pi.single_apply]

theorem cr_amplitude_zero {N : ℕ} (z : Fin N → Fin n → ℂ) {b : Fin n → Fin 2} (hb : ∑ i, (b i : ℕ) ≠ N) :
    Spec.inner (Spec.fock b) ((List.ofFn fun i => cr (z i)).prod *ᵥ Spec.fock (fun _ : Fin n => (0 : Fin 2))) = 0 := by
  obtain ⟨K, s, hs, rfl, hK⟩ := exists_occ b
  rw [← fock_prod hs]
  have h : (fun i => (jwLower n (s i))ᴴ) = fun i => cr (Pi.single (s i) 1) := by
    funext i; rw [cr_single]
  rw [h]
  exact slater_orthogonal (by omega) (fun i => cr_vac _) (fun i => cr_vac _) fun i j => cr_car _ _

/-! ## evolution with a number-conserving Hamiltonian -/

theorem hop_eq (A : Op n) : Spec.quad (buildH n A none) (al n) = Spec.quad (blk (-(cj A)) 0 0 A) (al n) := by
  congr 1
  simp only [buildH, Option.getD_none]
  congr 1
  ext i j; simp [cj]

theorem hop_comm {A : Op n} (hA : A.IsHermitian) (k : Fin n) :
    Spec.quad (buildH n A none) (al n) * (jwLower n k)ᴴ - (jwLower n k)ᴴ * Spec.quad (buildH n A none) (al n) =
      ∑ l, (2 * A l k) • (jwLower n l)ᴴ := by
  have hz : (0 : Op n)ᵀ = -0 := by simp
  have hb : buildH n A none = buildH n A (some 0) := rfl
  have h1 : Spec.quad (buildH n A none) (al n) * al n (Fin.castAdd n k) - al n (Fin.castAdd n k) *
      Spec.quad (buildH n A none) (al n) = _ := lift_comm (buildH n A none) (Fin.castAdd n k)
  rw [al_left] at h1
  rw [h1, hb, buildH_ph A 0 hA hz, Fin.sum_univ_add]
  have h2 : ∀ i, (-buildH n A (some 0) - buildH n A (some 0)) (Fin.castAdd n k) (Fin.natAdd n i) = 0 := by
    intro i; simp [buildH, -Fin.natAdd_eq_addNat]
  have h3 : ∀ i, (-buildH n A (some 0) - buildH n A (some 0)) (Fin.castAdd n k) (Fin.castAdd n i) = 2 * A i k := by
    intro i
    have h4 : cj A k i = A i k := by
      have := congrFun (congrFun hA.eq i) k
      simpa [cj] using this
    simp only [buildH, Option.getD_some, Matrix.sub_apply, Matrix.neg_apply, blk_11, h4]
    ring
  simp only [h2, h3, al_left, zero_smul, Finset.sum_const_zero, add_zero]

theorem hop_vac {A : Op n} (hA : A.IsHermitian) : Spec.quad (buildH n A none) (al n) *ᵥ
    Spec.fock (fun _ : Fin n => (0 : Fin 2)) = (-A.trace) • Spec.fock (fun _ : Fin n => (0 : Fin 2)) := by
  have hd : ∀ i, cj A i i = A i i := fun i => by
    have := congrFun (congrFun hA.eq i) i
    simpa [cj] using this
  have h1 : ∀ i j : Fin n, (jwLower n i * (jwLower n j)ᴴ) *ᵥ Spec.fock (fun _ : Fin n => (0 : Fin 2)) =
      if i = j then Spec.fock (fun _ : Fin n => (0 : Fin 2)) else 0 := by
    intro i j
    rw [eq_sub_of_add_eq (car_mixed i j), sub_mulVec, ← mulVec_mulVec, lower_vac, mulVec_zero, sub_zero]
    split_ifs <;> simp
  rw [hop_eq]
  simp only [Spec.quad, Fin.sum_univ_add, al_left, al_right, conjTranspose_conjTranspose, blk_11, blk_12, blk_21, blk_22,
    Matrix.zero_apply, zero_smul, Finset.sum_const_zero, add_zero, zero_add, add_mulVec, sum_mulVec, smul_mulVec, h1,
    ← mulVec_mulVec, lower_vac, mulVec_zero, smul_zero, Matrix.neg_apply]
  simp only [smul_ite, smul_zero, Finset.sum_ite_eq, Finset.mem_univ, if_true, hd, ← Finset.sum_smul, Finset.sum_neg_distrib]
  rfl

/-- Moving a creation operator through the evolution operator. -/
theorem hop_move {A : Op n} (hA : A.IsHermitian) (z : ℂ) (k : Fin n) :
    expm (z • Spec.quad (buildH n A none) (al n)) * (jwLower n k)ᴴ =
      cr (fun l => expm ((2 * z) • A) l k) * expm (z • Spec.quad (buildH n A none) (al n)) := by
  set Q := Spec.quad (buildH n A none) (al n) with hQ
  have h := heisenberg (-(z • Q)) (((2 * z) • A)ᵀ) (fun k => (jwLower n k)ᴴ) (fun k => by
    have h1 := congrArg (fun X => z • X) (hop_comm hA k)
    simp only [← hQ, smul_sub, Finset.smul_sum, smul_smul] at h1
    have h2 : ∑ l, ((2 * z) • A)ᵀ k l • (jwLower n l)ᴴ = ∑ l, (z * (2 * A l k)) • (jwLower n l)ᴴ := by
      refine Finset.sum_congr rfl fun l _ => ?_
      rw [transpose_apply, Matrix.smul_apply, smul_eq_mul]
      congr 1; ring
    rw [h2, ← h1, Matrix.mul_neg, Matrix.neg_mul, Matrix.mul_smul, Matrix.smul_mul]
    abel) k
  have h1 : expm (z • Q) * expm (-(z • Q)) = 1 := expm_neg_mul _
  have h2 : expm (-(z • Q)) * expm (z • Q) = 1 := by
    have := expm_neg_mul (-(z • Q)); rwa [neg_neg] at this
  have h3 : ∑ l, expm (((2 * z) • A)ᵀ) k l • (jwLower n l)ᴴ = cr (fun l => expm ((2 * z) • A) l k) := by
    rw [cr]
    refine Finset.sum_congr rfl fun l _ => ?_
    rw [expm, expm, Matrix.exp_transpose]; rfl
  rw [h3] at h
  calc expm (z • Q) * (jwLower n k)ᴴ = expm (z • Q) * ((jwLower n k)ᴴ * expm (-(z • Q))) * expm (z • Q) := by
        rw [Matrix.mul_assoc, Matrix.mul_assoc, h2, Matrix.mul_one]
    _ = _ := by rw [h, ← Matrix.mul_assoc, h1, Matrix.one_mul]

theorem hop_prod {A : Op n} (hA : A.IsHermitian) (z : ℂ) : ∀ {N : ℕ} (r : Fin N → Fin n),
    expm (z • Spec.quad (buildH n A none) (al n)) * (List.ofFn fun i => (jwLower n (r i))ᴴ).prod =
      (List.ofFn fun i => cr (fun l => expm ((2 * z) • A) l (r i))).prod * expm (z • Spec.quad (buildH n A none) (al n))
  | 0, r => by simp
  | N + 1, r => by
    rw [List.ofFn_succ, List.prod_cons, ← Matrix.mul_assoc, hop_move hA, Matrix.mul_assoc, hop_prod hA z (fun i => r i.succ),
      List.ofFn_succ (f := fun i => cr _), List.prod_cons, Matrix.mul_assoc]

theorem hop_fock {A : Op n} (hA : A.IsHermitian) (z : ℂ) {N : ℕ} {r : Fin N → Fin n} (hr : StrictMono r) :
    expm (z • Spec.quad (buildH n A none) (al n)) *ᵥ Spec.fock (Spec.occ r) = Complex.exp (-(z * A.trace)) •
      ((List.ofFn fun i => cr (fun l => expm ((2 * z) • A) l (r i))).prod *ᵥ Spec.fock (fun _ : Fin n => (0 : Fin 2))) := by
  rw [← fock_prod hr, mulVec_mulVec, hop_prod hA, ← mulVec_mulVec, expm_eigenvector _ _ (-(z * A.trace)), mulVec_smul]
  rw [smul_mulVec, hop_vac hA, smul_smul, mul_neg]

end fock

end FF
