import Verif.Proofs.PureGauss
import Mathlib.Algebra.Group.Submonoid.Basic
import Mathlib.Algebra.Group.Submonoid.Membership

/-! # Proofs: products of the Jordan-Wigner operators separate operators -/

namespace FF

open Matrix
open scoped ComplexOrder ComplexConjugate

variable {n : ℕ}

/-- The products of the `α`. -/
def alProds (n : ℕ) : Submonoid (Op (2 ^ n)) := Submonoid.closure (Set.range (al n))

theorem al_mem (k : Fin (n + n)) : al n k ∈ alProds n := Submonoid.subset_closure ⟨k, rfl⟩

theorem lower_mem (i : Fin n) : jwLower n i ∈ alProds n := by
  have := al_mem (Fin.natAdd n i)
  rwa [al_right] at this

theorem raise_mem (i : Fin n) : (jwLower n i)ᴴ ∈ alProds n := by
  have := al_mem (Fin.castAdd n i)
  rwa [al_left] at this

theorem prods_conj {X : Op (2 ^ n)} (h : X ∈ alProds n) : Xᴴ ∈ alProds n := by
  induction h using Submonoid.closure_induction with
  | mem x hx =>
    obtain ⟨k, rfl⟩ := hx
    rw [al_conjTranspose]
    exact al_mem _
  | one => rw [conjTranspose_one]; exact one_mem _
  | mul x y _ _ hx hy => rw [conjTranspose_mul]; exact mul_mem hy hx

theorem prods_list {X : Op (2 ^ n)} (h : X ∈ alProds n) : ∃ (m : ℕ) (L : Fin m → Fin (n + n)), X = prodOp (al n) L := by
  obtain ⟨l, hl, rfl⟩ := Submonoid.exists_list_of_mem_closure h
  choose k hk using hl
  refine ⟨l.length, fun i => k l[i] (List.getElem_mem _), ?_⟩
  rw [prodOp]
  congr 1
  apply List.ext_getElem
  · simp
  · intro i h1 h2
    simp only [List.getElem_ofFn]
    exact (hk _ _).symm

/-- Every computational basis state is created from the vacuum by a product. -/
theorem create_fock (b : Fin n → Fin 2) : ∃ X ∈ alProds n, ∃ c : ℂ, c ≠ 0 ∧ X *ᵥ Spec.fock (fun _ => 0) = c • Spec.fock b := by
  classical
  suffices h : ∀ s : Finset (Fin n), ∃ X ∈ alProds n, ∃ c : ℂ, c ≠ 0 ∧
      X *ᵥ Spec.fock (fun _ => 0) = c • Spec.fock (fun i => if i ∈ s then (1 : Fin 2) else 0) by
    obtain ⟨X, hX, c, hc, h1⟩ := h (Finset.univ.filter fun i => b i = 1)
    refine ⟨X, hX, c, hc, h1.trans ?_⟩
    congr 2
    funext i
    simp only [Finset.mem_filter, Finset.mem_univ, true_and]
    split_ifs with h2
    · exact h2.symm
    · have := (b i).2
      apply Fin.ext
      have h3 : (b i : ℕ) ≠ 1 := fun e => h2 (Fin.ext e)
      simp; omega
  intro s
  induction s using Finset.induction_on with
  | empty => exact ⟨1, one_mem _, 1, one_ne_zero, by simp⟩
  | insert i s hi ih =>
    obtain ⟨X, hX, c, hc, h1⟩ := ih
    refine ⟨(jwLower n i)ᴴ * X, mul_mem (raise_mem i) hX,
      c * (-1 : ℂ) ^ (∑ k : Fin n, if k < i then ((if k ∈ s then (1 : Fin 2) else 0 : Fin 2) : ℕ) else 0),
      mul_ne_zero hc (pow_ne_zero _ (by norm_num)), ?_⟩
    · rw [← mulVec_mulVec, h1, mulVec_smul, jwRaise_fock, if_pos (by simp [hi]), smul_smul]
      congr 2
      funext j
      by_cases hj : j = i
      · subst hj; simp
      · simp [Function.update_of_ne hj, hj]

/-- The projector on the vacuum is a product. -/
theorem vacuum_mem (n : ℕ) : Spec.proj (Spec.fock fun _ : Fin n => 0) ∈ alProds n := by
  classical
  set g : ℕ → Op (2 ^ n) := fun j => (jwLower n j)ᴴ with hg
  have hl : ∀ j (hj : j < n), g j = al n (Fin.castAdd n ⟨j, hj⟩) := fun j hj => (al_left n ⟨j, hj⟩).symm
  have hr : ∀ j (hj : j < n), (g j)ᴴ = al n (Fin.natAdd n ⟨j, hj⟩) := fun j hj => by
    rw [al_right, hg, conjTranspose_conjTranspose]
  have hcar : IsCAR g n := by
    refine ⟨fun i hi j hj => ?_, fun i hi j hj => ?_⟩
    · rw [hl i hi, hl j hj, al_anticomm, swapS, blk_11, Matrix.zero_apply, zero_smul]
    · rw [hr i hi, hl j hj, al_anticomm, swapS, blk_21, one_apply]
      simp only [Fin.mk.injEq]
      split_ifs <;> simp
  have hmem : ∀ m, m ≤ n → vacP g m ∈ alProds n := by
    intro m hm
    induction m with
    | zero => exact one_mem _
    | succ m ih =>
      rw [vacP]
      refine mul_mem (ih (by omega)) ?_
      have h1 := hcar.mixed m (by omega) m (by omega)
      rw [if_pos rfl] at h1
      rw [← eq_sub_of_add_eq h1, hr m (by omega), hl m (by omega)]
      exact mul_mem (al_mem _) (al_mem _)
  have hQ3 : (vacP g n).trace = 1 := by
    have := vacP_trace hcar n le_rfl
    push_cast at this
    exact mul_left_cancel₀ (pow_ne_zero n two_ne_zero) (this.trans (mul_one _).symm)
  obtain ⟨ψ, hψ, hQ⟩ := pure_of_rank (vacP_herm hcar le_rfl) (vacP_idem hcar) hQ3
  have hfix : vacP g n *ᵥ Spec.fock (fun _ : Fin n => 0) = Spec.fock fun _ : Fin n => 0 := by
    refine vacP_fix fun i hi => ?_
    rw [hr i hi, al_right, jwLower_fock, if_neg (by simp)]
  set φ := Spec.fock fun _ : Fin n => 0 with hφ
  have h1 : φ = (star ψ ⬝ᵥ φ) • ψ := by
    conv_lhs => rw [← hfix, hQ]
    rw [show Spec.proj ψ = vecMulVec ψ (star ψ) from rfl, vecMulVec_mulVec]
    funext x; simp [mul_comm]
  have h2 : Spec.proj φ = (‖star ψ ⬝ᵥ φ‖ ^ 2 : ℝ) • Spec.proj ψ := by
    set c := star ψ ⬝ᵥ φ
    rw [h1]
    ext x y
    simp only [Spec.proj, of_apply, Pi.smul_apply, smul_eq_mul, star_mul', Matrix.smul_apply, Complex.real_smul]
    have : ((‖c‖ ^ 2 : ℝ) : ℂ) = c * star c := by
      rw [Complex.star_def, Complex.mul_conj, Complex.normSq_eq_norm_sq]
    rw [this]; ring
  have h3 := congrArg trace h2
  rw [trace_smul, proj_trace, proj_trace, hψ, unit_fock, Complex.real_smul] at h3
  have h4 : (‖star ψ ⬝ᵥ φ‖ ^ 2 : ℝ) = 1 := by
    have : ((‖star ψ ⬝ᵥ φ‖ ^ 2 : ℝ) : ℂ) = 1 := by simpa using h3.symm
    exact_mod_cast this
  rw [h2, h4, one_smul, ← hQ]
  exact hmem n le_rfl

/-- An operator orthogonal to all products vanishes. -/
theorem prods_separate {A : Op (2 ^ n)} (h : ∀ (m : ℕ) (L : Fin m → Fin (n + n)), (A * prodOp (al n) L).trace = 0) :
    A = 0 := by
  have h' : ∀ X ∈ alProds n, (A * X).trace = 0 := by
    intro X hX
    obtain ⟨m, L, rfl⟩ := prods_list hX
    exact h m L
  have hfock : ∀ b b' : Fin n → Fin 2, star (Spec.fock b') ⬝ᵥ (A *ᵥ Spec.fock b) = 0 := by
    intro b b'
    obtain ⟨X, hX, c, hc, h1⟩ := create_fock b
    obtain ⟨Y, hY, c', hc', h2⟩ := create_fock b'
    have h3 := h' (X * Spec.proj (Spec.fock fun _ : Fin n => 0) * Yᴴ)
      (mul_mem (mul_mem hX (vacuum_mem n)) (prods_conj hY))
    have h4 : X * Spec.proj (Spec.fock fun _ : Fin n => 0) * Yᴴ = (c * star c') • vecMulVec (Spec.fock b) (star (Spec.fock b')) := by
      rw [show Spec.proj (Spec.fock fun _ : Fin n => 0) = vecMulVec (Spec.fock fun _ : Fin n => 0)
        (star (Spec.fock fun _ : Fin n => 0)) from rfl, mul_vecMulVec, vecMulVec_mul, ← star_mulVec, h1, h2, star_smul,
        smul_vecMulVec, vecMulVec_smul, smul_smul]
    rw [h4, Matrix.mul_smul, trace_smul, mul_vecMulVec, trace_vecMulVec, smul_eq_mul, dotProduct_comm] at h3
    exact (mul_eq_zero.1 h3).resolve_left (mul_ne_zero hc (star_ne_zero.2 hc'))
  ext x y
  have := hfock (Spec.digit 2 n y) (Spec.digit 2 n x)
  rw [fock_eq, fock_eq, ← (eq_bIdx x _).2 rfl, ← (eq_bIdx y _).2 rfl] at this
  simpa using this

/-! ## Wick's theorem determines the state -/

theorem wick_odd {N d : ℕ} {f : Fin N → Op d} {ρ : Op d} (h : Spec.ObeysWick f ρ) {m : ℕ} (hm : Odd m) (L : Fin m → Fin N) :
    (ρ * prodOp f L).trace = 0 := by
  obtain ⟨r, rfl⟩ := hm
  exact (h _ L).trans (contract_odd _ L)

theorem prodOp_snoc {N d : ℕ} (f : Fin N → Op d) {m : ℕ} (L : Fin m → Fin N) (k : Fin N) :
    prodOp f (Fin.snoc L k : Fin (m + 1) → Fin N) = prodOp f L * f k := by
  rw [prodOp, List.ofFn_succ', List.concat_eq_append, List.prod_append, List.prod_singleton, Fin.snoc_last, prodOp]
  congr 3
  funext i
  rw [Fin.snoc_castSucc]

theorem prodOp_cons {N d : ℕ} (f : Fin N → Op d) {m : ℕ} (L : Fin m → Fin N) (k : Fin N) :
    prodOp f (Fin.cons k L : Fin (m + 1) → Fin N) = f k * prodOp f L := by
  rw [prodOp_succ]; rfl

theorem wick_first {N d : ℕ} {f : Fin N → Op d} {ρ : Op d} (h : Spec.ObeysWick f ρ) {m : ℕ} (k : Fin N)
    (L : Fin (m + 1) → Fin N) : (ρ * (f k * prodOp f L)).trace =
      ∑ p : Fin (m + 1), (-1) ^ (p : ℕ) * gam f ρ k (L p) * (ρ * prodOp f (fun i => L (p.succAbove i))).trace := by
  rw [← prodOp_cons]
  refine (h _ _).trans ((contract_two _ _).trans ?_)
  refine Finset.sum_congr rfl fun p _ => ?_
  exact congrArg (fun z => (-1) ^ (p : ℕ) * gam f ρ k (L p) * z) (h _ _).symm

/-- Wick's theorem makes the operators pass through the state linearly, with coefficients from the correlations. -/
theorem wick_kms {ρ : Op (2 ^ n)} (h : Spec.ObeysWick (al n) ρ) (k : Fin (n + n)) :
    ∑ l, (1 - corrP ρ) k l • (ρ * al n l) = ∑ l, corrP ρ k l • (al n l * ρ) := by
  rw [← sub_eq_zero]
  apply prods_separate
  intro m L
  have e1 : ∀ l, (ρ * al n l * prodOp (al n) L).trace = (ρ * (al n l * prodOp (al n) L)).trace := fun l => by
    rw [Matrix.mul_assoc]
  have e2 : ∀ l, (al n l * ρ * prodOp (al n) L).trace = (ρ * (prodOp (al n) L * al n l)).trace := fun l => by
    rw [Matrix.mul_assoc, trace_mul_comm, Matrix.mul_assoc]
  rw [Matrix.sub_mul, trace_sub, Matrix.sum_mul, Matrix.sum_mul, trace_sum, trace_sum]
  simp only [Matrix.smul_mul, trace_smul, smul_eq_mul, e1, e2]
  rcases Nat.even_or_odd m with hm | hm
  · have o1 : ∀ l, (ρ * (al n l * prodOp (al n) L)).trace = 0 := fun l => by
      rw [← prodOp_cons]; exact wick_odd h hm.add_one _
    have o2 : ∀ l, (ρ * (prodOp (al n) L * al n l)).trace = 0 := fun l => by
      rw [← prodOp_snoc]; exact wick_odd h hm.add_one _
    simp [o1, o2]
  · obtain ⟨r, rfl⟩ := hm
    set G := gam (al n) ρ with hG
    set T : Fin (n + n) → ℂ := fun j => ∑ p : Fin (2 * r + 1), if L p = j then
      (-1) ^ (p : ℕ) * (ρ * prodOp (al n) (fun i => L (p.succAbove i))).trace else 0 with hT
    have expand : ∀ (A : Op (n + n)) l, ∑ p : Fin (2 * r + 1), (-1) ^ (p : ℕ) * A l (L p) *
        (ρ * prodOp (al n) (fun i => L (p.succAbove i))).trace = (A *ᵥ T) l := by
      intro A l
      simp only [mulVec, dotProduct, hT, Finset.mul_sum]
      rw [Finset.sum_comm]
      refine Finset.sum_congr rfl fun p _ => ?_
      simp only [mul_ite, mul_zero, Finset.sum_ite_eq, Finset.mem_univ, if_true]
      ring
    have o1 : ∀ l, (ρ * (al n l * prodOp (al n) L)).trace = (G *ᵥ T) l := fun l => by
      rw [wick_first h, expand]
    have o2 : ∀ l, (ρ * (prodOp (al n) L * al n l)).trace = ((swapS n - G) *ᵥ T) l := fun l => by
      have e := car_prod (al_anticomm (n := n)) l L
      rw [pow_succ, (even_two_mul r).neg_one_pow, one_mul, neg_smul, one_smul] at e
      have e' : prodOp (al n) L * al n l = ∑ p : Fin (2 * r + 1), ((-1) ^ (p : ℕ) * swapS n l (L p)) •
          prodOp (al n) (fun i => L (p.succAbove i)) - al n l * prodOp (al n) L := by rw [e]; abel
      rw [e', Matrix.mul_sub, trace_sub, Matrix.mul_sum, trace_sum, o1, sub_mulVec, Pi.sub_apply, ← expand (swapS n)]
      simp only [Matrix.mul_smul, trace_smul, smul_eq_mul]
    have hPG : corrP ρ * swapS n = G := by
      ext i j
      rw [mul_swapS, corrP, of_apply, al_conjTranspose, fl_fl]; rfl
    have hfin : ((1 - corrP ρ) * G - corrP ρ * (swapS n - G)) *ᵥ T = 0 := by
      have : (1 - corrP ρ) * G - corrP ρ * (swapS n - G) = 0 := by
        rw [Matrix.sub_mul, one_mul, Matrix.mul_sub, hPG]; abel
      rw [this, zero_mulVec]
    have := congrFun hfin k
    rw [sub_mulVec, ← mulVec_mulVec, ← mulVec_mulVec] at this
    simp only [o1, o2]
    exact this

theorem wick_unique {ρ ρ' : Op (2 ^ n)} (h : Spec.ObeysWick (al n) ρ) (h' : Spec.ObeysWick (al n) ρ')
    (hG : gam (al n) ρ = gam (al n) ρ') : ρ = ρ' := by
  rw [← sub_eq_zero]
  apply prods_separate
  intro m L
  rw [Matrix.sub_mul, trace_sub, sub_eq_zero]
  refine (h m L).trans (Eq.trans ?_ (h' m L).symm)
  exact congrArg (fun G => Spec.contract G m L) hG

/-- In a pure state that obeys Wick's theorem the correlations form a projection. -/
theorem wick_pure_proj {ψ : Fin (2 ^ n) → ℂ} (hψ : Spec.IsUnitVec ψ) (h : Spec.ObeysWick (al n) (Spec.proj ψ)) :
    corrP (Spec.proj ψ) * corrP (Spec.proj ψ) = corrP (Spec.proj ψ) := by
  set ρ := Spec.proj ψ with hρ
  have htr : ρ.trace = 1 := by rw [hρ, proj_trace, hψ]; norm_num
  obtain ⟨U, l, u1, u2, u3, -⟩ := herm_diag (X := corrP ρ) (corr_herm (proj_herm ψ))
  have hUP : Uᴴ * corrP ρ = diagonal (fun i => (l i : ℂ)) * Uᴴ := by
    rw [u3, ← Matrix.mul_assoc, ← Matrix.mul_assoc, u2, one_mul]
  have hsand : ∀ X : Op (2 ^ n), ρ * X * ρ = (ρ * X).trace • ρ := by
    intro X
    have e : ρ = vecMulVec ψ (star ψ) := rfl
    rw [e, Matrix.mul_assoc, mul_vecMulVec, vecMulVec_mul_vecMulVec, vecMulVec_smul, vecMulVec_mul, trace_vecMulVec]
    congr 1
    rw [dotProduct_mulVec, dotProduct_comm]
  have hkms : ∀ i, ((1 - l i : ℝ) : ℂ) • (ρ * comb (Uᴴ i)) = (l i : ℂ) • (comb (Uᴴ i) * ρ) := by
    intro i
    have hk := wick_kms h
    have c1 : ∀ A : Op (n + n), ∑ k, Uᴴ i k • ∑ m, A k m • (ρ * al n m) = ∑ m, (Uᴴ * A) i m • (ρ * al n m) := fun A => by
      simp only [Finset.smul_sum, smul_smul, mul_apply, Finset.sum_smul]
      rw [Finset.sum_comm]
    have c2 : ∀ A : Op (n + n), ∑ k, Uᴴ i k • ∑ m, A k m • (al n m * ρ) = ∑ m, (Uᴴ * A) i m • (al n m * ρ) := fun A => by
      simp only [Finset.smul_sum, smul_smul, mul_apply, Finset.sum_smul]
      rw [Finset.sum_comm]
    have h1 := Finset.sum_congr (s₁ := Finset.univ) rfl fun k _ => congrArg (Uᴴ i k • ·) (hk k)
    rw [c1, c2, Matrix.mul_sub, mul_one, hUP] at h1
    simp only [Matrix.sub_apply, diagonal_mul] at h1
    rw [comb, Matrix.mul_sum, Matrix.sum_mul, Finset.smul_sum, Finset.smul_sum]
    convert h1 using 2 with m _ m _
    · rw [Matrix.mul_smul, smul_smul]; push_cast; congr 1; ring
    · rw [Matrix.smul_mul, smul_smul]
  have hl : ∀ i, l i = 0 ∨ l i = 1 := by
    intro i
    by_contra hcon
    push Not at hcon
    obtain ⟨h0, h1⟩ := hcon
    have hr : ρ * ρ = ρ := by
      have := hsand 1
      rwa [mul_one, htr, one_smul] at this
    have hodd : (ρ * comb (Uᴴ i)).trace = 0 := by
      rw [comb, Matrix.mul_sum, trace_sum]
      refine Finset.sum_eq_zero fun m _ => ?_
      have := wick_odd h odd_one fun _ => m
      rw [prodOp_succ, prodOp_zero, mul_one] at this
      rw [Matrix.mul_smul, trace_smul, this, smul_zero]
    have h2 := congrArg (· * ρ) (hkms i)
    simp only [Matrix.smul_mul, Matrix.mul_assoc, hr] at h2
    rw [← Matrix.mul_assoc, hsand, hodd, zero_smul, smul_zero] at h2
    have h3 : comb (Uᴴ i) * ρ = 0 := (smul_eq_zero.1 h2.symm).resolve_left (by exact_mod_cast h0)
    have h4 : ρ * comb (Uᴴ i) = 0 := by
      have := hkms i
      rw [h3, smul_zero] at this
      exact (smul_eq_zero.1 this).resolve_left (by exact_mod_cast sub_ne_zero.2 (Ne.symm h1))
    have h5 := corr_quad Uᴴ ρ i i
    rw [← Matrix.mul_assoc ρ, h4, zero_mul, trace_zero, hUP, Matrix.mul_assoc, conjTranspose_conjTranspose, u2, mul_one,
      diagonal_apply_eq] at h5
    exact h0 (by exact_mod_cast h5)
  have hDD : diagonal (fun i => (l i : ℂ)) * diagonal (fun i => (l i : ℂ)) = diagonal (fun i => (l i : ℂ)) := by
    rw [diagonal_mul_diagonal]
    congr 1
    funext i
    rcases hl i with h | h <;> simp [h]
  rw [u3]
  calc _ = U * diagonal (fun i => (l i : ℂ)) * (Uᴴ * U) * diagonal (fun i => (l i : ℂ)) * Uᴴ := by
        simp only [Matrix.mul_assoc]
    _ = U * (diagonal (fun i => (l i : ℂ)) * diagonal (fun i => (l i : ℂ))) * Uᴴ := by
        rw [u2, mul_one, Matrix.mul_assoc U]
    _ = _ := by rw [hDD]

end FF
