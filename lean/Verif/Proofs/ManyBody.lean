import Verif.Proofs.PureGauss
import Mathlib.LinearAlgebra.Matrix.Charpoly.Coeff
import Mathlib.Algebra.BigOperators.Ring.Finset

/-! # Proofs: the joint diagonalisation of the occupation numbers of `n` modes -/

namespace FF

open Matrix
open scoped ComplexOrder

variable {n : ℕ}

/-- Exchange creation and annihilation for the modes in `c`. -/
def flipC {d : ℕ} (g : ℕ → Op d) (c : Fin n → Bool) (k : ℕ) : Op d :=
  if h : k < n then if c ⟨k, h⟩ then (g k)ᴴ else g k else g k

theorem flipC_apply {d : ℕ} (g : ℕ → Op d) (c : Fin n → Bool) (k : Fin n) :
    flipC g c k = if c k then (g k)ᴴ else g k := by
  rw [flipC, dif_pos k.2]

theorem IsCAR.flip {d : ℕ} {g : ℕ → Op d} (h : IsCAR g n) (c : Fin n → Bool) : IsCAR (flipC g c) n := by
  have hm : ∀ i < n, ∀ j < n, g i * (g j)ᴴ + (g j)ᴴ * g i = if i = j then 1 else 0 := fun i hi j hj => by
    rw [add_comm, h.mixed j hj i hi]
    simp only [eq_comm]
  have key : ∀ i (hi : i < n) j (hj : j < n), i ≠ j → flipC g c i * flipC g c j + flipC g c j * flipC g c i = 0 ∧
      (flipC g c i)ᴴ * flipC g c j + flipC g c j * (flipC g c i)ᴴ = 0 := by
    intro i hi j hj hij
    have e1 := h.anti i hi j hj
    have e2 := h.antiH hi hj
    have e3 := h.mixed i hi j hj
    have e4 := hm i hi j hj
    rw [if_neg hij] at e3 e4
    have f1 : flipC g c i = if c ⟨i, hi⟩ then (g i)ᴴ else g i := flipC_apply g c ⟨i, hi⟩
    have f2 : flipC g c j = if c ⟨j, hj⟩ then (g j)ᴴ else g j := flipC_apply g c ⟨j, hj⟩
    rw [f1, f2]
    split_ifs <;> (try simp only [conjTranspose_conjTranspose]) <;> exact ⟨by assumption, by assumption⟩
  refine ⟨fun i hi j hj => ?_, fun i hi j hj => ?_⟩
  · by_cases hij : i = j
    · subst hij
      have f1 : flipC g c i = if c ⟨i, hi⟩ then (g i)ᴴ else g i := flipC_apply g c ⟨i, hi⟩
      rw [f1]
      split_ifs
      · exact h.antiH hi hi
      · exact h.anti i hi i hi
    · exact (key i hi j hj hij).1
  · by_cases hij : i = j
    · subst hij
      have f1 : flipC g c i = if c ⟨i, hi⟩ then (g i)ᴴ else g i := flipC_apply g c ⟨i, hi⟩
      rw [f1, if_pos rfl]
      split_ifs
      · rw [conjTranspose_conjTranspose, hm i hi i hi, if_pos rfl]
      · rw [h.mixed i hi i hi, if_pos rfl]
    · rw [if_neg hij]; exact (key i hi j hj hij).2

/-- The occupation numbers of `n` modes on a space of dimension `2^n` are jointly diagonalised by a unitary matrix, and
every occupation pattern occurs exactly once. -/
theorem many_body {g : ℕ → Op (2 ^ n)} (h : IsCAR g n) : ∃ (V : Op (2 ^ n)) (e : (Fin n → Bool) ≃ Fin (2 ^ n)),
    V * Vᴴ = 1 ∧ ∀ k : Fin n, g k * (g k)ᴴ = V * diagonal (fun x => if e.symm x k then (1 : ℂ) else 0) * Vᴴ := by
  classical
  have hP : ∀ c : Fin n → Bool, ∃ ψ, Spec.IsUnitVec ψ ∧ vacP (flipC g c) n = Spec.proj ψ := by
    intro c
    have hc := h.flip c
    refine pure_of_rank (vacP_herm hc le_rfl) (vacP_idem hc) ?_
    have := vacP_trace hc n le_rfl
    push_cast at this
    exact mul_left_cancel₀ (pow_ne_zero n two_ne_zero) (this.trans (mul_one _).symm)
  choose ψ hψ hPψ using hP
  have hN : ∀ (c : Fin n → Bool) (k : Fin n), (g k * (g k)ᴴ) *ᵥ ψ c = (if c k then (1 : ℂ) else 0) • ψ c := by
    intro c k
    have hk := vacP_kill (h.flip c) le_rfl k.2
    rw [flipC_apply, hPψ] at hk
    have hk' : (if c k then (g k)ᴴ else g k)ᴴ *ᵥ ψ c = 0 := by
      have h1 := congrArg (· *ᵥ ψ c) hk
      simp only [zero_mulVec] at h1
      rw [← mulVec_mulVec] at h1
      have h2 : Spec.proj (ψ c) *ᵥ ψ c = ψ c := by
        have e : Spec.proj (ψ c) = vecMulVec (ψ c) (star (ψ c)) := rfl
        have h3 : star (ψ c) ⬝ᵥ ψ c = 1 := by
          have := hψ c
          rw [Spec.IsUnitVec] at this
          have h4 : ∑ i, ((‖ψ c i‖ ^ 2 : ℝ) : ℂ) = 1 := by exact_mod_cast this
          rw [← h4, dotProduct]
          refine Finset.sum_congr rfl fun i _ => ?_
          rw [Pi.star_apply, Complex.star_def, mul_comm, Complex.mul_conj, Complex.normSq_eq_norm_sq]
        rw [e, vecMulVec_mulVec, h3]
        simp
      rwa [h2] at h1
    split_ifs at hk' with hc
    · rw [conjTranspose_conjTranspose] at hk'
      have h1 := h.mixed k k.2 k k.2
      rw [if_pos rfl] at h1
      rw [← eq_sub_iff_add_eq'] at h1
      rw [h1, sub_mulVec, one_mulVec, ← mulVec_mulVec, hk', mulVec_zero, sub_zero, if_pos hc, one_smul]
    · rw [← mulVec_mulVec, hk', mulVec_zero, if_neg hc, zero_smul]
  have horth : ∀ c c', star (ψ c) ⬝ᵥ ψ c' = if c = c' then 1 else 0 := by
    intro c c'
    split_ifs with hcc
    · subst hcc
      have h4 : ∑ i, ((‖ψ c i‖ ^ 2 : ℝ) : ℂ) = 1 := by exact_mod_cast hψ c
      rw [← h4, dotProduct]
      refine Finset.sum_congr rfl fun i _ => ?_
      rw [Pi.star_apply, Complex.star_def, mul_comm, Complex.mul_conj, Complex.normSq_eq_norm_sq]
    · obtain ⟨k, hk⟩ := Function.ne_iff.1 hcc
      have h1 : star (ψ c) ⬝ᵥ ((g k * (g k)ᴴ) *ᵥ ψ c') = star ((g k * (g k)ᴴ) *ᵥ ψ c) ⬝ᵥ ψ c' := by
        rw [star_mulVec, conjTranspose_mul, conjTranspose_conjTranspose, dotProduct_mulVec]
      rw [hN, hN, dotProduct_smul, star_smul, smul_dotProduct, smul_eq_mul, smul_eq_mul] at h1
      cases hb : c k <;> cases hb' : c' k <;> simp_all
  have hcard : Fintype.card (Fin n → Bool) = 2 ^ n := by simp
  let e : (Fin n → Bool) ≃ Fin (2 ^ n) := Fintype.equivFinOfCardEq hcard
  let V : Op (2 ^ n) := Matrix.of fun x y => ψ (e.symm y) x
  have hV : Vᴴ * V = 1 := by
    ext x y
    rw [mul_apply, one_apply]
    have := horth (e.symm x) (e.symm y)
    rw [dotProduct] at this
    simp only [e.symm.injective.eq_iff] at this
    exact this
  refine ⟨V, e, mul_eq_one_comm.1 hV, fun k => ?_⟩
  have h1 : g k * (g k)ᴴ * V = V * diagonal (fun x => if e.symm x k then (1 : ℂ) else 0) := by
    ext x y
    rw [mul_diagonal, mul_apply]
    have := congrFun (hN (e.symm y) k) x
    rw [mulVec, dotProduct] at this
    exact this.trans (mul_comm _ _)
  rw [← h1, Matrix.mul_assoc, mul_eq_one_comm.1 hV, mul_one]

/-- The modes of a canonical unitary matrix. -/
theorem modes_car {U : Op (n + n)} (hc : IsCanonicalU U) (hU : U * Uᴴ = 1) :
    IsCAR (fun k => if h : k < n then comb (Uᴴ (Fin.castAdd n ⟨k, h⟩)) else 0) n ∧
    ∀ k : Fin n, (comb (Uᴴ (Fin.castAdd n k)))ᴴ = comb (Uᴴ (Fin.natAdd n k)) := by
  have hU' : Uᴴ * U = 1 := mul_eq_one_comm.1 hU
  have hconj : ∀ k : Fin (n + n), (comb (Uᴴ k))ᴴ = comb (Uᴴ (fl k)) := by
    intro k
    rw [comb_conj]
    congr 1
    funext l
    rw [conjTranspose_apply, conjTranspose_apply, star_star]
    have := canonicalU_entries hc l (fl k)
    rw [fl_fl] at this
    exact this
  have hac : ∀ i j : Fin (n + n), comb (Uᴴ i) * comb (Uᴴ j) + comb (Uᴴ j) * comb (Uᴴ i) =
      if i = fl j then (1 : Op (2 ^ n)) else 0 := by
    intro i j
    rw [comb_anticomm, dot_swapS]
    have h1 : ∑ l, Uᴴ i l * Uᴴ j (fl l) = (Uᴴ * U) i (fl j) := by
      rw [mul_apply]
      refine Finset.sum_congr rfl fun l _ => ?_
      congr 1
      rw [conjTranspose_apply]
      have := canonicalU_entries hc (fl l) j
      rw [fl_fl] at this
      exact this.symm
    rw [h1, hU', one_apply]
    split_ifs <;> simp
  refine ⟨⟨fun i hi j hj => ?_, fun i hi j hj => ?_⟩, fun k => by rw [hconj, fl_left]⟩
  · simp only [dif_pos hi, dif_pos hj]
    rw [hac, if_neg]
    rw [fl_left]
    intro h
    have := congrArg Fin.val h
    simp at this
    omega
  · simp only [dif_pos hi, dif_pos hj]
    rw [hconj, hac, fl_left, fl_left]
    have : (Fin.natAdd n (⟨i, hi⟩ : Fin n) = Fin.natAdd n (⟨j, hj⟩ : Fin n)) ↔ i = j := by
      rw [(Fin.natAdd_injective n n).eq_iff, Fin.mk.injEq]
    simp only [this]

/-- A quadratic form that is diagonalised by `U` is a sum over its modes. -/
theorem quad_modes {H U : Op (n + n)} {l : Fin (n + n) → ℂ} (h : H = U * diagonal l * Uᴴ) :
    Spec.quad H (al n) = ∑ k, l k • ((comb (Uᴴ k))ᴴ * comb (Uᴴ k)) := by
  have h1 : ∀ i j, H i j = ∑ k, U i k * l k * star (U j k) := by
    intro i j
    rw [h, mul_apply]
    refine Finset.sum_congr rfl fun k _ => ?_
    rw [mul_diagonal, conjTranspose_apply]
  have h2 : ∀ k, (comb (Uᴴ k))ᴴ * comb (Uᴴ k) = ∑ i, ∑ j, (U i k * star (U j k)) • ((al n i)ᴴ * al n j) := by
    intro k
    rw [comb, conjTranspose_sum, Matrix.sum_mul]
    refine Finset.sum_congr rfl fun i _ => ?_
    rw [Matrix.mul_sum]
    refine Finset.sum_congr rfl fun j _ => ?_
    rw [conjTranspose_smul, Matrix.smul_mul, Matrix.mul_smul, smul_smul, conjTranspose_apply, conjTranspose_apply, star_star]
  simp only [Spec.quad, h1, h2, Finset.sum_smul, Finset.smul_sum, smul_smul]
  symm
  refine Finset.sum_comm.trans (Finset.sum_congr rfl fun i _ => Finset.sum_comm.trans (Finset.sum_congr rfl fun j _ =>
    Finset.sum_congr rfl fun k _ => ?_))
  congr 1; ring

/-- The many-body spectrum of a quadratic form in standard form. -/
theorem quad_spectrum {H U : Op (n + n)} {s : Fin n → ℝ} (hc : IsCanonicalU U) (hU : U * Uᴴ = 1)
    (hL : Uᴴ * H * U = Spec.standardForm s) : ∃ (V : Op (2 ^ n)) (e : (Fin n → Bool) ≃ Fin (2 ^ n)), V * Vᴴ = 1 ∧
      Spec.quad H (al n) = ∑ k, ((s k : ℝ) : ℂ) • ((2 : ℂ) • (comb (Uᴴ (Fin.castAdd n k)) * (comb (Uᴴ (Fin.castAdd n k)))ᴴ) - 1) ∧
      Spec.quad H (al n) = V * diagonal (fun x => ((∑ k, if e.symm x k then s k else -s k : ℝ) : ℂ)) * Vᴴ := by
  obtain ⟨hcar, hconj⟩ := modes_car hc hU
  obtain ⟨V, e, hV, hN⟩ := many_body hcar
  have hN' : ∀ k : Fin n, comb (Uᴴ (Fin.castAdd n k)) * (comb (Uᴴ (Fin.castAdd n k)))ᴴ =
      V * diagonal (fun x => if e.symm x k then (1 : ℂ) else 0) * Vᴴ := fun k => by
    have := hN k
    simp only [dif_pos k.2] at this
    exact this
  have hH : H = U * Spec.standardForm s * Uᴴ := by
    rw [← hL]
    calc H = (U * Uᴴ) * H * (U * Uᴴ) := by rw [hU, one_mul, mul_one]
      _ = _ := by simp only [Matrix.mul_assoc]
  have h1 : Spec.quad H (al n) =
      ∑ k, ((s k : ℝ) : ℂ) • ((2 : ℂ) • (comb (Uᴴ (Fin.castAdd n k)) * (comb (Uᴴ (Fin.castAdd n k)))ᴴ) - 1) := by
    rw [quad_modes hH, Fin.sum_univ_add, ← Finset.sum_add_distrib]
    refine Finset.sum_congr rfl fun k _ => ?_
    have hm := hcar.mixed k k.2 k k.2
    simp only [dif_pos k.2, if_true] at hm
    change (comb (Uᴴ (Fin.castAdd n k)))ᴴ * comb (Uᴴ (Fin.castAdd n k)) +
      comb (Uᴴ (Fin.castAdd n k)) * (comb (Uᴴ (Fin.castAdd n k)))ᴴ = 1 at hm
    rw [← eq_sub_iff_add_eq] at hm
    rw [← hconj k, conjTranspose_conjTranspose, hm, Fin.append_left, Fin.append_right, two_smul]
    push_cast
    module
  refine ⟨V, e, hV, h1, ?_⟩
  rw [h1]
  have h2 : diagonal (fun x => ((∑ k, if e.symm x k then s k else -s k : ℝ) : ℂ)) =
      ∑ k, ((s k : ℝ) : ℂ) • ((2 : ℂ) • diagonal (fun x => if e.symm x k then (1 : ℂ) else 0) - (1 : Op (2 ^ n))) := by
    ext x y
    rw [Matrix.sum_apply]
    simp only [Matrix.smul_apply, Matrix.sub_apply, diagonal_apply, one_apply, smul_eq_mul]
    split_ifs with hxy
    · push_cast
      refine Finset.sum_congr rfl fun k _ => ?_
      split_ifs <;> push_cast <;> ring
    · simp
  rw [h2, Matrix.mul_sum, Matrix.sum_mul]
  refine Finset.sum_congr rfl fun k _ => ?_
  rw [hN', Matrix.mul_smul, Matrix.smul_mul, Matrix.mul_sub, Matrix.sub_mul, mul_one, hV, Matrix.mul_smul, Matrix.smul_mul]

theorem charpoly_unitary {d : ℕ} {V D : Op d} (hV : V * Vᴴ = 1) : (V * D * Vᴴ).charpoly = D.charpoly := by
  have hV' : Vᴴ * V = 1 := mul_eq_one_comm.1 hV
  rw [Matrix.charpoly_mul_comm, ← Matrix.mul_assoc, hV', one_mul]

theorem sum_patterns (s : Fin n → ℝ) :
    ∑ c : Fin n → Bool, Real.exp (-∑ k, if c k then s k else -s k) = ∏ k, 2 * Real.cosh (s k) := by
  have h1 : ∀ k, 2 * Real.cosh (s k) = ∑ b : Bool, Real.exp (-(if b then s k else -s k)) := by
    intro k
    rw [Fintype.sum_bool, Real.cosh_eq]
    simp
    ring
  simp only [h1]
  rw [Finset.prod_univ_sum]
  simp only [Fintype.piFinset_univ]
  refine Finset.sum_congr rfl fun c _ => ?_
  rw [← Finset.sum_neg_distrib, Real.exp_sum]

end FF
