import Verif.Proofs.Hadamard
import Verif.Props.Machine

/-! # Property C154: how large determinants, permanents, Pfaffians and hafnians can be, and which arrays are small enough for the machine -/

namespace FF.Props

open Matrix Equiv Finset

variable {n : ℕ}

/-- C154. Hadamard's inequality: the modulus of `dt(A)` is at most the product of the lengths of the rows, with equality exactly if a row is zero
or the rows are orthogonal. -/
theorem C154_hadamard (A : Matrix (Fin n) (Fin n) ℂ) :
    ∃ d, dt A = .ok d ∧ ‖d‖ ≤ ∏ i, √(∑ j, ‖A i j‖ ^ 2) ∧
      (‖d‖ = ∏ i, √(∑ j, ‖A i j‖ ^ 2) ↔ (∃ i, ∀ j, A i j = 0) ∨ ∀ i k, i ≠ k → ∑ j, A i j * star (A k j) = 0) :=
  ⟨_, C02_dt_eq_det A, det_hadamard A⟩

/-- C154. The modulus of `pf(A)`, for a skew-symmetric array, is at most the square root of the product of the lengths of the rows. -/
theorem C154_pfaffian (A : Matrix (Fin n) (Fin n) ℂ) (hA : Aᵀ = -A) :
    ∃ x, pf A = .ok x ∧ ‖x‖ ≤ √(∏ i, √(∑ j, ‖A i j‖ ^ 2)) := by
  obtain ⟨x, h1, h2⟩ := C05_pf_sq A hA
  obtain ⟨d, h3, h4, -⟩ := C154_hadamard A
  obtain rfl : x ^ 2 = d := Except.ok.inj (h2.symm.trans h3)
  rw [norm_pow] at h4
  exact ⟨x, h1, Real.le_sqrt_of_sq_le h4⟩

/-- C154. The modulus of `pt(A)` is at most the product, over the rows, of the sums of the moduli, and so is that of `dt(A)`. -/
theorem C154_permanent (A : Matrix (Fin n) (Fin n) ℂ) :
    ∃ p d, pt A = .ok p ∧ dt A = .ok d ∧ ‖p‖ ≤ ∏ i, ∑ j, ‖A i j‖ ∧ ‖d‖ ≤ ∏ i, ∑ j, ‖A i j‖ := by
  refine ⟨_, _, by rw [← (C03_pt_invariant A 1 1).1]; exact C03_pt_eq_permanent Aᵀ, C02_dt_eq_det A, ?_, ?_⟩
  · refine le_trans ?_ (perm_row_sums fun i j => norm_nonneg (A i j))
    refine (norm_sum_le _ _).trans (le_of_eq (sum_congr rfl fun σ _ => ?_))
    rw [norm_prod]
    rfl
  · refine le_trans ?_ (perm_row_sums fun i j => norm_nonneg (A i j))
    rw [← det_transpose, det_apply']
    refine (norm_sum_le _ _).trans (le_of_eq (sum_congr rfl fun σ _ => ?_))
    rw [norm_mul, norm_prod]
    rcases Int.units_eq_one_or (Perm.sign σ) with h | h <;> simp [h, transpose_apply]

/-- C154. If no entry of an array with `2m` rows exceeds `M`, the moduli of `pf` and `hf` are at most `(2m)! / (2^m m!) M^m`, and this is the
value of `hf` for the array of entries `M`. -/
theorem C154_matchings {m : ℕ} (A : Matrix (Fin (2 * m)) (Fin (2 * m)) ℂ) {M : ℝ} (h : ∀ i j, ‖A i j‖ ≤ M) :
    (∃ x, hf A = .ok x ∧ ‖x‖ ≤ (2 * m).factorial / (2 ^ m * m.factorial) * M ^ m) ∧
    (∃ x, pf A = .ok x ∧ ‖x‖ ≤ (2 * m).factorial / (2 ^ m * m.factorial) * M ^ m) ∧
    hf (Matrix.of fun _ _ => (M : ℂ) : Matrix (Fin (2 * m)) (Fin (2 * m)) ℂ) = .ok ((2 * m).factorial / (2 ^ m * m.factorial) * M ^ m) := by
  have hd : (0 : ℝ) < 2 ^ m * m.factorial := by positivity
  refine ⟨⟨_, hf_ok A, ?_⟩, ⟨_, pf_ok A, ?_⟩, ?_⟩
  · rw [div_mul_eq_mul_div, le_div_iff₀ hd]; exact hfVal_bound h
  · rw [div_mul_eq_mul_div, le_div_iff₀ hd]; exact pfVal_bound h
  · rw [hf_ok, hfVal]
    simp only [of_apply, prod_const, card_univ, Fintype.card_fin, sum_const, Fintype.card_perm, nsmul_eq_mul]
    rw [div_mul_eq_mul_div]

/-- C154. For an array of 64-bit integers, `dt` and `pt` are exact if the product of the row sums of the absolute values is less than `2^63`. -/
theorem C154_int64 (A : Matrix (Fin n) (Fin n) ℤ) (h : ∏ i, ∑ j, |A i j| < 2 ^ 63) :
    dtOn int64 A = .ok A.det ∧ ptOn int64 A = .ok A.permanent := by
  have h1 : |A.det| ≤ ∏ i, ∑ j, |A i j| := by
    refine le_trans ?_ (perm_row_sums fun i j => abs_nonneg (A i j))
    rw [← det_transpose, det_apply']
    refine (abs_sum_le_sum_abs _ _).trans (le_of_eq (sum_congr rfl fun σ _ => ?_))
    rw [abs_mul, abs_prod]
    rcases Int.units_eq_one_or (Perm.sign σ) with h | h <;> simp [h, transpose_apply]
  have h2 : |A.permanent| ≤ ∏ i, ∑ j, |A i j| := by
    refine le_trans ?_ (perm_row_sums fun i j => abs_nonneg (A i j))
    rw [← permanent_transpose, permanent]
    refine (abs_sum_le_sum_abs _ _).trans (le_of_eq (sum_congr rfl fun σ _ => ?_))
    rw [abs_prod]
    rfl
  have a1 := abs_le.1 h1
  have a2 := abs_le.1 h2
  exact ⟨(C110_exact_iff A).1.2 ⟨by linarith, by linarith⟩, (C110_exact_iff A).2.2 ⟨by linarith, by linarith⟩⟩

/-- The sum over all permutations of an array with entries -1, 0 and 1. -/
theorem perm_units {A : Matrix (Fin n) (Fin n) ℤ} (hA : ∀ i j, |A i j| ≤ 1) : ∑ σ : Perm (Fin n), ∏ i, |A i (σ i)| ≤ n.factorial := by
  refine (sum_le_card_nsmul univ _ 1 fun σ _ => prod_le_one (fun _ _ => abs_nonneg _) fun _ _ => hA _ _).trans (le_of_eq ?_)
  rw [card_univ, Fintype.card_perm, Fintype.card_fin, nsmul_one]

/-- C154. For an array of the 64-bit integers -1, 0 and 1, `dt` is exact for up to 26 rows and `pt` for up to 20. -/
theorem C154_units (A : Matrix (Fin n) (Fin n) ℤ) (hA : ∀ i j, |A i j| ≤ 1) :
    (n ≤ 26 → dtOn int64 A = .ok A.det) ∧ (n ≤ 20 → ptOn int64 A = .ok A.permanent) := by
  refine ⟨fun hn => ?_, fun hn => ?_⟩
  · have h := (det_hadamard (A.map (Int.cast : ℤ → ℂ))).1
    have e : (A.map (Int.cast : ℤ → ℂ)).det = ((A.det : ℤ) : ℂ) := (Int.cast_det A).symm
    rw [e, Complex.norm_intCast] at h
    have h2 : ∏ i, √(∑ j, ‖(A.map (Int.cast : ℤ → ℂ)) i j‖ ^ 2) ≤ 26 ^ 13 := by
      calc ∏ i, √(∑ j, ‖(A.map (Int.cast : ℤ → ℂ)) i j‖ ^ 2) ≤ ∏ _i : Fin n, √26 := by
            refine prod_le_prod (fun _ _ => Real.sqrt_nonneg _) fun i _ => Real.sqrt_le_sqrt ?_
            refine (sum_le_card_nsmul univ _ 1 fun j _ => ?_).trans ?_
            · rw [map_apply, Complex.norm_intCast]
              have : |((A i j : ℤ) : ℝ)| ≤ 1 := by exact_mod_cast hA i j
              exact pow_le_one₀ (abs_nonneg _) this
            · rw [card_univ, Fintype.card_fin, nsmul_one]; exact_mod_cast hn
        _ = √26 ^ n := by simp
        _ ≤ √26 ^ 26 := pow_le_pow_right₀ (Real.one_le_sqrt.2 (by norm_num)) hn
        _ = 26 ^ 13 := by rw [show (26 : ℕ) = 2 * 13 from rfl, pow_mul, Real.sq_sqrt (by norm_num)]
    have h3 : |A.det| ≤ 26 ^ 13 := by exact_mod_cast h.trans h2
    have := abs_le.1 h3
    refine (C110_exact_iff A).1.2 ⟨?_, ?_⟩ <;> norm_num at this ⊢ <;> omega
  · have h2 : |A.permanent| ≤ n.factorial := by
      refine le_trans ?_ (perm_units hA)
      rw [← permanent_transpose, permanent]
      refine (abs_sum_le_sum_abs _ _).trans (le_of_eq (sum_congr rfl fun σ _ => ?_))
      rw [abs_prod]
      rfl
    have h3 : (n.factorial : ℤ) ≤ (20).factorial := by exact_mod_cast Nat.factorial_le hn
    have h4 : ((20).factorial : ℤ) = 2432902008176640000 := by norm_num [Nat.factorial]
    have := abs_le.1 h2
    refine (C110_exact_iff A).2.2 ⟨?_, ?_⟩ <;> norm_num at this ⊢ <;> omega

/-- C154. 20 rows are the limit for `pt`: the permanent of the array of 21 rows of ones is `21!`, but `pt` returns another number. -/
theorem C154_limit : let A : Matrix (Fin 21) (Fin 21) ℤ := Matrix.of fun _ _ => 1
    A.permanent = (21).factorial ∧ ptOn int64 A ≠ .ok A.permanent := by
  intro A
  have h : A.permanent = (21).factorial := by
    rw [permanent]
    simp only [A, of_apply, prod_const_one, sum_const, card_univ, Fintype.card_perm, Fintype.card_fin, nsmul_one]
  refine ⟨h, fun h2 => ?_⟩
  have := ((C110_exact_iff A).2.1 h2).2
  rw [h] at this
  norm_num [Nat.factorial] at this

/-- C154. For an array of the floats -1, 0 and 1, `dt` and `pt` are exact for up to 18 rows. -/
theorem C154_units_float (A : Matrix (Fin n) (Fin n) ℤ) (hA : ∀ i j, |A i j| ≤ 1) (hn : n ≤ 18) :
    dtOn float64 (A.map (Int.cast : ℤ → ℝ)) = .ok ((A.det : ℤ) : ℝ) ∧
    ptOn float64 (A.map (Int.cast : ℤ → ℝ)) = .ok ((∑ σ : Perm (Fin n), ∏ i, A i (σ i) : ℤ) : ℝ) := by
  refine C112_dt_pt A ((perm_units hA).trans ?_)
  have h3 : (n.factorial : ℤ) ≤ (18).factorial := by exact_mod_cast Nat.factorial_le hn
  refine h3.trans ?_
  norm_num [Nat.factorial]

theorem fact18 {m : ℕ} (hm : m ≤ 9) : ((2 * m).factorial : ℝ) ≤ 2 ^ 53 := by
  have : (2 * m).factorial ≤ (18).factorial := Nat.factorial_le (by omega)
  calc ((2 * m).factorial : ℝ) ≤ ((18).factorial : ℕ) := by exact_mod_cast this
    _ ≤ 2 ^ 53 := by norm_num [Nat.factorial]

/-- C154. For an array of the integers -1, 0 and 1 with up to 18 rows, `pf` of a skew-symmetric and `hf` of a symmetric array are exact, both for
64-bit integers and for floats. -/
theorem C154_units_matchings {m : ℕ} (hm : m ≤ 9) (A : Matrix (Fin (2 * m)) (Fin (2 * m)) ℤ) (hA : ∀ i j, |A i j| ≤ 1) :
    (Aᵀ = -A → ∃ p : ℤ, pf (A.map (Int.cast : ℤ → ℝ)) = .ok (p : ℝ) ∧ pfOn int64 divInt A = .ok (p : ℝ) ∧
      pfOn float64 divFloat (A.map (Int.cast : ℤ → ℝ)) = .ok (p : ℝ)) ∧
    (A.IsSymm → ∃ p : ℤ, hf (A.map (Int.cast : ℤ → ℝ)) = .ok (p : ℝ) ∧ hfOn int64 divInt A = .ok (p : ℝ) ∧
      hfOn float64 divFloat (A.map (Int.cast : ℤ → ℝ)) = .ok (p : ℝ)) := by
  have hb : ∀ i j, ‖(A.map (Int.cast : ℤ → ℝ)) i j‖ ≤ 1 := fun i j => by
    rw [map_apply, Real.norm_eq_abs]; exact_mod_cast hA i j
  have hb' : ∀ i j, ‖((A.map abs).map (Int.cast : ℤ → ℝ)) i j‖ ≤ 1 := fun i j => by
    rw [map_apply, map_apply, Real.norm_eq_abs, Int.cast_abs, abs_abs]; exact_mod_cast hA i j
  have hden : (0 : ℝ) < 2 ^ m * m.factorial := by positivity
  have key : ∀ {x : ℝ}, ‖x‖ * (2 ^ m * m.factorial) ≤ (2 * m).factorial * 1 ^ m → 2 ^ m * m.factorial * ‖x‖ ≤ 2 ^ 53 := fun {x} h => by
    rw [mul_comm]; exact h.trans (by rw [one_pow, mul_one]; exact fact18 hm)
  have keyZ : ∀ {p : ℤ}, 2 ^ m * m.factorial * ‖(p : ℝ)‖ ≤ 2 ^ 53 → 2 ^ m * m.factorial * |p| ≤ 2 ^ 53 := fun {p} h => by
    rw [Real.norm_eq_abs] at h; exact_mod_cast h
  have hfl := C112_pf_hf A (hf_ok _) ((mul_le_mul_of_nonneg_left (le_abs_self _) hden.le).trans (key (hfVal_bound hb')))
  refine ⟨fun hs => ?_, fun hs => ?_⟩
  · obtain ⟨p, h1, h2⟩ := (C110_pf_hf A).1 hs
    obtain ⟨p', h3, h4⟩ := hfl.1 hs
    obtain rfl : p = p' := by exact_mod_cast Except.ok.inj (h1.symm.trans h3)
    refine ⟨p, h1, h2 (keyZ (key ?_)), h4⟩
    rw [← Except.ok.inj ((pf_ok _).symm.trans h1)]
    exact pfVal_bound hb
  · obtain ⟨p, h1, h2⟩ := (C110_pf_hf A).2 hs
    obtain ⟨p', h3, h4⟩ := hfl.2 hs
    obtain rfl : p = p' := by exact_mod_cast Except.ok.inj (h1.symm.trans h3)
    refine ⟨p, h1, h2 (keyZ (key ?_)), h4⟩
    rw [← Except.ok.inj ((hf_ok _).symm.trans h1)]
    exact hfVal_bound hb

/-- C154. So `hf` counts the perfect matchings of every graph with up to 18 nodes exactly, if its adjacency matrix is an array of integers or of
floats. -/
theorem C154_graph (hn : n ≤ 18) (G : SimpleGraph (Fin n)) [DecidableRel G.Adj] :
    hfOn int64 divInt (G.adjMatrix ℤ) = .ok ((Spec.matchingsOf G).card : ℝ) ∧
    hfOn float64 divFloat (G.adjMatrix ℝ) = .ok ((Spec.matchingsOf G).card : ℝ) := by
  have hc := C04_hf_adj_counts (K := ℝ) G
  have hmap : (G.adjMatrix ℤ).map (Int.cast : ℤ → ℝ) = G.adjMatrix ℝ := by
    ext i j
    rw [map_apply, SimpleGraph.adjMatrix_apply, SimpleGraph.adjMatrix_apply]
    split_ifs <;> simp
  rcases Nat.even_or_odd' n with ⟨m, rfl | rfl⟩
  · obtain ⟨p, h1, h2, h3⟩ := (C154_units_matchings (by omega) (G.adjMatrix ℤ) fun i j => by
      rw [SimpleGraph.adjMatrix_apply]; split_ifs <;> simp).2 (G.isSymm_adjMatrix)
    rw [hmap] at h1 h3
    have e := Except.ok.inj (h1.symm.trans hc)
    exact ⟨by rw [h2, e], by rw [h3, e]⟩
  · have e : ((Spec.matchingsOf G).card : ℝ) = 0 := by
      rw [hf, if_pos (by omega)] at hc
      exact (Except.ok.inj hc).symm
    rw [e, hfOn, hfOn, if_pos (by omega), if_pos (by omega)]
    exact ⟨rfl, rfl⟩

/-- An array with orthogonal rows of length √2, for which the bound of `C154_hadamard` is attained, and one of integers for `C154_units`. -/
example : (∃ d, dt (!![1, 1; 1, -1] : Matrix (Fin 2) (Fin 2) ℂ) = .ok d ∧ ‖d‖ = 2) ∧
    (∀ i j, |(!![1, 1; 1, -1] : Matrix (Fin 2) (Fin 2) ℤ) i j| ≤ 1) ∧ ∏ i, ∑ j, |(!![1, 1; 1, -1] : Matrix (Fin 2) (Fin 2) ℤ) i j| < 2 ^ 63 := by
  refine ⟨⟨_, C02_dt_eq_det _, ?_⟩, by decide, by decide⟩
  rw [det_fin_two_of]
  norm_num

end FF.Props
