import Verif.Proofs.TraceNorm
import Verif.Proofs.Distance3
import Verif.Props.Entropy

/-! # Helper lemmas: Pauli expectation values and the stabilizer distribution -/

namespace FF

open Matrix
open scoped ComplexOrder ComplexConjugate

variable {n : ℕ}

theorem pauli_complete (i j k l : Fin 2) :
    ∑ a, Spec.pauli a i j * conj (Spec.pauli a k l) = if i = k ∧ j = l then 2 else 0 := by
  fin_cases i <;> fin_cases j <;> fin_cases k <;> fin_cases l <;>
    simp [Fin.sum_univ_four, Spec.pauli] <;> norm_num

theorem pauliString_complete (x y x' y' : Fin (2 ^ n)) :
    ∑ w : Fin n → Fin 4, Spec.pauliString w x y * conj (Spec.pauliString w x' y') =
      if x = x' ∧ y = y' then 2 ^ n else 0 := by
  simp only [Spec.pauliString, of_apply, map_prod, ← Finset.prod_mul_distrib]
  have h := Finset.prod_univ_sum (fun _ : Fin n => (Finset.univ : Finset (Fin 4)))
    (fun i a => Spec.pauli a (Spec.digit 2 n x i) (Spec.digit 2 n y i) *
      conj (Spec.pauli a (Spec.digit 2 n x' i) (Spec.digit 2 n y' i)))
  rw [Fintype.piFinset_univ] at h
  rw [← h]
  simp only [pauli_complete]
  split_ifs with hc
  · obtain ⟨rfl, rfl⟩ := hc
    simp
  · have : ∃ i, ¬ (Spec.digit 2 n x i = Spec.digit 2 n x' i ∧ Spec.digit 2 n y i = Spec.digit 2 n y' i) := by
      by_contra hne
      push_neg at hne
      exact hc ⟨Fin.ext (digit_inj x.2 x'.2 (funext fun i => (hne i).1)),
        Fin.ext (digit_inj y.2 y'.2 (funext fun i => (hne i).2))⟩
    obtain ⟨i, hi⟩ := this
    exact Finset.prod_eq_zero (Finset.mem_univ i) (if_neg hi)

theorem pauliString_herm (w : Fin n → Fin 4) : (Spec.pauliString w)ᴴ = Spec.pauliString w := by
  rw [pauliString_eq, kronAll_conjTranspose]
  simp only [pauli_herm]

theorem pauliString_sq (w : Fin n → Fin 4) : Spec.pauliString w * Spec.pauliString w = 1 := by
  rw [pauliString_eq, kronAll_mul]
  simp only [pauli_sq]
  exact kronAll_one n

theorem pauliString_zero : Spec.pauliString (0 : Fin n → Fin 4) = 1 := by
  rw [pauliString_eq]
  simp only [Pi.zero_apply, pauli_zero]
  exact kronAll_one n

/-- Parseval. -/
theorem pauli_parseval (A : Op (2 ^ n)) :
    ∑ w : Fin n → Fin 4, (Spec.pauliString w * A).trace * conj (Spec.pauliString w * A).trace =
      2 ^ n * ∑ x, ∑ y, A x y * conj (A x y) := by
  have e : ∀ w : Fin n → Fin 4, (Spec.pauliString w * A).trace =
      ∑ p : Fin (2 ^ n) × Fin (2 ^ n), Spec.pauliString w p.1 p.2 * A p.2 p.1 := by
    intro w
    rw [Fintype.sum_prod_type]
    simp only [trace, diag_apply, mul_apply]
  simp only [e, map_sum, Finset.sum_mul_sum, map_mul]
  rw [Finset.sum_comm]
  simp_rw [Finset.sum_comm (s := (Finset.univ : Finset (Fin n → Fin 4)))]
  have key : ∀ p q : Fin (2 ^ n) × Fin (2 ^ n), ∑ w : Fin n → Fin 4,
      Spec.pauliString w p.1 p.2 * A p.2 p.1 * (conj (Spec.pauliString w q.1 q.2) * conj (A q.2 q.1)) =
      if p = q then 2 ^ n * (A p.2 p.1 * conj (A p.2 p.1)) else 0 := by
    intro p q
    have : ∀ w : Fin n → Fin 4, Spec.pauliString w p.1 p.2 * A p.2 p.1 *
        (conj (Spec.pauliString w q.1 q.2) * conj (A q.2 q.1)) =
        (Spec.pauliString w p.1 p.2 * conj (Spec.pauliString w q.1 q.2)) * (A p.2 p.1 * conj (A q.2 q.1)) :=
      fun w => by ring
    simp only [this, ← Finset.sum_mul, pauliString_complete, Prod.ext_iff]
    split_ifs with h
    · rw [h.1, h.2]
    · rw [zero_mul]
  simp only [key, Finset.sum_ite_eq, Finset.mem_univ, if_true]
  rw [← Finset.mul_sum, Fintype.sum_prod_type, Finset.sum_comm]

theorem trace_herm_real {d : ℕ} {A B : Op d} (hA : Aᴴ = A) (hB : Bᴴ = B) : ((A * B).trace).im = 0 := by
  rw [← Complex.conj_eq_iff_im]
  have := trace_conjTranspose (A * B)
  rw [conjTranspose_mul, hA, hB, trace_mul_comm] at this
  exact this.symm

theorem purity_eq {d : ℕ} {A : Op d} (hA : Aᴴ = A) : (A * A).trace = ∑ x, ∑ y, A x y * conj (A x y) := by
  simp only [trace, diag_apply, mul_apply]
  refine Finset.sum_congr rfl fun x _ => Finset.sum_congr rfl fun y _ => ?_
  have := congrFun (congrFun hA y) x
  rw [conjTranspose_apply] at this
  rw [← this]; rfl

/-- The real number `<P_w>`. -/
noncomputable def pexp (ρ : Op (2 ^ n)) (w : Fin n → Fin 4) : ℝ := ((Spec.pauliString w * ρ).trace).re

theorem pexp_eq {ρ : Op (2 ^ n)} (hρ : ρᴴ = ρ) (w : Fin n → Fin 4) :
    (Spec.pauliString w * ρ).trace = (pexp ρ w : ℂ) :=
  Complex.ext rfl (by rw [trace_herm_real (pauliString_herm w) hρ]; rfl)

theorem pexp_parseval {ρ : Op (2 ^ n)} (hρ : ρᴴ = ρ) :
    ∑ w, pexp ρ w ^ 2 = 2 ^ n * ((ρ * ρ).trace).re := by
  have h := pauli_parseval ρ
  rw [← purity_eq hρ] at h
  simp only [pexp_eq hρ, Complex.conj_ofReal, ← Complex.ofReal_mul, ← Complex.ofReal_sum] at h
  have := congrArg Complex.re h
  rw [Complex.ofReal_re, show (2 : ℂ) ^ n = ((2 ^ n : ℝ) : ℂ) by push_cast; rfl, Complex.re_ofReal_mul] at this
  rw [← this]
  exact Finset.sum_congr rfl fun w _ => sq _

theorem purity_pos {d : ℕ} {ρ : Op d} (h : Spec.IsDensity ρ) : 0 < ((ρ * ρ).trace).re := by
  have hρ : ρᴴ = ρ := h.psd.isHermitian
  rw [purity_eq hρ]
  simp only [Complex.mul_conj, Complex.normSq_eq_norm_sq, Complex.re_sum, Complex.ofReal_re]
  by_contra hn
  have h0 : ∀ x y, ‖ρ x y‖ ^ 2 = 0 := by
    have hs := le_antisymm (not_lt.1 hn) (Finset.sum_nonneg fun x _ => Finset.sum_nonneg fun y _ => sq_nonneg ‖ρ x y‖)
    rw [Finset.sum_eq_zero_iff_of_nonneg (fun x _ => Finset.sum_nonneg fun y _ => sq_nonneg _)] at hs
    intro x y
    have := hs x (Finset.mem_univ x)
    rw [Finset.sum_eq_zero_iff_of_nonneg (fun y _ => sq_nonneg _)] at this
    exact this y (Finset.mem_univ y)
  have : ρ = 0 := by
    ext x y
    simpa using h0 x y
  have h1 := h.trace_one
  rw [this, trace_zero] at h1
  exact zero_ne_one h1

theorem pexp_le {ρ : Op (2 ^ n)} (h : Spec.IsDensity ρ) (w : Fin n → Fin 4) : |pexp ρ w| ≤ 1 := by
  have hP : Spec.pauliString w * (Spec.pauliString w)ᴴ = 1 := by rw [pauliString_herm, pauliString_sq]
  have := tnorm_bound h.psd.isHermitian hP
  rw [tnorm_density h, pexp_eq h.psd.isHermitian, Complex.norm_real] at this
  exact this

theorem intLog2_pow (n : ℕ) : intLog2 (2 ^ n) = n := by
  rw [intLog2]
  push_cast
  rw [Real.logb_pow, Real.logb_self_eq_one (by norm_num), mul_one, Nat.floor_natCast]

theorem intLog2_pos {d : ℕ} (hd : 2 ≤ d) : 1 ≤ intLog2 d := by
  rw [intLog2]
  refine Nat.le_floor ?_
  rw [Nat.cast_one, Real.le_logb_iff_rpow_le (by norm_num) (by positivity)]
  rw [Real.rpow_one]
  exact_mod_cast hd

/-- The words of length `n` over four letters are numbered by their base-4 value. -/
noncomputable def wordEquiv (n : ℕ) : Fin (4 ^ n) ≃ (Fin n → Fin 4) :=
  Equiv.ofBijective (fun k => Spec.digit 4 n k)
    ((Fintype.bijective_iff_injective_and_card _).2
      ⟨fun a b h => Fin.ext (digit_inj a.2 b.2 h), by simp⟩)

theorem wordEquiv_apply (k : Fin (4 ^ n)) : wordEquiv n k = Spec.digit 4 n k := rfl

theorem digit_zero : Spec.digit 4 n 0 = 0 := by
  funext i; simp [Spec.digit]

/-- The distribution the function computes. -/
noncomputable def xiF (ρ : Op (2 ^ n)) (k : Fin (4 ^ n)) : ℝ :=
  pexp ρ (Spec.digit 4 n k) ^ 2 / (2 ^ n * ((ρ * ρ).trace).re)

theorem xiF_sum {ρ : Op (2 ^ n)} (h : Spec.IsDensity ρ) : ∑ k, xiF ρ k = 1 := by
  simp only [xiF]
  rw [← Finset.sum_div, div_eq_one_iff_eq (mul_pos (by positivity) (purity_pos h)).ne', ← pexp_parseval h.psd.isHermitian]
  exact Equiv.sum_comp (wordEquiv n) fun w => pexp ρ w ^ 2

theorem xiF_prob {ρ : Op (2 ^ n)} (h : Spec.IsDensity ρ) : Spec.IsProb (xiF ρ) :=
  ⟨fun k => div_nonneg (sq_nonneg _) (mul_pos (by positivity) (purity_pos h)).le, xiF_sum h⟩

theorem realPart_ok {z : ℂ} (h : z.im = 0) : realPart z = .ok z.re := by
  rw [realPart, if_pos]
  rw [h]; norm_num

theorem stabilizer_ok {x : Arr} {ρ : Op (2 ^ n)} (hn : 1 ≤ n) (hx : Spec.IsState x ρ) :
    stabilizerDistribution x = .ok (List.ofFn (xiF ρ)) := by
  obtain ⟨h1, h2⟩ := state_cast hx
  have hρ : ρᴴ = ρ := h2.psd.isHermitian
  rw [stabilizerDistribution, h1]
  simp only [bind, Except.bind]
  rw [npTrace_eq, realPart_ok (trace_herm_real hρ hρ)]
  simp only [intLog2_pow, generatePauliGroup_ok n hn]
  rw [dif_pos trivial]
  have e : castOp rfl ρ = ρ := by ext; rfl
  rw [mapM_ok (g := fun P => ((P * ρ).trace).re * ((P * ρ).trace).re / (2 ^ n * ((ρ * ρ).trace).re))]
  · have hl : ((pauliLoop n false).1.map fun P => ((P * ρ).trace).re * ((P * ρ).trace).re /
        (2 ^ n * ((ρ * ρ).trace).re)) = List.ofFn (xiF ρ) := by
      rw [pauliLoop_eq]
      apply List.ext_getElem
      · simp
      · intro i h3 h4
        simp [xiF, pexp, sq]
    simp only [hl]
    rw [if_pos]
    · rfl
    · rw [hl, List.sum_ofFn, xiF_sum h2]
      simp [isclose]
      norm_num
  · intro P hP
    rw [pauliLoop_eq] at hP
    simp only [List.mem_map] at hP
    obtain ⟨k, -, rfl⟩ := hP
    rw [e, npTrace_eq, realPart_ok (trace_herm_real (pauliString_herm _) hρ)]
    rfl

theorem stabilizer_dimension {x : Arr} {d : ℕ} {ρ : Op d} (hx : Spec.IsState x ρ) (hd : ∀ n, 1 ≤ n → d ≠ 2 ^ n) :
    stabilizerDistribution x = .error .valueError := by
  obtain ⟨h1, h2⟩ := state_cast hx
  have hρ : ρᴴ = ρ := h2.psd.isHermitian
  rw [stabilizerDistribution, h1]
  simp only [bind, Except.bind]
  rw [npTrace_eq, realPart_ok (trace_herm_real hρ hρ)]
  simp only
  rcases Nat.eq_zero_or_pos (intLog2 d) with h0 | h0
  · rw [h0]
    rfl
  · rw [generatePauliGroup_ok _ h0]
    simp only
    rw [dif_neg (hd _ h0)]

/-! ## the stabilizer entropy -/

theorem ofFn_sigma {m : ℕ} (f : Fin m → ℝ) :
    (⟨_, (List.ofFn f).get⟩ : Σ d : ℕ, Fin d → ℝ) = ⟨m, f⟩ := by
  have h : (List.ofFn f).length = m := List.length_ofFn
  have key : ∀ {k : ℕ} (e : k = m) (g : Fin k → ℝ), (∀ i, g i = f (Fin.cast e i)) →
      (⟨k, g⟩ : Σ d : ℕ, Fin d → ℝ) = ⟨m, f⟩ := by
    rintro k rfl g hg
    congr 1
    funext i
    exact hg i
  exact key h _ fun i => List.get_ofFn f i

theorem mat_state {d : ℕ} {ρ : Op d} (h : Spec.IsDensity ρ) : Spec.IsState (.mat d d ρ) ρ := .inr (.inl ⟨h, rfl⟩)

theorem sre_unfold {x : Arr} {ρ : Op (2 ^ n)} (hn : 1 ≤ n) (hx : Spec.IsState x ρ) (o : Order) :
    sre x o = open Classical in if countNonzero (xiF ρ) = 1 then .ok 0 else
      (renyiEntropy (realVec (xiF ρ)) o).bind fun s => .ok (s - ((Real.log ((2 ^ n : ℕ) : ℝ) : ℝ) : EReal)) := by
  obtain ⟨h1, h2⟩ := state_cast hx
  rw [sre, h1]
  simp only [bind, Except.bind]
  rw [stabilizer_ok hn (mat_state h2)]
  simp only
  have key : ∀ s : Σ d : ℕ, Fin d → ℝ, s = ⟨_, xiF ρ⟩ → countNonzero s.2 = countNonzero (xiF ρ) ∧
      realVec s.2 = realVec (xiF ρ) := by
    rintro s rfl
    exact ⟨rfl, rfl⟩
  obtain ⟨k1, k2⟩ := key _ (ofFn_sigma (xiF ρ))
  simp only at k1 k2
  rw [k1, k2]
  rfl

theorem xiF_le {ρ : Op (2 ^ n)} (h : Spec.IsDensity ρ) (k : Fin (4 ^ n)) :
    xiF ρ k ≤ 1 / (2 ^ n * ((ρ * ρ).trace).re) := by
  rw [xiF]
  have := pexp_le h (Spec.digit 4 n k)
  refine div_le_div_of_nonneg_right ?_ (mul_pos (by positivity) (purity_pos h)).le
  rw [← sq_abs]
  nlinarith [abs_nonneg (pexp ρ (Spec.digit 4 n k))]

theorem xiF_sumsq {ρ : Op (2 ^ n)} (h : Spec.IsDensity ρ) :
    ∑ k, xiF ρ k ^ 2 ≤ 1 / (2 ^ n * ((ρ * ρ).trace).re) := by
  calc ∑ k, xiF ρ k ^ 2 ≤ ∑ k, 1 / (2 ^ n * ((ρ * ρ).trace).re) * xiF ρ k := by
        refine Finset.sum_le_sum fun k _ => ?_
        rw [sq]
        exact mul_le_mul_of_nonneg_right (xiF_le h k) ((xiF_prob h).nonneg k)
    _ = _ := by rw [← Finset.mul_sum, xiF_sum h, mul_one]

theorem inv_big {t : ℝ} (h : 100003 / 100000 ≤ t) : 1 / t ≤ 100000 / 100003 := by
  rw [div_le_iff₀ (by linarith)]
  linarith

theorem xiF_count {ρ : Op (2 ^ n)} (h : Spec.IsDensity ρ) (hp : 100003 / 100000 ≤ 2 ^ n * ((ρ * ρ).trace).re) :
    countNonzero (xiF ρ) ≠ 1 := by
  classical
  intro hc
  rw [countNonzero, Finset.card_eq_one] at hc
  obtain ⟨k, hk⟩ := hc
  have h1 : ∑ j, xiF ρ j = xiF ρ k := by
    refine Finset.sum_eq_single k (fun j _ hj => ?_) (by simp)
    by_contra h0
    have : j ∈ ({k} : Finset _) := by
      rw [← hk, Finset.mem_filter]
      exact ⟨Finset.mem_univ _, h0⟩
    exact hj (Finset.mem_singleton.1 this)
  rw [xiF_sum h] at h1
  have := (xiF_le h k).trans (inv_big hp)
  linarith

theorem xiF_represents {ρ : Op (2 ^ n)} (h : Spec.IsDensity ρ) (hp : 100003 / 100000 ≤ 2 ^ n * ((ρ * ρ).trace).re) :
    Spec.Represents (realVec (xiF ρ)) (xiF ρ) := by
  refine .inr (.inr ⟨xiF_prob h, rfl, ?_⟩)
  have h1 : Real.sqrt (∑ k, xiF ρ k ^ 2) ≤ 1 - 1.0011e-5 := by
    rw [Real.sqrt_le_left (by norm_num)]
    exact ((xiF_sumsq h).trans (inv_big hp)).trans (by norm_num)
  rw [abs_of_nonpos (by linarith)]
  norm_num at h1 ⊢
  linarith

theorem sre_eq {x : Arr} {ρ : Op (2 ^ n)} (hn : 1 ≤ n) (hx : Spec.IsState x ρ)
    (hp : 100003 / 100000 ≤ 2 ^ n * ((ρ * ρ).trace).re) {a : ℝ} (ha : 0 ≤ a) :
    sre x (.num a) = .ok ((Spec.renyi (xiF ρ) a - n * Real.log 2 : ℝ) : EReal) := by
  have h2 := (state_cast hx).2
  rw [sre_unfold hn hx, if_neg (xiF_count h2 hp), Props.C64_formula (xiF_represents h2 hp) a ha]
  simp only [Except.bind]
  congr 1
  push_cast
  rw [Real.log_pow]
  rfl

theorem sre_inf_eq {x : Arr} {ρ : Op (2 ^ n)} (hn : 1 ≤ n) (hx : Spec.IsState x ρ)
    (hp : 100003 / 100000 ≤ 2 ^ n * ((ρ * ρ).trace).re) {m : ℝ} (hm : Spec.IsMax (xiF ρ) m) :
    sre x .inf = .ok ((-Real.log m - n * Real.log 2 : ℝ) : EReal) := by
  have h2 := (state_cast hx).2
  rw [sre_unfold hn hx, if_neg (xiF_count h2 hp), Props.C64_inf (xiF_represents h2 hp) m hm]
  simp only [Except.bind]
  congr 1
  push_cast
  rw [Real.log_pow]
  rfl

theorem pexp_zero {ρ : Op (2 ^ n)} (h : Spec.IsDensity ρ) : pexp ρ 0 = 1 := by
  rw [pexp, pauliString_zero, one_mul, h.trace_one]; rfl

theorem xiF_max {ρ : Op (2 ^ n)} (h : Spec.IsDensity ρ) :
    Spec.IsMax (xiF ρ) (1 / (2 ^ n * ((ρ * ρ).trace).re)) := by
  refine ⟨⟨⟨0, by positivity⟩, ?_⟩, xiF_le h⟩
  rw [xiF]
  simp only [digit_zero, pexp_zero h, one_pow]

/-- A distribution with entries at most `t` whose Rényi entropy of an order above 1 is `-log t` takes only the values
0 and `t`. -/
theorem flat_of_renyi {d : ℕ} {p : Fin d → ℝ} (hp : Spec.IsProb p) {t a : ℝ} (ht : 0 < t) (hle : ∀ i, p i ≤ t)
    (ha : 1 < a) (h : Spec.renyi p a = -Real.log t) (i : Fin d) : p i = 0 ∨ p i = t := by
  rw [renyi_of_ne p ha.ne'] at h
  have h0 : 1 - a ≠ 0 := by linarith
  have h1 : Real.log (powSum p a) = Real.log (t ^ (a - 1)) := by
    rw [Real.log_rpow ht]
    field_simp at h
    linarith
  have h2 : powSum p a = t ^ (a - 1) :=
    Real.log_injOn_pos (Set.mem_Ioi.2 (powSum_pos hp a)) (Set.mem_Ioi.2 (Real.rpow_pos_of_pos ht _)) h1
  rw [powSum_eq hp] at h2
  have h3 : ∑ j ∈ supp p, p j * (t ^ (a - 1) - p j ^ (a - 1)) = 0 := by
    simp only [mul_sub, Finset.sum_sub_distrib, ← Finset.sum_mul]
    rw [sum_supp hp, h2]; ring
  rw [Finset.sum_eq_zero_iff_of_nonneg] at h3
  · by_cases hi : p i = 0
    · exact .inl hi
    · right
      rcases mul_eq_zero.1 (h3 i (mem_supp.2 hi)) with h4 | h4
      · exact absurd h4 hi
      · exact ((Real.rpow_left_inj (hp.nonneg i) ht.le (sub_pos.2 ha).ne').1 (sub_eq_zero.1 h4).symm)
  · intro j hj
    refine mul_nonneg (hp.nonneg j) (sub_nonneg.2 (Real.rpow_le_rpow (hp.nonneg j) (hle j) (by linarith)))

theorem renyi_zero_flat {d : ℕ} {p : Fin d → ℝ} (hp : Spec.IsProb p) {t : ℝ} (ht : 0 < t)
    (h : ∀ i, p i = 0 ∨ p i = t) : Spec.renyi p 0 = -Real.log t := by
  rw [renyi_zero, ← Real.log_inv]
  congr 1
  have h1 := sum_supp hp
  rw [Finset.sum_congr rfl fun i hi => (h i).resolve_left (mem_supp.1 hi), Finset.sum_const, nsmul_eq_mul] at h1
  exact eq_inv_of_mul_eq_one_left h1

theorem xiF_conj {ρ V : Op (2 ^ n)} (hV : V * Vᴴ = 1)
    (hc : ∀ w : Fin n → Fin 4, ∃ w', Vᴴ * Spec.pauliString w * V = Spec.pauliString w' ∨
      Vᴴ * Spec.pauliString w * V = -Spec.pauliString w') :
    ∃ s : Fin (4 ^ n) ≃ Fin (4 ^ n), ∀ k, xiF (V * ρ * Vᴴ) k = xiF ρ (s k) := by
  have hV' : Vᴴ * V = 1 := mul_eq_one_comm.1 hV
  choose f hf using hc
  have hinj : Function.Injective f := by
    intro w w' hw
    by_contra hne
    have h0 : ((Vᴴ * Spec.pauliString w * V) * (Vᴴ * Spec.pauliString w' * V)).trace = 0 := by
      have : (Vᴴ * Spec.pauliString w * V) * (Vᴴ * Spec.pauliString w' * V) =
          Vᴴ * (Spec.pauliString w * Spec.pauliString w') * V := by
        calc _ = Vᴴ * Spec.pauliString w * (V * Vᴴ) * Spec.pauliString w' * V := by noncomm_ring
          _ = _ := by rw [hV]; noncomm_ring
      rw [this, trace_mul_comm, ← mul_assoc, hV, one_mul, pauliString_trace_mul, if_neg hne]
    have h1 := hf w
    have h2 := hf w'
    rw [hw] at h1
    have hs : ((Spec.pauliString (f w')) * Spec.pauliString (f w')).trace = 2 ^ n := by
      rw [pauliString_trace_mul, if_pos rfl]
    have hpos : (2 : ℂ) ^ n ≠ 0 := by positivity
    rcases h1 with h1 | h1 <;> rcases h2 with h2 | h2 <;> rw [h1, h2] at h0 <;>
      simp [hs] at h0
  have hbij : Function.Bijective f := Finite.injective_iff_bijective.1 hinj
  refine ⟨(wordEquiv n).trans ((Equiv.ofBijective f hbij).trans (wordEquiv n).symm), fun k => ?_⟩
  have hp : ((V * ρ * Vᴴ) * (V * ρ * Vᴴ)).trace = (ρ * ρ).trace := by
    have : (V * ρ * Vᴴ) * (V * ρ * Vᴴ) = V * (ρ * ρ) * Vᴴ := by
      calc _ = V * ρ * (Vᴴ * V) * ρ * Vᴴ := by noncomm_ring
        _ = _ := by rw [hV']; noncomm_ring
    rw [this, trace_mul_comm, ← mul_assoc, hV', one_mul]
  have hd : Spec.digit 4 n (((wordEquiv n).trans ((Equiv.ofBijective f hbij).trans (wordEquiv n).symm)) k) =
      f (Spec.digit 4 n k) := by
    rw [← wordEquiv_apply, ← wordEquiv_apply]
    simp
  rw [xiF, xiF, hp, hd]
  congr 1
  have e : pexp (V * ρ * Vᴴ) (Spec.digit 4 n k) = ((Vᴴ * Spec.pauliString (Spec.digit 4 n k) * V * ρ).trace).re := by
    rw [pexp]
    congr 1
    rw [← mul_assoc, trace_mul_comm]
    congr 1
    noncomm_ring
  rw [e]
  rcases hf (Spec.digit 4 n k) with h | h
  · rw [h]; rfl
  · rw [h, neg_mul, trace_neg, Complex.neg_re, neg_sq]; rfl

theorem renyi_perm {d : ℕ} (p : Fin d → ℝ) (s : Fin d ≃ Fin d) (a : ℝ) : Spec.renyi (fun k => p (s k)) a = Spec.renyi p a := by
  classical
  rw [Spec.renyi, Spec.renyi]
  split_ifs
  · rw [Equiv.sum_comp s fun i => p i * Real.log (p i)]
  · rw [Finset.sum_filter, Finset.sum_filter, Equiv.sum_comp s fun i => if p i ≠ 0 then p i ^ a else 0]

end FF
