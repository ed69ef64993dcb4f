import Verif.Props.Entangle

/-! # Property C153: the entropies of a state and of its parts satisfy the triangle inequality -/

namespace FF.Props

open Matrix
open scoped ComplexOrder

variable {a b : ℕ}

/-- The state of three parts with these amplitudes, read as a state of the first part and of the other two. -/
def joint {p q c : ℕ} (T : Fin p → Fin q → Fin c → ℂ) : Fin (p * (q * c)) → ℂ := fun z =>
  T (finProdFinEquiv.symm z).1 (finProdFinEquiv.symm (finProdFinEquiv.symm z).2).1 (finProdFinEquiv.symm (finProdFinEquiv.symm z).2).2

theorem joint_apply {p q c : ℕ} (T : Fin p → Fin q → Fin c → ℂ) (i : Fin p) (j : Fin q) (x : Fin c) :
    joint T (finProdFinEquiv (i, finProdFinEquiv (j, x))) = T i j x := by
  simp only [joint, Equiv.symm_apply_apply]

/-- The entropy of one part is at most that of another part and of the third, if the three are together in a pure state. -/
theorem joint_bound {p q c : ℕ} {T : Fin p → Fin q → Fin c → ℂ} (hT : ∑ i, ∑ j, ∑ x, ‖T i j x‖ ^ 2 = 1) {P : Op p} {Q R : Op q} {C : Op c}
    (hP : ∀ i i', P i i' = ∑ j, ∑ x, T i j x * star (T i' j x)) (hQ : ∀ j j', Q j j' = ∑ i, ∑ x, T i j x * star (T i j' x))
    (hC : ∀ x x', C x x' = ∑ i, ∑ j, T i j x * star (T i j x')) (hR : R = Q ∨ R = reMat Q)
    {k : Fin p → ℝ} {m : Fin q → ℝ} {l : Fin c → ℝ} (hk : Spec.IsSpectrum P k) (hm : Spec.IsSpectrum R m) (hl : Spec.IsSpectrum C l)
    (mp : Spec.IsProb m) (lp : Spec.IsProb l) : Spec.renyi k 1 ≤ Spec.renyi m 1 + Spec.renyi l 1 := by
  have hu : Spec.IsUnitVec (joint T) := by
    rw [Spec.IsUnitVec, ← finProdFinEquiv.sum_comp, Fintype.sum_prod_type, ← hT]
    refine Finset.sum_congr rfl fun i _ => ?_
    rw [← finProdFinEquiv.sum_comp, Fintype.sum_prod_type]
    simp only [joint_apply]
  have hd := proj_density hu
  have hσ : Spec.IsDensity (pt1 (Spec.proj (joint T))) := ⟨pt1_psd hd.psd, by rw [trace_pt1]; exact hd.trace_one⟩
  have e : ∀ i j x i' j' x', Spec.proj (joint T) (finProdFinEquiv (i, finProdFinEquiv (j, x))) (finProdFinEquiv (i', finProdFinEquiv (j', x'))) =
      T i j x * star (T i' j' x') := fun i j x i' j' x' => by
    rw [← joint_apply T i j x, ← joint_apply T i' j' x']; rfl
  have eP : pt2 (Spec.proj (joint T)) = P := by
    ext i i'
    rw [hP, pt2, sum_apply2, ← finProdFinEquiv.sum_comp, Fintype.sum_prod_type]
    exact Finset.sum_congr rfl fun j _ => Finset.sum_congr rfl fun x _ => e ..
  have eQ : pt2 (pt1 (Spec.proj (joint T))) = Q := by
    ext j j'
    rw [hQ, pt2, sum_apply2, Finset.sum_comm]
    refine Finset.sum_congr rfl fun x _ => ?_
    rw [submatrix_apply, pt1, sum_apply2]
    exact Finset.sum_congr rfl fun i _ => e ..
  have eC : pt1 (pt1 (Spec.proj (joint T))) = C := by
    ext x x'
    rw [hC, pt1, sum_apply2, Finset.sum_comm]
    refine Finset.sum_congr rfl fun j _ => ?_
    rw [submatrix_apply, pt1, sum_apply2]
    exact Finset.sum_congr rfl fun i _ => e ..
  obtain ⟨r, -, hr, -⟩ := has_spectrum hσ
  rw [padded_renyi (parts_multiset (by rw [eP]; exact hk) hr) 1]
  exact (sum_parts hσ (by rw [eQ]; exact hR) hr hm (by rw [eC]; exact hl) mp lp).1

/-- C153. The entropies of a state and of its two parts, as the partial traces return them, satisfy the triangle inequality: none of the
three exceeds the sum of the other two. (The last inequality has the hypothesis that `partial_trace_over_2` drops no small imaginary parts.) -/
theorem C153_triangle (ha : a ≠ 0) (hb : b ≠ 0) {ρ : Op (a * b)} (hρ : Spec.IsDensity ρ) {R : Op a} {S : Op b}
    (hR : partialTraceOver2 ρ a = .ok R) (hS : partialTraceOver1 ρ b = .ok S) {l : Fin (a * b) → ℝ} {k : Fin a → ℝ} {m : Fin b → ℝ}
    (hl : Spec.IsSpectrum ρ l) (hk : Spec.IsSpectrum R k) (hm : Spec.IsSpectrum S m) {x y z : Arr}
    (hx : Spec.Represents x l) (hy : Spec.Represents y k) (hz : Spec.Represents z m) :
    ∃ s u v : ℝ, renyiEntropy x (.num 1) = .ok (s : EReal) ∧ renyiEntropy y (.num 1) = .ok (u : EReal) ∧
      renyiEntropy z (.num 1) = .ok (v : EReal) ∧ s ≤ u + v ∧ v ≤ u + s ∧
      (((∀ i j, (∑ k : Fin b, ρ (finProdFinEquiv (i, k)) (finProdFinEquiv (j, k))).im = 0) ∨
        ∃ i j, 1e-8 < |(∑ k : Fin b, ρ (finProdFinEquiv (i, k)) (finProdFinEquiv (j, k))).im|) → u ≤ v + s) := by
  classical
  have lp := (represents_cast hx).2
  have kp := (represents_cast hy).2
  have mp := (represents_cast hz).2
  have hR' : R = pt2 ρ ∨ R = reMat (pt2 ρ) := by
    rw [partialTraceOver2_ok ha] at hR
    rw [← Except.ok.inj hR]
    split_ifs <;> simp
  obtain rfl : pt1 ρ = S := Except.ok.inj ((partialTraceOver1_ok hb ρ).symm.trans hS)
  refine ⟨_, _, _, C64_formula hx 1 zero_le_one, C64_formula hy 1 zero_le_one, C64_formula hz 1 zero_le_one,
    (sum_parts hρ hR' hl hk hm kp mp).1, ?_⟩
  obtain ⟨Y, hY, hρY⟩ := spectrum_basis hρ.psd.isHermitian hl
  have hY' : Yᴴ * Y = 1 := mul_eq_one_comm.1 hY
  obtain ⟨T, hTd⟩ : ∃ T : Fin a → Fin b → Fin (a * b) → ℂ, T = fun i j x => ((√(l x) : ℝ) : ℂ) * Y (finProdFinEquiv (i, j)) x := ⟨_, rfl⟩
  have hsq : ∀ x, ((√(l x) : ℝ) : ℂ) * ((√(l x) : ℝ) : ℂ) = ((l x : ℝ) : ℂ) := fun x => by
    rw [← Complex.ofReal_mul, Real.mul_self_sqrt (lp.1 x)]
  have hent : ∀ i j i' j', ρ (finProdFinEquiv (i, j)) (finProdFinEquiv (i', j')) = ∑ x, T i j x * star (T i' j' x) := fun i j i' j' => by
    conv_lhs => rw [hρY]
    rw [mul_apply]
    refine Finset.sum_congr rfl fun x _ => ?_
    rw [mul_diagonal, conjTranspose_apply, hTd, star_mul', Complex.star_def, Complex.conj_ofReal, ← hsq]
    ring
  have hA : ∀ i i', pt2 ρ i i' = ∑ j, ∑ x, T i j x * star (T i' j x) := fun i i' => by
    rw [pt2, sum_apply2]
    exact Finset.sum_congr rfl fun j _ => hent ..
  have hB : ∀ j j', pt1 ρ j j' = ∑ i, ∑ x, T i j x * star (T i j' x) := fun j j' => by
    rw [pt1, sum_apply2]
    exact Finset.sum_congr rfl fun i _ => hent ..
  have hC : ∀ x x', (diagonal fun x => ((l x : ℝ) : ℂ) : Op (a * b)) x x' = ∑ i, ∑ j, T i j x * star (T i j x') := fun x x' => by
    have h1 := congrFun (congrFun hY' x') x
    rw [mul_apply, ← finProdFinEquiv.sum_comp, Fintype.sum_prod_type] at h1
    have h2 : ∑ i, ∑ j, T i j x * star (T i j x') = ((√(l x) : ℝ) : ℂ) * ((√(l x') : ℝ) : ℂ) * (1 : Op (a * b)) x' x := by
      rw [← h1, Finset.mul_sum]
      refine Finset.sum_congr rfl fun i _ => ?_
      rw [Finset.mul_sum]
      refine Finset.sum_congr rfl fun j _ => ?_
      rw [conjTranspose_apply, hTd, star_mul', Complex.star_def, Complex.conj_ofReal]
      ring
    rw [h2, diagonal_apply, one_apply]
    by_cases h : x = x'
    · subst h; simp [hsq]
    · rw [if_neg h, if_neg (Ne.symm h), mul_zero]
  have hCl : Spec.IsSpectrum (diagonal fun x => ((l x : ℝ) : ℂ) : Op (a * b)) l := ⟨hl.1, charpoly_diagonal _⟩
  have hT1 : ∑ i, ∑ j, ∑ x, ‖T i j x‖ ^ 2 = 1 := by
    have h := hρ.trace_one
    rw [Matrix.trace, ← finProdFinEquiv.sum_comp, Fintype.sum_prod_type] at h
    have h2 : ((∑ i, ∑ j, ∑ x, ‖T i j x‖ ^ 2 : ℝ) : ℂ) = 1 := by
      rw [← h]
      push_cast
      refine Finset.sum_congr rfl fun i _ => Finset.sum_congr rfl fun j _ => ?_
      rw [diag_apply, hent]
      refine Finset.sum_congr rfl fun x _ => ?_
      rw [Complex.star_def, Complex.mul_conj, Complex.normSq_eq_norm_sq, Complex.ofReal_pow]
    exact_mod_cast h2
  refine ⟨?_, fun him => ?_⟩
  · refine joint_bound (T := fun j i x => T i j x) (by rw [Finset.sum_comm]; exact hT1) hB hA (fun x x' => ?_) hR' hm hk hCl kp lp
    rw [hC, Finset.sum_comm]
  · rw [over2_exact ha hR him] at hk
    exact joint_bound hT1 hA hB hC (.inl rfl) hk hm hCl mp lp

/-- The state `(p, iq)` of a two-level system, next to a system with one state. -/
def phaseVec (p q : ℝ) : Fin (2 * 1) → ℂ := fun x => if x = 0 then (p : ℂ) else q * Complex.I

/-- The last inequality of `C153_triangle` needs its hypothesis. There is a pure state whose first part is pure, too, but
`partial_trace_over_2` drops the imaginary parts of its matrix, and the entropy of what it returns is positive. -/
theorem C153_dropped : ∃ (ρ : Op (2 * 1)) (R : Op 2) (S : Op 1), Spec.IsDensity ρ ∧ partialTraceOver2 ρ 2 = .ok R ∧
    partialTraceOver1 ρ 1 = .ok S ∧ ∃ (l : Fin (2 * 1) → ℝ) (k : Fin 2 → ℝ) (m : Fin 1 → ℝ) (x y z : Arr),
      Spec.IsSpectrum ρ l ∧ Spec.IsSpectrum R k ∧ Spec.IsSpectrum S m ∧ Spec.Represents x l ∧ Spec.Represents y k ∧ Spec.Represents z m ∧
      ∃ u : ℝ, renyiEntropy x (.num 1) = .ok 0 ∧ renyiEntropy y (.num 1) = .ok (u : EReal) ∧ renyiEntropy z (.num 1) = .ok 0 ∧ 0 < u := by
  classical
  obtain ⟨q, hq⟩ : ∃ q : ℝ, q = 1e-9 := ⟨_, rfl⟩
  obtain ⟨p, hp⟩ : ∃ p : ℝ, p = √(1 - q ^ 2) := ⟨_, rfl⟩
  have hpq : p ^ 2 + q ^ 2 = 1 := by rw [hp, Real.sq_sqrt (by rw [hq]; norm_num)]; ring
  have hp0 : 0 < p := by rw [hp]; exact Real.sqrt_pos.2 (by rw [hq]; norm_num)
  have hp1 : p ≤ 1 := by nlinarith [sq_nonneg q]
  have hq0 : 0 < q := by rw [hq]; norm_num
  have hu : Spec.IsUnitVec (phaseVec p q) := by
    rw [Spec.IsUnitVec, show (∑ i : Fin (2 * 1), ‖phaseVec p q i‖ ^ 2) = ∑ i : Fin 2, ‖phaseVec p q i‖ ^ 2 from rfl, Fin.sum_univ_two]
    simp [phaseVec, hpq]
  have hd := proj_density hu
  obtain ⟨⟨S, h1, h2⟩, R, h3, h4⟩ := C14_states_to_states (a := 2) (b := 1) (by norm_num) (by norm_num) _ hd
  obtain ⟨l, x, hl, hx⟩ := has_spectrum hd
  obtain ⟨k, y, hk, hy⟩ := has_spectrum h4
  obtain ⟨m, z, hm, hz⟩ := has_spectrum h2
  have hpt : ∀ i j : Fin 2, pt2 (Spec.proj (phaseVec p q)) i j = phaseVec p q i * star (phaseVec p q j) := fun i j => by
    rw [pt2, sum_apply2, Fin.sum_univ_one, submatrix_apply]
    have e : ∀ i : Fin 2, (finProdFinEquiv (i, (0 : Fin 1)) : Fin (2 * 1)) = i := by decide
    rw [e, e]; rfl
  have hR : R = !![((p ^ 2 : ℝ) : ℂ), 0; 0, ((q ^ 2 : ℝ) : ℂ)] := by
    rw [partialTraceOver2_ok (by norm_num)] at h3
    rw [← Except.ok.inj h3, if_pos]
    · ext i j
      rw [reMat, of_apply, hpt]
      fin_cases i <;> fin_cases j <;> simp [phaseVec, pow_two]
    · intro i j
      rw [hpt]
      have : |p * q| ≤ 1e-8 := by
        rw [abs_of_pos (mul_pos hp0 hq0)]
        calc p * q ≤ 1 * q := mul_le_mul_of_nonneg_right hp1 hq0.le
          _ ≤ 1e-8 := by rw [hq]; norm_num
      fin_cases i <;> fin_cases j <;> simp [phaseVec, mul_comm] <;> norm_num at this ⊢ <;> linarith
  refine ⟨_, R, S, hd, h3, h1, l, k, m, x, y, z, hl, hk, hm, hx, hy, hz, ?_⟩
  obtain ⟨u, u1, u2, -, u3⟩ := C64_bounds hy (.num 1) zero_le_one
  obtain ⟨v, v1, v2, v3, -⟩ := C64_bounds hz (.num 1) zero_le_one
  have hv : v = 0 := le_antisymm (by simpa using v3) v2
  refine ⟨u, by rw [C64_formula hx 1 zero_le_one, pure_entropy hu hl]; rfl, u1, by rw [v1, hv]; rfl, lt_of_le_of_ne u2 fun h => ?_⟩
  obtain ⟨Y, hY, hRY⟩ := spectrum_basis h4.psd.isHermitian hk
  have hdet : R.det = ∏ i, ((k i : ℝ) : ℂ) := by
    rw [hRY, det_mul_comm, ← Matrix.mul_assoc, mul_eq_one_comm.1 hY, one_mul, det_diagonal]
  have hne : R.det ≠ 0 := by
    rw [hR, det_fin_two_of, mul_zero, sub_zero, ← Complex.ofReal_mul]
    exact_mod_cast (by positivity : p ^ 2 * q ^ 2 ≠ 0)
  rw [hdet, Finset.prod_ne_zero_iff] at hne
  obtain ⟨i, hi⟩ := u3.1 h.symm
  have h0 := hne 0 (Finset.mem_univ _)
  have h1 := hne 1 (Finset.mem_univ _)
  have hs := (represents_cast hy).2.2
  rw [Fin.sum_univ_two] at hs
  have : k 0 ≠ 0 ∧ k 1 ≠ 0 := ⟨by exact_mod_cast h0, by exact_mod_cast h1⟩
  fin_cases i
  · exact this.2 (by have := hi; simp at this; linarith)
  · exact this.1 (by have := hi; simp at this; linarith)

/-- The hypotheses of `C153_triangle` can be met, here by an entangled state of parts of different dimensions. -/
example : ∃ (R : Op 2) (S : Op 3) (l : Fin (2 * 3) → ℝ) (k : Fin 2 → ℝ) (m : Fin 3 → ℝ) (x y z : Arr), Spec.IsDensity (Spec.proj bellVec) ∧
    partialTraceOver2 (Spec.proj bellVec) 2 = .ok R ∧ partialTraceOver1 (Spec.proj bellVec) 3 = .ok S ∧
    (∀ i j, (∑ k : Fin 3, Spec.proj bellVec (finProdFinEquiv (i, k)) (finProdFinEquiv (j, k))).im = 0) ∧
    Spec.IsSpectrum (Spec.proj bellVec) l ∧ Spec.IsSpectrum R k ∧ Spec.IsSpectrum S m ∧ Spec.Represents x l ∧ Spec.Represents y k ∧
    Spec.Represents z m := by
  have hd := proj_density bellVec_unit
  obtain ⟨⟨S, h1, h2⟩, R, h3, h4⟩ := C14_states_to_states (a := 2) (b := 3) (by norm_num) (by norm_num) _ hd
  obtain ⟨l, x, a1, a2⟩ := has_spectrum hd
  obtain ⟨k, y, b1, b2⟩ := has_spectrum h4
  obtain ⟨m, z, c1, c2⟩ := has_spectrum h2
  refine ⟨R, S, l, k, m, x, y, z, hd, h3, h1, fun i j => ?_, a1, b1, c1, a2, b2, c2⟩
  rw [Complex.im_sum]
  refine Finset.sum_eq_zero fun k _ => ?_
  show (bellVec _ * star (bellVec _)).im = 0
  simp only [bellVec]
  split_ifs <;> simp

end FF.Props
