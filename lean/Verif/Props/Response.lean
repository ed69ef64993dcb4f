import Verif.Props.MaxEntropy
import Verif.Props.Parent

/-! # Property C152: thermal states respond to changes of the coefficients in the right direction -/

namespace FF.Props

open Matrix
open scoped ComplexOrder

variable {n : ℕ}

/-- The energy in terms of the correlation matrix. -/
theorem energy_corr {ρ : Op (2 ^ n)} {R eta : Op (n + n)} (he : compute2Corr ρ n (jordanWignerAlphas n) (some (-1)) = .ok eta) :
    (ρ * Spec.quad R (al n)).trace = ∑ i, ∑ j, R i j * eta i j := by
  rw [jordanWignerAlphas_eq, (C43_entries ρ _ (-1)).2] at he
  rw [← Except.ok.inj he, Spec.quad, Finset.mul_sum, trace_sum]
  refine Finset.sum_congr rfl fun i _ => ?_
  rw [Finset.mul_sum, trace_sum]
  refine Finset.sum_congr rfl fun j _ => ?_
  rw [mul_smul_comm, trace_smul, smul_eq_mul, of_apply, if_pos (by norm_num), Matrix.mul_assoc]

/-- C152. Going from the coefficients `H` to `H'`, the energy `Q' - Q` that is added is smaller in the new thermal state than in the old one (strictly
so, unless the states are the same), and the free energy changes by no more than its value in the old state. -/
theorem C152_response (hn : 3 ≤ n) {H H' : Op (n + n)} (hH : H.IsHermitian) (hH' : H'.IsHermitian) {Q Q' g g' : Op (2 ^ n)}
    (hQ : buildOp n H (jordanWignerAlphas n) false = .ok Q) (hg : generateGaussianState n H none = .ok (some g))
    (hQ' : buildOp n H' (jordanWignerAlphas n) false = .ok Q') (hg' : generateGaussianState n H' none = .ok (some g')) :
    (g' * (Q' - Q)).trace.re ≤ (g * (Q' - Q)).trace.re ∧ ((g' * (Q' - Q)).trace.re = (g * (Q' - Q)).trace.re ↔ g' = g) ∧
      -Real.log (expm (-Q')).trace.re ≤ -Real.log (expm (-Q)).trace.re + (g * (Q' - Q)).trace.re := by
  obtain ⟨h1, -, h3⟩ := thermal_facts hn hH hQ hg
  obtain ⟨h1', -, h3'⟩ := thermal_facts hn hH' hQ' hg'
  obtain ⟨l, x, hl, hx⟩ := has_spectrum h3
  obtain ⟨l', x', hl', hx'⟩ := has_spectrum h3'
  obtain ⟨S, s1, s2, s3⟩ := C150_free_energy hn hH hQ hg h3 hl hx
  obtain ⟨S', s1', s2', s3'⟩ := C150_free_energy hn hH' hQ' hg' h3 hl hx
  obtain ⟨T, t1, t2, t3⟩ := C150_free_energy hn hH hQ hg h3' hl' hx'
  obtain ⟨T', t1', t2', t3'⟩ := C150_free_energy hn hH' hQ' hg' h3' hl' hx'
  obtain rfl : S = S' := by rw [s1] at s1'; exact_mod_cast Except.ok.inj s1'
  obtain rfl : T = T' := by rw [t1] at t1'; exact_mod_cast Except.ok.inj t1'
  have a1 := s3.2 rfl
  have a2 := t3'.2 rfl
  simp only [Matrix.mul_sub, trace_sub, Complex.sub_re]
  refine ⟨by linarith, ⟨fun h => ?_, fun h => by rw [h]⟩, by linarith⟩
  exact t3.1 (by linarith)

/-- C152. Raising the energy of one site, and nothing else, lowers the occupation of that site in the thermal state; strictly so, unless
`build_op` skips the energy of the site before and after. -/
theorem C152_site (hn : 3 ≤ n) {A A' B : Op n} (hA : A.IsHermitian) (hA' : A'.IsHermitian) (hB : Bᵀ = -B) (k : Fin n)
    (hsame : ∀ i j, ¬(i = k ∧ j = k) → A' i j = A i j) (hlt : (A k k).re < (A' k k).re) {ρ ρ' : Op (2 ^ n)}
    (hρ : generateGaussianState n (buildH n A (some B)) none = .ok (some ρ))
    (hρ' : generateGaussianState n (buildH n A' (some B)) none = .ok (some ρ')) {eta eta' : Op (n + n)}
    (he : compute2Corr ρ n (jordanWignerAlphas n) (some (-1)) = .ok eta) (he' : compute2Corr ρ' n (jordanWignerAlphas n) (some (-1)) = .ok eta') :
    (eta' (Fin.natAdd n k) (Fin.natAdd n k)).re ≤ (eta (Fin.natAdd n k) (Fin.natAdd n k)).re ∧
      ((eta' (Fin.natAdd n k) (Fin.natAdd n k)).re < (eta (Fin.natAdd n k) (Fin.natAdd n k)).re ↔ 1e-10 ≤ ‖A k k‖ ∨ 1e-10 ≤ ‖A' k k‖) := by
  classical
  have hn1 : 1 ≤ n := by omega
  obtain ⟨P, hP⟩ : ∃ P, compute2Corr ρ n (jordanWignerAlphas n) (some 1) = .ok P := by
    rw [jordanWignerAlphas_eq]; exact ⟨_, (C43_entries ρ _ 1).2⟩
  obtain ⟨P', hP'⟩ : ∃ P, compute2Corr ρ' n (jordanWignerAlphas n) (some 1) = .ok P := by
    rw [jordanWignerAlphas_eq]; exact ⟨_, (C43_entries ρ' _ 1).2⟩
  have hbo := buildOp_square (buildH n A (some B)) (al n) hn1
  have hbo' := buildOp_square (buildH n A' (some B)) (al n) hn1
  rw [← jordanWignerAlphas_eq] at hbo hbo'
  have hd := (thermal_facts hn (buildH_herm A B hA hB) hbo hρ).2.2
  have hd' := (thermal_facts hn (buildH_herm A' B hA' hB) hbo' hρ').2.2
  obtain ⟨r1, r2, -⟩ := C152_response hn (buildH_herm A B hA hB) (buildH_herm A' B hA' hB) hbo hρ hbo' hρ'
  have hu := (C106_unique hn A' B A B hA' hB hA hB ρ' ρ P' P hρ' hρ hP' hP).1
  obtain ⟨-, -, -, -, o1, o2⟩ := C43_state ρ hd P eta hP he
  obtain ⟨-, -, -, -, o1', o2'⟩ := C43_state ρ' hd' P' eta' hP' he'
  have hc : ∀ k, eta (Fin.castAdd n k) (Fin.castAdd n k) = 1 - eta (Fin.natAdd n k) (Fin.natAdd n k) := fun k => by rw [o1, o2]
  have hc' : ∀ k, eta' (Fin.castAdd n k) (Fin.castAdd n k) = 1 - eta' (Fin.natAdd n k) (Fin.natAdd n k) := fun k => by rw [o1', o2']
  -- the diagonal entries are real
  have hAk : A k k = (((A k k).re : ℝ) : ℂ) := (Complex.conj_eq_iff_re.1 (hA.apply k k)).symm
  have hAk' : A' k k = (((A' k k).re : ℝ) : ℂ) := (Complex.conj_eq_iff_re.1 (hA'.apply k k)).symm
  obtain ⟨a, ha⟩ : ∃ a : ℝ, a = (A k k).re := ⟨_, rfl⟩
  obtain ⟨a', ha'⟩ : ∃ a : ℝ, a = (A' k k).re := ⟨_, rfl⟩
  rw [← ha] at hAk hlt
  rw [← ha'] at hAk' hlt
  obtain ⟨d, hdd⟩ : ∃ d : ℝ, d = (if |a'| < 1e-10 then 0 else a') - (if |a| < 1e-10 then 0 else a) := ⟨_, rfl⟩
  have hdiff : Spec.dropSmall 1e-10 A' - Spec.dropSmall 1e-10 A = Matrix.single k k (d : ℂ) := by
    ext i j
    rw [Matrix.sub_apply, Spec.dropSmall, Spec.dropSmall, of_apply, of_apply]
    by_cases h : i = k ∧ j = k
    · rw [h.1, h.2, single_apply_same, hAk, hAk', Complex.norm_real, Complex.norm_real, Real.norm_eq_abs, Real.norm_eq_abs, hdd]
      push_cast
      congr 1
      · split_ifs <;> simp
      · split_ifs <;> simp
    · rw [hsame i j h, sub_self, single_apply_of_ne _ _ _ _ _ (fun h' => h ⟨h'.1.symm, h'.2.symm⟩)]
  have hD : Spec.dropSmall 1e-10 (buildH n A' (some B)) - Spec.dropSmall 1e-10 (buildH n A (some B)) =
      blk (-(Matrix.single k k (d : ℂ))) 0 0 (Matrix.single k k (d : ℂ)) := by
    rw [dropSmall_buildH, dropSmall_buildH, buildH, buildH, blk_sub, Option.getD_some, hdiff, sub_self, sub_self]
    congr 1
    rw [neg_sub_neg, ← neg_sub]
    congr 1
    have : cj (Spec.dropSmall 1e-10 A') - cj (Spec.dropSmall 1e-10 A) = cj (Spec.dropSmall 1e-10 A' - Spec.dropSmall 1e-10 A) := by
      ext i j; simp [cj]
    rw [this, hdiff]
    ext i j
    simp only [cj, single, of_apply, map_apply]
    split_ifs <;> simp
  have hsum : ∀ E : Op (n + n), ∑ i, ∑ j, (Spec.dropSmall 1e-10 (buildH n A' (some B)) - Spec.dropSmall 1e-10 (buildH n A (some B))) i j * E i j =
      (d : ℂ) * (E (Fin.natAdd n k) (Fin.natAdd n k) - E (Fin.castAdd n k) (Fin.castAdd n k)) := fun E => by
    have hs : ∀ F : Fin n → Fin n → ℂ, ∑ i, ∑ j, (Matrix.single k k (d : ℂ)) i j * F i j = d * F k k := fun F => by
      rw [Finset.sum_eq_single k (fun i _ hi => Finset.sum_eq_zero fun j _ => by
        rw [single_apply_of_ne _ _ _ _ _ (fun h' => hi h'.1.symm), zero_mul]) (by simp),
        Finset.sum_eq_single k (fun j _ hj => by rw [single_apply_of_ne _ _ _ _ _ (fun h' => hj h'.2.symm), zero_mul]) (by simp), single_apply_same]
    rw [hD, Fin.sum_univ_add]
    simp only [Fin.sum_univ_add, blk_11, blk_12, blk_21, blk_22, Matrix.zero_apply, zero_mul, Finset.sum_const_zero, add_zero, zero_add,
      Matrix.neg_apply, neg_mul, Finset.sum_neg_distrib]
    rw [hs fun i j => E (Fin.castAdd n i) (Fin.castAdd n j), hs fun i j => E (Fin.natAdd n i) (Fin.natAdd n j)]
    ring
  have hq : Spec.quad (Spec.dropSmall 1e-10 (buildH n A' (some B))) (al n) - Spec.quad (Spec.dropSmall 1e-10 (buildH n A (some B))) (al n) =
      Spec.quad (Spec.dropSmall 1e-10 (buildH n A' (some B)) - Spec.dropSmall 1e-10 (buildH n A (some B))) (al n) := by
    simp only [Spec.quad, Matrix.sub_apply, sub_smul, Finset.sum_sub_distrib]
  rw [hq, energy_corr he, energy_corr he', hsum, hsum, hc, hc'] at r1 r2
  obtain ⟨o, ho⟩ : ∃ o, o = eta (Fin.natAdd n k) (Fin.natAdd n k) := ⟨_, rfl⟩
  obtain ⟨o', ho'⟩ : ∃ o, o = eta' (Fin.natAdd n k) (Fin.natAdd n k) := ⟨_, rfl⟩
  rw [← ho, ← ho'] at r1 r2
  have hre : ∀ z : ℂ, ((d : ℂ) * (z - (1 - z))).re = d * (2 * z.re - 1) := fun z => by
    rw [Complex.re_ofReal_mul, Complex.sub_re, Complex.sub_re, Complex.one_re]; ring
  rw [hre, hre] at r1 r2
  rw [hu] at r2
  rw [← ho, ← ho', hAk, hAk', Complex.norm_real, Complex.norm_real, Real.norm_eq_abs, Real.norm_eq_abs]
  have hd0 : 0 ≤ d ∧ (0 < d ↔ 1e-10 ≤ |a| ∨ 1e-10 ≤ |a'|) := by
    rw [hdd]
    by_cases h1 : |a'| < 1e-10 <;> by_cases h2 : |a| < 1e-10
    · simp [h1, h2]
    · rw [if_pos h1, if_neg h2]
      have : a < 0 := by
        by_contra h0
        have h0 := not_lt.1 h0
        rw [abs_of_nonneg h0] at h2
        rw [abs_of_pos (h0.trans_lt hlt)] at h1
        exact h2 (hlt.trans h1)
      exact ⟨by linarith, fun _ => .inl (not_lt.1 h2), fun _ => by linarith⟩
    · rw [if_neg h1, if_pos h2]
      have : 0 < a' := by
        by_contra h0
        have h0 := not_lt.1 h0
        rw [abs_of_nonpos h0] at h1
        rw [abs_of_neg (hlt.trans_le h0)] at h2
        exact h1 (by linarith)
      exact ⟨by linarith, fun _ => .inr (not_lt.1 h1), fun _ => by linarith⟩
    · rw [if_neg h1, if_neg h2]
      exact ⟨by linarith, fun _ => .inl (not_lt.1 h2), fun _ => by linarith⟩
  have hdz : Spec.dropSmall 1e-10 (buildH n A' (some B)) = Spec.dropSmall 1e-10 (buildH n A (some B)) ↔ d = 0 := by
    rw [← sub_eq_zero, hD]
    constructor
    · intro h
      have := congrFun (congrFun h (Fin.natAdd n k)) (Fin.natAdd n k)
      rw [blk_22, single_apply_same, Matrix.zero_apply] at this
      exact_mod_cast this
    · rintro h
      rw [h]
      apply ext_halves <;> intro i j <;> simp [-Fin.natAdd_eq_addNat]
  rw [hdz] at r2
  rw [← hd0.2]
  rcases hd0.1.eq_or_lt with h0 | h0
  · have hst : ρ' = ρ := hu.2 (hdz.2 h0.symm)
    have : eta' = eta := by rw [hst, he] at he'; exact (Except.ok.inj he').symm
    rw [ho, ho', this]
    exact ⟨le_rfl, fun h => absurd h (lt_irrefl _), fun h => absurd h0 h.ne⟩
  · have hlt' : o'.re < o.re := by
      have hne : d * (2 * o'.re - 1) ≠ d * (2 * o.re - 1) := fun h => h0.ne' (r2.1 h)
      nlinarith [lt_of_le_of_ne r1 hne]
    exact ⟨hlt'.le, fun _ => h0, fun _ => hlt'⟩

/-- C152. Lowering the temperature, that is multiplying the coefficients with `c > 1`, lowers the energy and the entropy of the thermal state, strictly
unless it does not change the state. (The coefficients that are not 0 are at least 1e-10, so that `build_op` skips none.) -/
theorem C152_cooling (hn : 3 ≤ n) {H : Op (n + n)} (hH : H.IsHermitian) (hbig : ∀ i j, H i j = 0 ∨ 1e-10 ≤ ‖H i j‖) {c : ℝ} (hc : 1 < c)
    {Q g g' : Op (2 ^ n)} (hQ : buildOp n H (jordanWignerAlphas n) false = .ok Q) (hg : generateGaussianState n H none = .ok (some g))
    (hg' : generateGaussianState n ((c : ℂ) • H) none = .ok (some g')) {l l' : Fin (2 ^ n) → ℝ} (hl : Spec.IsSpectrum g l)
    (hl' : Spec.IsSpectrum g' l') {x x' : Arr} (hx : Spec.Represents x l) (hx' : Spec.Represents x' l') :
    ∃ S S' : ℝ, renyiEntropy x (.num 1) = .ok (S : EReal) ∧ renyiEntropy x' (.num 1) = .ok (S' : EReal) ∧
      ((g' * Q).trace.re < (g * Q).trace.re ∧ S' < S ∨ g' = g) := by
  have hn1 : 1 ≤ n := by omega
  have hcH : ((c : ℂ) • H).IsHermitian := by
    rw [IsHermitian, conjTranspose_smul, hH]; simp
  have hsame : ∀ r : ℝ, 1 ≤ r → Spec.dropSmall 1e-10 ((r : ℂ) • H) = (r : ℂ) • H := fun r hr => by
    classical
    ext i j
    rw [Spec.dropSmall, of_apply, Matrix.smul_apply, smul_eq_mul, norm_mul, Complex.norm_real, Real.norm_eq_abs, abs_of_pos (by linarith)]
    rcases hbig i j with h | h
    · rw [h]; simp
    · rw [if_neg (not_lt.2 (h.trans (le_mul_of_one_le_left (norm_nonneg _) hr)))]
  have hbo := buildOp_square H (al n) hn1
  have hbo' := buildOp_square ((c : ℂ) • H) (al n) hn1
  rw [← jordanWignerAlphas_eq] at hbo hbo'
  have h1 := hsame 1 le_rfl
  rw [Complex.ofReal_one, one_smul] at h1
  have hquad : Spec.quad (Spec.dropSmall 1e-10 ((c : ℂ) • H)) (al n) = (c : ℂ) • Q := by
    rw [hQ, h1] at hbo
    rw [Except.ok.inj hbo, hsame c hc.le]
    simp only [Spec.quad, Finset.smul_sum, Matrix.smul_apply, smul_eq_mul, mul_smul]
  rw [hquad] at hbo'
  obtain ⟨-, -, d1⟩ := thermal_facts hn hH hQ hg
  obtain ⟨-, -, d2⟩ := thermal_facts hn hcH hbo' hg'
  obtain ⟨r1, r2, -⟩ := C152_response hn hH hcH hQ hg hbo' hg'
  obtain ⟨S, s1, -, s3⟩ := C150_free_energy hn hH hQ hg d1 hl hx
  obtain ⟨S', t1, t2, -⟩ := C150_free_energy hn hH hQ hg d2 hl' hx'
  refine ⟨S, S', s1, t1, ?_⟩
  have e : ∀ ρ : Op (2 ^ n), (ρ * ((c : ℂ) • Q - Q)).trace.re = (c - 1) * (ρ * Q).trace.re := fun ρ => by
    rw [Matrix.mul_sub, mul_smul_comm, trace_sub, trace_smul, smul_eq_mul, Complex.sub_re, Complex.re_ofReal_mul]; ring
  rw [e, e] at r1 r2
  by_cases h : g' = g
  · exact .inr h
  · have hlt : (g' * Q).trace.re < (g * Q).trace.re := by
      have hne := fun h' => h (r2.1 h')
      nlinarith [lt_of_le_of_ne r1 hne]
    have := s3.2 rfl
    exact .inl ⟨hlt, by linarith⟩

/-- C152. In particular, for coefficients from `build_H`, lowering the temperature lowers the energy and the entropy, if any coefficient is not 0. -/
theorem C152_cooling_strict (hn : 3 ≤ n) {A B : Op n} (hA : A.IsHermitian) (hB : Bᵀ = -B) (hbig : ∀ i j, (A i j = 0 ∨ 1e-10 ≤ ‖A i j‖) ∧
    (B i j = 0 ∨ 1e-10 ≤ ‖B i j‖)) (h0 : A ≠ 0 ∨ B ≠ 0) {c : ℝ} (hc : 1 < c) {Q g g' : Op (2 ^ n)}
    (hQ : buildOp n (buildH n A (some B)) (jordanWignerAlphas n) false = .ok Q) (hg : generateGaussianState n (buildH n A (some B)) none = .ok (some g))
    (hg' : generateGaussianState n ((c : ℂ) • buildH n A (some B)) none = .ok (some g')) {l l' : Fin (2 ^ n) → ℝ} (hl : Spec.IsSpectrum g l)
    (hl' : Spec.IsSpectrum g' l') {x x' : Arr} (hx : Spec.Represents x l) (hx' : Spec.Represents x' l') :
    ∃ S S' : ℝ, renyiEntropy x (.num 1) = .ok (S : EReal) ∧ renyiEntropy x' (.num 1) = .ok (S' : EReal) ∧
      (g' * Q).trace.re < (g * Q).trace.re ∧ S' < S := by
  classical
  have hb : ∀ i j, buildH n A (some B) i j = 0 ∨ 1e-10 ≤ ‖buildH n A (some B) i j‖ := by
    have hs : ∀ z : ℂ, (z = 0 ∨ 1e-10 ≤ ‖z‖) → (-star z = 0 ∨ 1e-10 ≤ ‖-star z‖) := fun z h => by
      rw [norm_neg, norm_star, neg_eq_zero, star_eq_zero]; exact h
    intro i j
    rw [buildH]
    induction i using Fin.addCases with
    | left i =>
      induction j using Fin.addCases with
      | left j => rw [blk_11]; exact hs _ (hbig i j).1
      | right j => rw [blk_12]; exact (hbig i j).2
    | right i =>
      induction j using Fin.addCases with
      | left j => rw [blk_21]; exact hs _ (hbig i j).2
      | right j => rw [blk_22]; exact (hbig i j).1
  obtain ⟨S, S', h1, h2, h3⟩ := C152_cooling hn (buildH_herm A B hA hB) hb hc hQ hg hg' hl hl' hx hx'
  refine ⟨S, S', h1, h2, h3.resolve_right fun he => ?_⟩
  have hsm : (c : ℂ) • buildH n A (some B) = buildH n ((c : ℂ) • A) (some ((c : ℂ) • B)) := by
    rw [buildH, buildH, blk_smul]
    apply blk_congr <;> ext i j <;> simp [cj]
  have hcA : ((c : ℂ) • A).IsHermitian := by rw [IsHermitian, conjTranspose_smul, hA]; simp
  have hcB : ((c : ℂ) • B)ᵀ = -((c : ℂ) • B) := by rw [transpose_smul, hB, smul_neg]
  obtain ⟨P, hP⟩ : ∃ P, compute2Corr g n (jordanWignerAlphas n) (some 1) = .ok P := by
    rw [jordanWignerAlphas_eq]; exact ⟨_, (C43_entries g _ 1).2⟩
  obtain ⟨P', hP'⟩ : ∃ P, compute2Corr g' n (jordanWignerAlphas n) (some 1) = .ok P := by
    rw [jordanWignerAlphas_eq]; exact ⟨_, (C43_entries g' _ 1).2⟩
  rw [hsm] at hg'
  have hu := (C106_unique hn _ _ A B hcA hcB hA hB g' g P' P hg' hg hP' hP).1.1 he
  rw [← hsm] at hu
  have hz : ∀ i j, buildH n A (some B) i j = 0 := fun i j => by
    have := congrFun (congrFun hu i) j
    rw [Spec.dropSmall, Spec.dropSmall, of_apply, of_apply, Matrix.smul_apply, smul_eq_mul, norm_mul, Complex.norm_real, Real.norm_eq_abs,
      abs_of_pos (by linarith)] at this
    rcases hb i j with h | h
    · exact h
    · rw [if_neg (not_lt.2 (h.trans (le_mul_of_one_le_left (norm_nonneg _) hc.le))), if_neg (not_lt.2 h)] at this
      have h4 : ((c : ℂ) - 1) * buildH n A (some B) i j = 0 := by rw [sub_mul, this, one_mul, sub_self]
      refine (mul_eq_zero.1 h4).resolve_left fun h5 => hc.ne' ?_
      exact_mod_cast sub_eq_zero.1 h5
  rcases h0 with h | h
  · exact h (by ext i j; have := hz (Fin.natAdd n i) (Fin.natAdd n j); rwa [buildH, blk_22] at this)
  · exact h (by ext i j; have := hz (Fin.castAdd n i) (Fin.natAdd n j); rwa [buildH, blk_12] at this)

/-- The hypotheses of `C152_site` can be met: raise the energy of the first of three sites from 1 to 2. -/
example : ∃ (A A' : Op 3) (ρ ρ' : Op (2 ^ 3)) (eta eta' : Op (3 + 3)), A.IsHermitian ∧ A'.IsHermitian ∧ (0 : Op 3)ᵀ = -0 ∧
    (∀ i j, ¬(i = 0 ∧ j = 0) → A' i j = A i j) ∧ (A 0 0).re < (A' 0 0).re ∧
    generateGaussianState 3 (buildH 3 A (some 0)) none = .ok (some ρ) ∧ generateGaussianState 3 (buildH 3 A' (some 0)) none = .ok (some ρ') ∧
    compute2Corr ρ 3 (jordanWignerAlphas 3) (some (-1)) = .ok eta ∧ compute2Corr ρ' 3 (jordanWignerAlphas 3) (some (-1)) = .ok eta' := by
  have h1 : (1 : Op 3).IsHermitian := isHermitian_one
  have h2 : (1 + Matrix.single 0 0 1 : Op 3).IsHermitian := by
    rw [IsHermitian, conjTranspose_add, conjTranspose_one, conjTranspose_single, star_one]
  have hz : (0 : Op 3)ᵀ = -0 := by rw [transpose_zero, neg_zero]
  obtain ⟨Q, g, -, a2, -⟩ := C41_coefficients_partial 3 le_rfl _ (buildH_herm _ _ h1 hz) (al 3)
  obtain ⟨Q', g', -, b2, -⟩ := C41_coefficients_partial 3 le_rfl _ (buildH_herm _ _ h2 hz) (al 3)
  rw [← jordanWignerAlphas_eq, ← C41_default] at a2 b2
  have he : ∀ g : Op (2 ^ 3), ∃ e, compute2Corr g 3 (jordanWignerAlphas 3) (some (-1)) = .ok e := fun g => by
    rw [jordanWignerAlphas_eq]; exact ⟨_, (C43_entries g _ (-1)).2⟩
  obtain ⟨e, h4⟩ := he g
  obtain ⟨e', h5⟩ := he g'
  refine ⟨1, 1 + Matrix.single 0 0 1, g, g', e, e', h1, h2, hz, fun i j h => ?_, by norm_num, a2, b2, h4, h5⟩
  rw [Matrix.add_apply, single_apply_of_ne _ _ _ _ _ (fun h' => h ⟨h'.1.symm, h'.2.symm⟩), add_zero]

/-- The hypotheses of `C152_cooling_strict` can be met (and with them those of `C152_response` and `C152_cooling`). -/
example : ∃ (Q g g' : Op (2 ^ 3)) (l l' : Fin (2 ^ 3) → ℝ) (x x' : Arr), (1 : Op 3).IsHermitian ∧ (0 : Op 3)ᵀ = -0 ∧
    (∀ i j, ((1 : Op 3) i j = 0 ∨ 1e-10 ≤ ‖(1 : Op 3) i j‖) ∧ ((0 : Op 3) i j = 0 ∨ 1e-10 ≤ ‖(0 : Op 3) i j‖)) ∧ (1 : Op 3) ≠ 0 ∧
    buildOp 3 (buildH 3 1 (some 0)) (jordanWignerAlphas 3) false = .ok Q ∧ generateGaussianState 3 (buildH 3 1 (some 0)) none = .ok (some g) ∧
    generateGaussianState 3 (((2 : ℝ) : ℂ) • buildH 3 1 (some 0)) none = .ok (some g') ∧ Spec.IsSpectrum g l ∧ Spec.IsSpectrum g' l' ∧
    Spec.Represents x l ∧ Spec.Represents x' l' := by
  have h1 : (1 : Op 3).IsHermitian := isHermitian_one
  have hz : (0 : Op 3)ᵀ = -0 := by rw [transpose_zero, neg_zero]
  have h2 := buildH_herm _ _ h1 hz
  have h3 : (((2 : ℝ) : ℂ) • buildH 3 1 (some 0)).IsHermitian := by rw [IsHermitian, conjTranspose_smul, h2]; simp
  obtain ⟨Q, g, a1, a2, -, a4, a5⟩ := C41_coefficients_partial 3 le_rfl _ h2 (al 3)
  obtain ⟨Q', g', -, b2, -, b4, b5⟩ := C41_coefficients_partial 3 le_rfl _ h3 (al 3)
  rw [← jordanWignerAlphas_eq] at a1 a2 b2
  rw [← C41_default] at a2 b2
  obtain ⟨l, x, c1, c2⟩ := has_spectrum (ρ := g) ⟨a4.posSemidef, a5⟩
  obtain ⟨l', x', d1, d2⟩ := has_spectrum (ρ := g') ⟨b4.posSemidef, b5⟩
  refine ⟨Q, g, g', l, l', x, x', h1, hz, fun i j => ⟨?_, .inl rfl⟩, one_ne_zero, a1, a2, b2, c1, d1, c2, d2⟩
  by_cases h : i = j
  · right; rw [h, one_apply_eq, norm_one]; norm_num
  · left; exact one_apply_ne h

end FF.Props
