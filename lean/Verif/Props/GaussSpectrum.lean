import Verif.Proofs.GaussSpectrum2
import Verif.Props.Reduced
import Verif.Props.PureGauss
import Verif.Props.Entropy
import Verif.Spec.Plot

/-! # Property C128: the eigenvalues and the entropies of a free-fermion state from its correlation matrix -/

namespace FF.Props

open Matrix
open scoped ComplexOrder

variable {n a b : ℕ} {f : Fin (n + n) → Op (2 ^ n)}

/-- `p_1, 1 - p_1, ..., p_n, 1 - p_n` are the eigenvalues of `P`, with multiplicities. -/
def IsOccupations (P : Op (n + n)) (p : Fin n → ℝ) : Prop :=
  P.charpoly = ∏ k, ((Polynomial.X - Polynomial.C ((p k : ℝ) : ℂ)) * (Polynomial.X - Polynomial.C ((1 - p k : ℝ) : ℂ)))

/-- The products `∏ p_k or 1 - p_k` over all the `2^n` choices are the eigenvalues of `ρ`, with multiplicities. -/
def HasProductSpectrum (ρ : Op (2 ^ n)) (p : Fin n → ℝ) : Prop :=
  ρ.charpoly = ∏ c : Fin n → Bool, (Polynomial.X - Polynomial.C ((∏ k, if c k then p k else 1 - p k : ℝ) : ℂ))

/-! ## C128 -/

/-- C128. For every state the eigenvalues of the correlation matrix `compute_2corr_matrix(ρ, conjugation=1)` come in pairs
`p_k, 1 - p_k` of probabilities. -/
theorem C128_pairs {ρ : Op (2 ^ n)} (hρ : Spec.IsDensity ρ) (P : Op (n + n))
    (hP : compute2Corr ρ n (jordanWignerAlphas n) (some 1) = .ok P) :
    ∃ p : Fin n → ℝ, (∀ k, 0 ≤ p k ∧ p k ≤ 1) ∧ IsOccupations P p := by
  obtain rfl := corrP_code hP
  obtain ⟨U, p, V, e, hU, hV, hP, -⟩ :=
    gauss_of_corr (corr_herm hρ.psd.isHermitian.eq) (eq_sub_of_add_eq' (corr_ph hρ.trace_one))
  exact ⟨p, append_range hU hP (corr_psd hρ.psd), append_charpoly hU hP⟩

/-- C128. Any such pairing consists of probabilities. -/
theorem C128_range {ρ : Op (2 ^ n)} (hρ : Spec.IsDensity ρ) (P : Op (n + n))
    (hP : compute2Corr ρ n (jordanWignerAlphas n) (some 1) = .ok P) (p : Fin n → ℝ) (hp : IsOccupations P p) (k : Fin n) :
    0 ≤ p k ∧ p k ≤ 1 := by
  obtain ⟨q, hq, hq'⟩ := C128_pairs hρ P hP
  obtain ⟨π, hπ⟩ := pairs_unique (hp.symm.trans hq')
  have h1 := hq (π k)
  have h2 : |q (π k) - 1 / 2| ≤ 1 / 2 := abs_le.2 ⟨by linarith [h1.1], by linarith [h1.2]⟩
  rw [← hπ k, abs_le] at h2
  exact ⟨by linarith [h2.1], by linarith [h2.2]⟩

/-- C128. The spectrum of a state that obeys Wick's theorem: the `2n` eigenvalues `p_k, 1 - p_k` of its correlation matrix
determine its `2^n` eigenvalues, which are all the products with one factor `p_k` or `1 - p_k` for every `k`. -/
theorem C128_spectrum {ρ : Op (2 ^ n)} (hρ : Spec.IsDensity ρ) (hf : jordanWignerAlphas n = List.ofFn f)
    (hw : Spec.ObeysWick f ρ) (P : Op (n + n)) (hP : compute2Corr ρ n (jordanWignerAlphas n) (some 1) = .ok P)
    (p : Fin n → ℝ) (hp : IsOccupations P p) : HasProductSpectrum ρ p := by
  obtain rfl := corrP_code hP
  rw [jordanWignerAlphas_eq] at hf
  obtain rfl := List.ofFn_injective hf
  exact wick_charpoly hρ.psd.isHermitian.eq hρ.trace_one hw hp

/-- C128. The purity of such a state from the correlation matrix: `Tr ρ²` is the product of the `p_k² + (1 - p_k)²`, and its
square is `det(P² + (1 - P)²)`. -/
theorem C128_purity {ρ : Op (2 ^ n)} (hρ : Spec.IsDensity ρ) (hf : jordanWignerAlphas n = List.ofFn f)
    (hw : Spec.ObeysWick f ρ) (P : Op (n + n)) (hP : compute2Corr ρ n (jordanWignerAlphas n) (some 1) = .ok P) :
    (ρ * ρ).trace ^ 2 = (P * P + (1 - P) * (1 - P)).det ∧
    ∀ p : Fin n → ℝ, IsOccupations P p → (ρ * ρ).trace = ((∏ k, (p k ^ 2 + (1 - p k) ^ 2) : ℝ) : ℂ) := by
  obtain rfl := corrP_code hP
  rw [jordanWignerAlphas_eq] at hf
  obtain rfl := List.ofFn_injective hf
  obtain ⟨U, q, V, e, hU, hV, hPq, hρq⟩ := wick_modeState hρ.psd.isHermitian.eq hρ.trace_one hw
  have ht : (ρ * ρ).trace = ((∏ k, (q k ^ 2 + (1 - q k) ^ 2) : ℝ) : ℂ) := by
    conv_lhs => rw [hρq]
    exact modeState_sq_trace hV q
  refine ⟨?_, fun p hp => ?_⟩
  · rw [purity_det hU hPq, ht]; push_cast; rfl
  · obtain ⟨π, hπ⟩ := pairs_unique ((append_charpoly hU hPq).symm.trans hp)
    obtain ⟨E, hE⟩ := patP_relabel π hπ
    rw [ht, ← patP_sq, ← patP_sq, ← E.sum_comp fun c => patP p c ^ 2]
    simp only [hE]

/-- C128. The entropy of such a state: `renyi_entropy` of its eigenvalues is, at every order from 0 to infinity, the sum of
`renyi_entropy` of the two-outcome distributions `(p_k, 1 - p_k)`. So it can be computed from the `2n x 2n` correlation
matrix instead of the `2^n x 2^n` density matrix. -/
theorem C128_entropy {ρ : Op (2 ^ n)} (hρ : Spec.IsDensity ρ) (hf : jordanWignerAlphas n = List.ofFn f)
    (hw : Spec.ObeysWick f ρ) (P : Op (n + n)) (hP : compute2Corr ρ n (jordanWignerAlphas n) (some 1) = .ok P)
    (p : Fin n → ℝ) (hp : IsOccupations P p) (l : Fin (2 ^ n) → ℝ) (hl : Spec.IsSpectrum ρ l) (x : Arr)
    (hx : Spec.Represents x l) (y : Fin n → Arr) (hy : ∀ k, Spec.Represents (y k) ![p k, 1 - p k]) (o : Order)
    (ho : OrderOk o) :
    ∃ s : Fin n → ℝ, (∀ k, renyiEntropy (y k) o = .ok ((s k : ℝ) : EReal)) ∧
      renyiEntropy x o = .ok ((∑ k, s k : ℝ) : EReal) := by
  have hr := C128_range hρ P hP p hp
  have hs := C128_spectrum hρ hf hw P hP p hp
  have e : (Fin n → Bool) ≃ Fin (2 ^ n) := Fintype.equivFinOfCardEq (by simp)
  have hs' : ρ.charpoly = ∏ i, (Polynomial.X - Polynomial.C ((patP p (e.symm i) : ℝ) : ℂ)) := by
    rw [e.symm.prod_comp fun c => (Polynomial.X - Polynomial.C ((patP p c : ℝ) : ℂ))]
    exact hs
  obtain ⟨π, hπ⟩ := same_roots (hl.2.symm.trans hs')
  have hl' : l = fun i => patP p (e.symm (π i)) := funext hπ
  cases o with
  | num t =>
    refine ⟨fun k => Spec.renyi ![p k, 1 - p k] t, fun k => C64_formula (hy k) t ho, ?_⟩
    rw [C64_formula hx t ho, hl', renyi_perm (fun i => patP p (e.symm i)) π, renyi_modes hr]
  | inf =>
    have hm : ∀ k, Spec.IsMax ![p k, 1 - p k] (max (p k) (1 - p k)) := fun k => by
      refine ⟨?_, fun i => ?_⟩
      · rcases le_total (p k) (1 - p k) with h | h
        · exact ⟨1, by rw [max_eq_right h]; rfl⟩
        · exact ⟨0, by rw [max_eq_left h]; rfl⟩
      · fin_cases i
        · exact le_max_left _ _
        · exact le_max_right _ _
    refine ⟨fun k => -Real.log (max (p k) (1 - p k)), fun k => C64_inf (hy k) _ (hm k), ?_⟩
    have hM : Spec.IsMax l (∏ k, max (p k) (1 - p k)) := by
      obtain ⟨⟨i, hi⟩, hM⟩ := max_modes hr e
      rw [hl']
      exact ⟨⟨π.symm i, by simpa using hi⟩, fun j => hM (π j)⟩
    rw [C64_inf hx _ hM, Finset.sum_neg_distrib, Real.log_prod]
    intro k _
    have := hr k
    have h2 : 0 < max (p k) (1 - p k) := by
      rcases le_total (p k) (1 - p k) with h | h
      · rw [max_eq_right h]; linarith
      · rw [max_eq_left h]; linarith
    exact h2.ne'

/-- C128. Every correlation matrix occurs: a Hermitian `P` between 0 and 1 with `S Pᵀ S = 1 - P` is the result of
`compute_2corr_matrix(ρ, conjugation=1)` for exactly one density matrix that obeys Wick's theorem. Unlike C106 this covers
matrices with eigenvalues 0 and 1. -/
theorem C128_realise (hf : jordanWignerAlphas n = List.ofFn f) (P : Op (n + n)) (h0 : P.PosSemidef)
    (hS : Spec.swap n * Pᵀ * Spec.swap n = 1 - P) :
    ∃! ρ : Op (2 ^ n), Spec.IsDensity ρ ∧ Spec.ObeysWick f ρ ∧
      compute2Corr ρ n (jordanWignerAlphas n) (some 1) = .ok P := by
  rw [jordanWignerAlphas_eq] at hf
  obtain rfl := List.ofFn_injective hf
  rw [← swapS_eq] at hS
  obtain ⟨U, p, V, e, hU, hV, hP, -, hw, hc⟩ := gauss_of_corr h0.isHermitian hS
  have hG : ∀ σ : Op (2 ^ n), gam (al n) σ = corrP σ * swapS n := fun σ => by
    ext i j
    rw [mul_swapS, corrP, of_apply, al_conjTranspose, fl_fl]; rfl
  refine ⟨modeState V e p, ⟨modeState_density hV (append_range hU hP h0), hw, ?_⟩, fun σ ⟨_, hσ, hσ'⟩ => ?_⟩
  · rw [jordanWignerAlphas_eq, (C43_entries _ (al n) 1).2]
    exact congrArg Except.ok hc
  · refine wick_unique hσ hw ?_
    rw [hG, hG, hc, ← corrP_code hσ']

/-- C128. The entanglement spectrum of a state that obeys Wick's theorem: the eigenvalues of the state of the last `b` sites,
from `partial_trace_over_1`, are the products of the eigenvalues of the block of the full correlation matrix that belongs to
these sites. -/
theorem C128_reduced {ρ : Op (2 ^ (a + b))} (hρ : Spec.IsDensity ρ) {F : Fin ((a + b) + (a + b)) → Op (2 ^ (a + b))}
    (hf : jordanWignerAlphas (a + b) = List.ofFn F) (hw : Spec.ObeysWick F ρ) (P : Op ((a + b) + (a + b)))
    (hP : compute2Corr ρ (a + b) (jordanWignerAlphas (a + b)) (some 1) = .ok P) :
    ∃ R, partialTraceOver1 ρ (2 ^ b) = .ok R ∧ Spec.IsDensity R ∧
      (∃ p, IsOccupations (P.submatrix (Spec.lastSites a b) (Spec.lastSites a b)) p) ∧
      ∀ p, IsOccupations (P.submatrix (Spec.lastSites a b) (Spec.lastSites a b)) p →
        (∀ k, 0 ≤ p k ∧ p k ≤ 1) ∧ HasProductSpectrum R p := by
  obtain ⟨R, h1, h2⟩ := C99_wick_last ρ F hf (al b) (jordanWignerAlphas_eq b) hw
  have hR : R = rd1 ρ := by rw [over1_sites] at h1; exact (Except.ok.inj h1).symm
  have hd : Spec.IsDensity R := by
    rw [hR]
    refine ⟨?_, ?_⟩
    · have : rd1 ρ = ∑ j, ρ.submatrix (fun x => sIdx a b (j, x)) (fun x => sIdx a b (j, x)) := by
        ext x y
        rw [rd1, of_apply, Matrix.sum_apply]
        rfl
      rw [this]
      exact Matrix.posSemidef_sum _ fun j _ => hρ.psd.submatrix _
    · have := rd1_trace ρ (1 : Op (2 ^ b))
      rw [mul_one, kr_one, mul_one, hρ.trace_one] at this
      exact this
  have hPR : compute2Corr R b (jordanWignerAlphas b) (some 1) = .ok (P.submatrix (Spec.lastSites a b) (Spec.lastSites a b)) := by
    rw [jordanWignerAlphas_eq, (C43_entries _ (al b) 1).2, corrP_code hP, hR]
    congr 1
    ext x y
    have hfl : fl (Spec.lastSites a b y) = Spec.lastSites a b (fl y) := by
      refine Fin.addCases (fun i => ?_) (fun i => ?_) y
      · simp only [fl_left, Spec.lastSites, Fin.addCases_left, Fin.addCases_right]
      · simp only [fl_right, Spec.lastSites, Fin.addCases_left, Fin.addCases_right]
    rw [submatrix_apply, corrP, of_apply, of_apply, if_neg (by norm_num), al_conjTranspose, al_conjTranspose, hfl]
    exact corr_last ρ x (fl y)
  obtain ⟨p, -, hp⟩ := C128_pairs hd _ hPR
  exact ⟨R, h1, hd, ⟨p, hp⟩, fun q hq => ⟨C128_range hd _ hPR q hq, C128_spectrum hd (jordanWignerAlphas_eq b) h2 _ hPR q hq⟩⟩

/-- C128. In particular for the states of `generate_gaussian_state` and their last sites. -/
theorem C128_thermal (hn : 3 ≤ n) (H : Op (n + n)) (hH : H.IsHermitian) (ρ : Op (2 ^ n))
    (hρ : generateGaussianState n H none = .ok (some ρ)) (P : Op (n + n))
    (hP : compute2Corr ρ n (jordanWignerAlphas n) (some 1) = .ok P) :
    ∃ p : Fin n → ℝ, (∀ k, 0 ≤ p k ∧ p k ≤ 1) ∧ IsOccupations P p ∧ HasProductSpectrum ρ p := by
  obtain ⟨g, hg, -⟩ := C28_majoranas n
  have hw := (C88_thermal hn H hH ρ hρ (jordanWignerAlphas_eq n) hg).1
  obtain ⟨Q, ρ', h1, h2, h3, h4, h5⟩ := C41_coefficients_partial n hn H hH (al n)
  rw [C41_default, jordanWignerAlphas_eq, h2] at hρ
  obtain rfl : ρ' = ρ := by simpa using hρ
  have hd : Spec.IsDensity ρ' := ⟨h4.posSemidef, h5⟩
  obtain ⟨p, hp, hp'⟩ := C128_pairs hd P hP
  exact ⟨p, hp, hp', C128_spectrum hd (jordanWignerAlphas_eq n) hw P hP p hp'⟩

/-- The hypotheses of `C128_spectrum` and `C128_purity` are met by the thermal state of a Kitaev chain of three sites. -/
example : ∃ (ρ : Op (2 ^ 3)) (P : Op (3 + 3)) (p : Fin 3 → ℝ), Spec.IsDensity ρ ∧ Spec.ObeysWick (al 3) ρ ∧
    jordanWignerAlphas 3 = List.ofFn (al 3) ∧ generateGaussianState 3 (kitaevChain 3 1 1 1) none = .ok (some ρ) ∧
    compute2Corr ρ 3 (jordanWignerAlphas 3) (some 1) = .ok P ∧ IsOccupations P p := by
  have hH := (C36_structure 3 1 1 1).1
  obtain ⟨Q, ρ, -, h2, -, h4, h5⟩ := C41_coefficients_partial 3 le_rfl _ hH (al 3)
  rw [← jordanWignerAlphas_eq, ← C41_default] at h2
  obtain ⟨g, hg, -⟩ := C28_majoranas 3
  obtain ⟨P, hP⟩ : ∃ P, compute2Corr ρ 3 (jordanWignerAlphas 3) (some 1) = .ok P := by
    rw [jordanWignerAlphas_eq]; exact ⟨_, (C43_entries ρ (al 3) 1).2⟩
  obtain ⟨p, -, hp⟩ := C128_pairs ⟨h4.posSemidef, h5⟩ _ hP
  exact ⟨ρ, _, p, ⟨h4.posSemidef, h5⟩, (C88_thermal le_rfl _ hH ρ h2 (jordanWignerAlphas_eq 3) hg).1, jordanWignerAlphas_eq 3, h2, hP, hp⟩

/-- The hypotheses of `C128_realise` are met by the correlation matrix `diag(1, 0)` of the filled site, which no Hamiltonian
of C106 has. -/
example : (diagonal ![1, 0] : Op (1 + 1)).PosSemidef ∧
    Spec.swap 1 * (diagonal ![1, 0] : Op (1 + 1))ᵀ * Spec.swap 1 = 1 - diagonal ![1, 0] := by
  refine ⟨PosSemidef.diagonal fun i => by fin_cases i <;> simp, ?_⟩
  rw [← swapS_eq]
  ext i j
  rw [mul_swapS, swapS_mul, transpose_apply]
  have f0 : fl (n := 1) 0 = 1 := rfl
  have f1 : fl (n := 1) 1 = 0 := rfl
  fin_cases i <;> fin_cases j <;> simp [f0, f1, diagonal_apply]

/-- The hypotheses of `C128_entropy` are met by the maximally mixed state of one site, with the occupation 1/2. -/
example : ∃ (ρ : Op (2 ^ 1)) (P : Op (1 + 1)), Spec.IsDensity ρ ∧ Spec.ObeysWick (al 1) ρ ∧
    compute2Corr ρ 1 (jordanWignerAlphas 1) (some 1) = .ok P ∧ IsOccupations P (fun _ => 1 / 2) ∧
    Spec.IsSpectrum ρ (fun _ => 1 / 2) ∧
    Spec.Represents (.vec 2 fun _ => ((1 / 2 : ℝ) : ℂ)) (fun _ : Fin (2 ^ 1) => (1 / 2 : ℝ)) := by
  have h0 : ((1 / 2 : ℂ) • (1 : Op (1 + 1))).PosSemidef := by
    rw [smul_one_eq_diagonal]
    refine PosSemidef.diagonal fun i => ?_
    simp only [Pi.zero_apply]
    have : (0 : ℂ) ≤ ((1 / 2 : ℝ) : ℂ) := by
      rw [Complex.zero_le_real]; norm_num
    push_cast at this
    exact this
  have hS : Spec.swap 1 * ((1 / 2 : ℂ) • (1 : Op (1 + 1)))ᵀ * Spec.swap 1 = 1 - (1 / 2 : ℂ) • 1 := by
    rw [← swapS_eq, transpose_smul, transpose_one, Matrix.mul_smul, mul_one, Matrix.smul_mul, swapS_sq]
    module
  obtain ⟨ρ, ⟨hd, hw, hP⟩, -⟩ := C128_realise (jordanWignerAlphas_eq 1) _ h0 hS
  have hocc : IsOccupations ((1 / 2 : ℂ) • (1 : Op (1 + 1))) (fun _ => 1 / 2) := by
    rw [IsOccupations, smul_one_eq_diagonal, charpoly_diagonal]
    simp only [Finset.univ_unique, Finset.prod_singleton, Fin.prod_univ_two]
    push_cast
    norm_num
    ring
  have hs := C128_spectrum hd (jordanWignerAlphas_eq 1) hw _ hP _ hocc
  refine ⟨ρ, _, hd, hw, hP, hocc, ⟨fun _ _ _ => le_rfl, ?_⟩, .inr (.inr ⟨⟨fun _ => by norm_num, ?_⟩, rfl, ?_⟩)⟩
  · rw [hs]
    have h : ∀ c : Fin 1 → Bool, (∏ k : Fin 1, if c k then (1 / 2 : ℝ) else 1 - 1 / 2) = 1 / 2 := fun c => by
      rw [Finset.univ_unique, Finset.prod_singleton]
      split_ifs <;> norm_num
    simp only [h]
    simp
  · simp
  · have h1 : (0 : ℝ) ≤ Real.sqrt (∑ _i : Fin (2 ^ 1), (1 / 2 : ℝ) ^ 2) := Real.sqrt_nonneg _
    have h2 : Real.sqrt (∑ _i : Fin (2 ^ 1), (1 / 2 : ℝ) ^ 2) ≤ 3 / 4 := by
      rw [Real.sqrt_le_left (by norm_num)]
      norm_num
    rw [abs_sub_comm]
    refine lt_of_lt_of_le ?_ (le_abs_self _)
    norm_num at h2 ⊢
    linarith

end FF.Props
