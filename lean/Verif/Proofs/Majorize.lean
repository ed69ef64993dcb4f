import Verif.Proofs.Eigen3
import Verif.Proofs.TraceNorm
import Verif.Proofs.Stabilizer
import Verif.Proofs.UtilsText
import Verif.Spec.Plot

/-! # Helper lemmas for `analyze_pdf`: the diagonal of a Hermitian matrix and its eigenvalues -/

namespace FF

open Matrix
open scoped ComplexOrder

theorem rint_mono {x y : ℝ} (h : x ≤ y) : rint x ≤ rint y := by
  have hx := rint_near x
  have hy := rint_near y
  rw [abs_le] at hx hy
  by_contra hc
  have h1 : rint y + 1 ≤ rint x := by omega
  have h2 : (rint y : ℝ) + 1 ≤ rint x := by exact_mod_cast h1
  have : x = y := le_antisymm h (by linarith)
  subst this
  exact hc le_rfl

theorem npRound_mono (k : ℤ) {x y : ℝ} (h : x ≤ y) : npRound k x ≤ npRound k y := by
  unfold npRound
  have := p10 k
  gcongr
  exact rint_mono (by gcongr)

variable {d : ℕ}

/-- The spectrum in descending order. -/
noncomputable def specDesc (ρ : Op d) : Fin d → ℝ := fun i => eigvalsh ρ i.rev

theorem specDesc_isSpectrum {ρ : Op d} (h : ρ.IsHermitian) : Spec.IsSpectrum ρ (specDesc ρ) := by
  refine ⟨fun i j hij => eigvalsh_mono ρ (Fin.rev_le_rev.2 hij), ?_⟩
  rw [eigvalsh_charpoly h]
  exact (Equiv.prod_comp Fin.revPerm fun i => (Polynomial.X - Polynomial.C ((eigvalsh ρ i : ℝ) : ℂ))).symm

theorem isSpectrum_unique {ρ : Op d} (h : ρ.IsHermitian) {l : Fin d → ℝ} (hl : Spec.IsSpectrum ρ l) : specDesc ρ = l := by
  have := eigvalsh_unique h (a := fun i => l i.rev) (fun i j hij => hl.1 (Fin.rev_le_rev.2 hij))
    (hl.2.trans (Equiv.prod_comp Fin.revPerm fun i => (Polynomial.X - Polynomial.C ((l i : ℝ) : ℂ))).symm)
  funext i
  rw [specDesc, this]
  exact congrArg l (Fin.rev_rev i)

/-- Unitary weights: the diagonal entries are averages of the eigenvalues. -/
theorem diag_average {ρ : Op d} (h : ρ.IsHermitian) : ∃ W : Matrix (Fin d) (Fin d) ℝ, (∀ i j, 0 ≤ W i j) ∧
    (∀ i, ∑ j, W i j = 1) ∧ (∀ j, ∑ i, W i j = 1) ∧ ∀ i, (ρ i i).re = ∑ j, W i j * specDesc ρ j := by
  have hlow := lowerHerm_eq h
  have hL := lowerHerm_isHermitian ρ
  let g : Fin d ≃ Fin d := ((finCongr (by simp : d = Fintype.card (Fin d))).trans
    (Fintype.equivOfCardEq (Fintype.card_fin _)))
  have e : ∀ i : Fin d, specDesc ρ i = hL.eigenvalues (g i) := by
    intro i
    rw [specDesc, eigvalsh, Fin.rev_rev, IsHermitian.eigenvalues]
    simp only [g, Equiv.trans_apply, Equiv.symm_apply_apply]
    rfl
  let U : Op d := hL.eigenvectorUnitary
  have hU : U * Uᴴ = 1 := (Matrix.mem_unitaryGroup_iff).1 hL.eigenvectorUnitary.2
  have hU' : Uᴴ * U = 1 := mul_eq_one_comm.1 hU
  refine ⟨fun i j => ‖U i (g j)‖ ^ 2, fun i j => by positivity, fun i => ?_, fun j => ?_, fun i => ?_⟩
  · rw [Equiv.sum_comp g fun j => ‖U i j‖ ^ 2]
    have := congrFun (congrFun hU i) i
    rw [mul_apply, one_apply_eq] at this
    simp only [conjTranspose_apply, Complex.star_def, Complex.mul_conj, Complex.normSq_eq_norm_sq] at this
    exact_mod_cast this
  · have := congrFun (congrFun hU' (g j)) (g j)
    rw [mul_apply, one_apply_eq] at this
    simp only [conjTranspose_apply, Complex.star_def, ← Complex.normSq_eq_conj_mul_self, Complex.normSq_eq_norm_sq] at this
    exact_mod_cast this
  · simp only [e]
    rw [Equiv.sum_comp g fun j => ‖U i j‖ ^ 2 * hL.eigenvalues j]
    have hs := hL.spectral_theorem
    rw [Unitary.conjStarAlgAut_apply] at hs
    have h2 := congrFun (congrFun (hlow.symm.trans hs) i) i
    rw [mul_apply] at h2
    have h3 : ρ i i = ((∑ j, ‖U i j‖ ^ 2 * hL.eigenvalues j : ℝ) : ℂ) := by
      rw [h2]
      push_cast
      refine Finset.sum_congr rfl fun j _ => ?_
      rw [mul_diagonal, star_apply, Function.comp]
      change U i j * _ * star (U i j) = _
      rw [Complex.star_def, mul_right_comm, Complex.mul_conj, Complex.normSq_eq_norm_sq]
      push_cast
      rfl
    rw [h3, Complex.ofReal_re]

theorem weighted_le {l c : Fin d → ℝ} (hl : Antitone l) (h0 : ∀ j, 0 ≤ c j) (h1 : ∀ j, c j ≤ 1) {k : ℕ} (hk : k ≤ d)
    (hs : ∑ j, c j = k) : ∑ j, c j * l j ≤ ∑ j : Fin d, if (j : ℕ) < k then l j else 0 := by
  rcases Nat.eq_zero_or_pos k with rfl | hpos
  · have : ∀ j, c j = 0 := fun j => (Finset.sum_eq_zero_iff_of_nonneg fun j _ => h0 j).1 (by simpa using hs) j (Finset.mem_univ _)
    simp [this]
  · set t := l ⟨k - 1, by omega⟩
    have hcard : ∑ j : Fin d, (if (j : ℕ) < k then (1 : ℝ) else 0) = k := by
      rw [Finset.sum_boole]
      have : (Finset.univ.filter fun j : Fin d => (j : ℕ) < k) = Finset.univ.map (Fin.castLEEmb hk) := by
        ext j
        simp only [Finset.mem_filter, Finset.mem_univ, true_and, Finset.mem_map]
        constructor
        · intro h; exact ⟨⟨j, h⟩, rfl⟩
        · rintro ⟨a, rfl⟩; exact a.2
      rw [this, Finset.card_map, Finset.card_univ, Fintype.card_fin]
    have key : ∑ j : Fin d, ((if (j : ℕ) < k then (1 : ℝ) else 0) - c j) * (l j - t) =
        (∑ j : Fin d, if (j : ℕ) < k then l j else 0) - ∑ j, c j * l j := by
      have : ∀ j : Fin d, ((if (j : ℕ) < k then (1 : ℝ) else 0) - c j) * (l j - t) =
          (if (j : ℕ) < k then l j else 0) - c j * l j - ((if (j : ℕ) < k then (1 : ℝ) else 0) - c j) * t := by
        intro j; split_ifs <;> ring
      simp only [this]
      rw [Finset.sum_sub_distrib, ← Finset.sum_mul, Finset.sum_sub_distrib, Finset.sum_sub_distrib, hs, hcard]
      ring
    have : 0 ≤ ∑ j : Fin d, ((if (j : ℕ) < k then (1 : ℝ) else 0) - c j) * (l j - t) := by
      refine Finset.sum_nonneg fun j _ => ?_
      split_ifs with h
      · exact mul_nonneg (by linarith [h1 j]) (sub_nonneg.2 (hl (by rw [Fin.le_def]; simp; omega)))
      · exact mul_nonneg_of_nonpos_of_nonpos (by linarith [h0 j])
          (sub_nonpos.2 (hl (by rw [Fin.le_def]; simp; omega)))
    linarith

/-- Schur: the diagonal is majorised by the spectrum. -/
theorem schur_majorize {ρ : Op d} (h : ρ.IsHermitian) (S : Finset (Fin d)) :
    ∑ i ∈ S, (ρ i i).re ≤ ∑ j : Fin d, if (j : ℕ) < S.card then specDesc ρ j else 0 := by
  obtain ⟨W, h0, hr, hc, hd⟩ := diag_average h
  simp only [hd]
  rw [Finset.sum_comm]
  simp only [← Finset.sum_mul]
  refine weighted_le (specDesc_isSpectrum h).1 (fun j => Finset.sum_nonneg fun i _ => h0 i j) (fun j => ?_)
    ((Finset.card_le_univ S).trans (by simp)) ?_
  · rw [← hc j]
    exact Finset.sum_le_sum_of_subset_of_nonneg (Finset.subset_univ _) fun i _ _ => h0 i j
  · rw [Finset.sum_comm]
    simp [hr]

theorem sum_specDesc {ρ : Op d} (h : ρ.IsHermitian) : ∑ j, specDesc ρ j = ∑ i, (ρ i i).re := by
  obtain ⟨W, h0, hr, hc, hd⟩ := diag_average h
  simp only [hd]
  rw [Finset.sum_comm]
  simp only [← Finset.sum_mul, hc, one_mul]

/-! ## cleaning with the default threshold -/

theorem clean_default (v : List ℂ) (h : ∀ z ∈ v, z.im = 0) :
    clean (.array v) (.float 1e-6) = .ok (.array (v.map fun z => ((npRound 6 z.re : ℝ) : ℂ))) := by
  have hl : rint (Real.logb 10 1e-6) = -6 := by
    have : Real.logb 10 1e-6 = ((-6 : ℤ) : ℝ) := by
      rw [show (1e-6 : ℝ) = 10 ^ ((-6 : ℤ) : ℝ) by rw [Real.rpow_intCast]; norm_num]
      exact Real.logb_rpow (by norm_num) (by norm_num)
    rw [this, rint_int]
  rw [clean_float _ (by norm_num), hl, neg_neg]
  simp only [cleanWith]
  rw [if_pos]
  intro z hz
  rw [h z hz]
  norm_num

theorem npSortDesc_eq (l : Fin d → ℝ) (hl : Monotone l) :
    npSortDesc (List.ofFn fun i => ((l i : ℝ) : ℂ)) = List.ofFn fun i => ((l i.rev : ℝ) : ℂ) := by
  classical
  unfold npSortDesc
  rw [List.mergeSort_of_pairwise]
  · refine List.ext_getElem (by simp) fun i h1 h2 => ?_
    rw [List.getElem_reverse, List.getElem_ofFn, List.getElem_ofFn]
    congr 3
    simp only [List.length_ofFn]
    omega
  · rw [List.pairwise_ofFn]
    intro i j hij
    simpa using hl hij.le

/-- What `analyze_pdf` draws for a state. -/
theorem analyzePdf_ok {x : Arr} {ρ : Op d} (hx : Spec.IsState x ρ) (name : Option String) (stem : Bool) :
    analyzePdf (some x) name stem = .ok {
      stem := stem
      diag := List.ofFn fun i => ((npRound 6 (ρ i i).re : ℝ) : ℂ)
      eigenvalues := List.ofFn fun i => ((npRound 6 (specDesc ρ i) : ℝ) : ℂ)
      title := match name with
        | none => "Population analysis"
        | some s => "Population analysis" ++ " of " ++ s } := by
  obtain ⟨h1, h2⟩ := state_cast hx
  have hd : d ≠ 0 := by
    rintro rfl
    have := h2.trace_one
    simp [trace] at this
  have hsize : x.size ≠ 0 := by
    rcases hx with ⟨ψ, hψ, rfl, rfl⟩ | ⟨hρ, rfl⟩ | ⟨p, hp, rfl, rfl, h2⟩
    · exact hd
    · exact mul_ne_zero hd hd
    · exact hd
  unfold analyzePdf
  simp only [bind, Except.bind]
  rw [if_neg hsize, h1]
  simp only
  rw [clean_default _ (fun z hz => by
    obtain ⟨i, rfl⟩ := (List.mem_ofFn' _ _).1 hz
    exact Complex.conj_eq_iff_im.1 (h2.psd.isHermitian.apply i i)), clean_default _ (fun z hz => by
    obtain ⟨i, rfl⟩ := (List.mem_ofFn' _ _).1 hz
    exact Complex.ofReal_im _)]
  simp only [CleanRes.entries, List.map_ofFn, Function.comp_def, Complex.ofReal_re]
  rw [npSortDesc_eq _ (fun i j hij => npRound_mono 6 (eigvalsh_mono ρ hij))]
  rfl

end FF
