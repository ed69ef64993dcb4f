import Verif.Proofs.Reduced
import Verif.Props.Wick

/-! # Property C99: reduced states of free-fermion states -/

namespace FF.Props

open Matrix
open scoped ComplexOrder

variable {a b : ℕ}

/-! ## C99 -/

/-- C99. The pair correlations of the last `b` sites: tracing out the first `a` sites with `partial_trace_over_1` and then
calling `compute_2corr_matrix` on the smaller chain gives exactly the block of the full correlation matrix that belongs to
those sites, although the operators of the smaller chain are not those of the larger one. -/
theorem C99_last (ρ : Op (2 ^ (a + b))) (Γ : Op ((a + b) + (a + b)))
    (h : compute2Corr ρ (a + b) (jordanWignerAlphas (a + b)) none = .ok Γ) :
    ∃ R, partialTraceOver1 ρ (2 ^ b) = .ok R ∧
      compute2Corr R b (jordanWignerAlphas b) none = .ok (Γ.submatrix (Spec.lastSites a b) (Spec.lastSites a b)) := by
  rw [jordanWignerAlphas_eq, (C43_entries ρ (al _) 1).1] at h
  refine ⟨_, over1_sites ρ, ?_⟩
  rw [jordanWignerAlphas_eq, (C43_entries _ (al b) 1).1, ← Except.ok.inj h]
  congr 1
  ext x y
  exact corr_last ρ x y

/-- C99. The pair correlations of the first `a` sites, from `partial_trace_over_2`: the block of the full correlation matrix,
or its real part, in which case all the imaginary parts that are lost are at most `2^a * 1e-8`. -/
theorem C99_first (ρ : Op (2 ^ (a + b))) (Γ : Op ((a + b) + (a + b)))
    (h : compute2Corr ρ (a + b) (jordanWignerAlphas (a + b)) none = .ok Γ) :
    ∃ R G, partialTraceOver2 ρ (2 ^ a) = .ok R ∧ compute2Corr R a (jordanWignerAlphas a) none = .ok G ∧
      (G = Γ.submatrix (Spec.firstSites a b) (Spec.firstSites a b) ∨
        ∀ x y, G x y = (((Γ (Spec.firstSites a b x) (Spec.firstSites a b y)).re : ℝ) : ℂ) ∧
          |(Γ (Spec.firstSites a b x) (Spec.firstSites a b y)).im| ≤ 2 ^ a * 1e-8) := by
  classical
  rw [jordanWignerAlphas_eq, (C43_entries ρ (al _) 1).1] at h
  refine ⟨_, _, over2_sites ρ, by rw [jordanWignerAlphas_eq]; exact (C43_entries _ (al a) 1).1, ?_⟩
  rw [← Except.ok.inj h]
  split_ifs with hs
  · refine .inr fun x y => ?_
    have hc := corr_first ρ x y
    rw [of_apply, of_apply, reMat_corr, hc]
    refine ⟨rfl, ?_⟩
    rw [← hc]
    exact small_corr hs x y
  · refine .inl ?_
    ext x y
    exact corr_first ρ x y

/-- C99. Wick's theorem is inherited by the state of the last `b` sites. -/
theorem C99_wick_last (ρ : Op (2 ^ (a + b))) (f : Fin ((a + b) + (a + b)) → Op (2 ^ (a + b)))
    (hf : jordanWignerAlphas (a + b) = List.ofFn f) (f' : Fin (b + b) → Op (2 ^ b))
    (hf' : jordanWignerAlphas b = List.ofFn f') (h : Spec.ObeysWick f ρ) :
    ∃ R, partialTraceOver1 ρ (2 ^ b) = .ok R ∧ Spec.ObeysWick f' R := by
  rw [jordanWignerAlphas_eq] at hf hf'
  obtain rfl := List.ofFn_injective hf
  obtain rfl := List.ofFn_injective hf'
  exact ⟨_, over1_sites ρ, wick_last_sites h⟩

/-- C99. Wick's theorem is inherited by the state of the first `a` sites: `partial_trace_over_2` returns a matrix that obeys
it, or, when all its imaginary parts are at most `1e-8`, the real part of that matrix. -/
theorem C99_wick_first (ρ : Op (2 ^ (a + b))) (f : Fin ((a + b) + (a + b)) → Op (2 ^ (a + b)))
    (hf : jordanWignerAlphas (a + b) = List.ofFn f) (f' : Fin (a + a) → Op (2 ^ a))
    (hf' : jordanWignerAlphas a = List.ofFn f') (h : Spec.ObeysWick f ρ) :
    ∃ R S, partialTraceOver2 ρ (2 ^ a) = .ok R ∧ Spec.ObeysWick f' S ∧
      (R = S ∨ ∀ i j, |(S i j).im| ≤ 1e-8 ∧ R i j = (((S i j).re : ℝ) : ℂ)) := by
  classical
  rw [jordanWignerAlphas_eq] at hf hf'
  obtain rfl := List.ofFn_injective hf
  obtain rfl := List.ofFn_injective hf'
  refine ⟨_, rd2 ρ, over2_sites ρ, wick_first_sites h, ?_⟩
  split_ifs with hs
  · exact .inr fun i j => ⟨hs i j, rfl⟩
  · exact .inl rfl

/-- C99. So in the state of the last `b` sites of a thermal state every correlation function is `pf` of the contractions
of a block of the correlation matrix of the whole chain. -/
theorem C99_thermal (hn : 3 ≤ a + b) (H : Op ((a + b) + (a + b))) (hH : H.IsHermitian) (ρ : Op (2 ^ (a + b)))
    (hρ : generateGaussianState (a + b) H none = .ok (some ρ)) (Γ : Op ((a + b) + (a + b)))
    (hΓ : compute2Corr ρ (a + b) (jordanWignerAlphas (a + b)) none = .ok Γ) (f' : Fin (b + b) → Op (2 ^ b))
    (hf' : jordanWignerAlphas b = List.ofFn f') :
    ∃ R, partialTraceOver1 ρ (2 ^ b) = .ok R ∧ ∀ (m : ℕ) (L : Fin m → Fin (b + b)),
      pf (Spec.contraction (Γ.submatrix (Spec.lastSites a b) (Spec.lastSites a b)) L) =
        .ok (R * (List.ofFn fun i => f' (L i)).prod).trace := by
  obtain ⟨R, h1, h2⟩ := C99_last ρ Γ hΓ
  have hw := (C88_thermal hn H hH ρ hρ (jordanWignerAlphas_eq _) (jordanWignerMajoranas_eq _)).1
  obtain ⟨R', h3, h4⟩ := C99_wick_last ρ _ (jordanWignerAlphas_eq _) f' hf' hw
  obtain rfl : R = R' := Except.ok.inj (h1.symm.trans h3)
  refine ⟨R, h1, fun m L => ?_⟩
  rw [hf'] at h2
  exact C88_code h4 _ h2 L

/-- The positions for one site cut off a chain of three on either side. -/
example : (List.ofFn fun k => (Spec.firstSites 2 1 k : ℕ)) = [0, 1, 3, 4] ∧
    (List.ofFn fun k => (Spec.lastSites 2 1 k : ℕ)) = [2, 5] := by decide

/-- The hypotheses of `C99_thermal` are met for a Kitaev chain of three sites cut after the first. -/
example : ∃ (ρ : Op (2 ^ (1 + 2))) (Γ : Op ((1 + 2) + (1 + 2))),
    generateGaussianState (1 + 2) (kitaevChain (1 + 2) 1 1 1) none = .ok (some ρ) ∧
    (kitaevChain (1 + 2) 1 1 1).IsHermitian ∧
    compute2Corr ρ (1 + 2) (jordanWignerAlphas (1 + 2)) none = .ok Γ := by
  have hH := (C36_structure (1 + 2) 1 1 1).1
  obtain ⟨Q, ρ, -, h2, -⟩ := C41_coefficients_partial (1 + 2) le_rfl _ hH (al (1 + 2))
  exact ⟨ρ, _, by rw [C41_default, jordanWignerAlphas_eq, h2], hH, by
    rw [jordanWignerAlphas_eq]; exact (C43_entries ρ (al (1 + 2)) 1).1⟩

end FF.Props
