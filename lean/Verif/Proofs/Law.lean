import Verif.Spec.Law
import Verif.Proofs.Random
import Mathlib.MeasureTheory.Measure.Prod

/-! # Lemmas on the distributions of random draws -/

namespace FF

open Matrix MeasureTheory ProbabilityTheory Spec

instance matrixBorel {m n α : Type} [Countable m] [Countable n] [TopologicalSpace α] [MeasurableSpace α] [SecondCountableTopology α]
    [BorelSpace α] : BorelSpace (Matrix m n α) := inferInstanceAs (BorelSpace (m → n → α))

instance matrixSecond {m n α : Type} [Countable m] [Countable n] [TopologicalSpace α] [SecondCountableTopology α] :
    SecondCountableTopology (Matrix m n α) := inferInstanceAs (SecondCountableTopology (m → n → α))

section
variable {σ α β : Type} [MeasurableSpace σ] [MeasurableSpace α] [MeasurableSpace β] {μ : Measure σ} [IsProbabilityMeasure μ]

theorem fresh_map {f : σ → α × σ} {ν : Measure α} [SFinite ν] (h : Fresh f ν μ) {F : α → β} (hF : Measurable F) :
    Fresh (fun s => (F (f s).1, (f s).2)) (ν.map F) μ where
  measurable := (hF.comp (measurable_fst.comp h.measurable)).prodMk (measurable_snd.comp h.measurable)
  law := by
    have e : (fun s => (F (f s).1, (f s).2)) = Prod.map F id ∘ f := rfl
    rw [e, ← Measure.map_map (hF.prodMap measurable_id) h.measurable, h.law, ← Measure.map_prod_map _ _ hF measurable_id, Measure.map_id]

theorem fresh_pair {f : σ → α × σ} {g : σ → β × σ} {ν : Measure α} {ν' : Measure β} [SFinite ν] [SFinite ν'] (h : Fresh f ν μ)
    (h' : Fresh g ν' μ) : Fresh (fun s => (((f s).1, (g (f s).2).1), (g (f s).2).2)) (ν.prod ν') μ where
  measurable := ((measurable_fst.comp h.measurable).prodMk (measurable_fst.comp (h'.measurable.comp (measurable_snd.comp h.measurable)))).prodMk
    (measurable_snd.comp (h'.measurable.comp (measurable_snd.comp h.measurable)))
  law := by
    have e : (fun s => (((f s).1, (g (f s).2).1), (g (f s).2).2)) = MeasurableEquiv.prodAssoc.symm ∘ Prod.map id g ∘ f := rfl
    rw [e, ← Measure.map_map MeasurableEquiv.prodAssoc.symm.measurable ((measurable_id.prodMap h'.measurable).comp h.measurable),
      ← Measure.map_map (measurable_id.prodMap h'.measurable) h.measurable, h.law,
      ← Measure.map_prod_map _ _ measurable_id h'.measurable, Measure.map_id, h'.law]
    rw [← Measure.prodAssoc_prod, MeasurableEquiv.map_symm_map]

theorem fresh_fst {f : σ → α × σ} {ν : Measure α} [SFinite ν] (h : Fresh f ν μ) : μ.map (fun s => (f s).1) = ν := by
  have e : (fun s => (f s).1) = Prod.fst ∘ f := rfl
  rw [e, ← Measure.map_map measurable_fst h.measurable, h.law, ← Measure.fst, Measure.fst_prod]

/-- The law of the first draw of a source is a probability measure. -/
theorem fresh_fst' {f : σ → α × σ} {ν : Measure α} (h : Fresh f ν μ) : μ.map (fun s => (f s).1) = ν := by
  have e : (fun s => (f s).1) = Prod.fst ∘ f := rfl
  rw [e, ← Measure.map_map measurable_fst h.measurable, h.law, ← Measure.fst, Measure.fst_prod]

theorem fresh_snd {f : σ → α × σ} {ν : Measure α} [IsProbabilityMeasure ν] (h : Fresh f ν μ) : μ.map (fun s => (f s).2) = μ := by
  have e : (fun s => (f s).2) = Prod.snd ∘ f := rfl
  rw [e, ← Measure.map_map measurable_snd h.measurable, h.law, ← Measure.snd, Measure.snd_prod]

end

section
variable {d : ℕ} {R X : Type} [CommRing R] [MeasurableSpace R] [MeasurableSpace X]

/-- A distribution that is invariant under a group acting transitively on its support is determined by the Haar
distribution of the group. -/
theorem invariant_unique {G : Set (Matrix (Fin d) (Fin d) R)} {l : Measure (Matrix (Fin d) (Fin d) R)} (hl : IsHaar G l)
    (act : Matrix (Fin d) (Fin d) R → X → X) (hact : Measurable fun p : Matrix (Fin d) (Fin d) R × X => act p.1 p.2)
    (hmul : ∀ V : Matrix (Fin d) (Fin d) R, Measurable fun U : Matrix (Fin d) (Fin d) R => U * V) (x0 : X)
    (hassoc : ∀ U ∈ G, ∀ V ∈ G, act U (act V x0) = act (U * V) x0) (ν : Measure X) (hν : IsProbabilityMeasure ν)
    (hs : ∀ᵐ x ∂ν, ∃ V ∈ G, x = act V x0) (hi : ∀ V ∈ G, ν.map (act V) = ν) : ν = l.map (fun U => act U x0) := by
  have := hl.prob
  have hx0 : Measurable fun U => act U x0 := hact.comp (measurable_id.prodMk measurable_const)
  ext E hE
  have hpre : MeasurableSet {p : Matrix (Fin d) (Fin d) R × X | act p.1 p.2 ∈ E} := hact hE
  have h1 : (l.prod ν) {p | act p.1 p.2 ∈ E} = ν E := by
    rw [Measure.prod_apply hpre]
    have : ∀ᵐ U ∂l, ν (Prod.mk U ⁻¹' {p : Matrix (Fin d) (Fin d) R × X | act p.1 p.2 ∈ E}) = ν E := by
      filter_upwards [hl.support] with U hU
      conv_rhs => rw [← hi U hU]
      have hm : Measurable (act U) := hact.comp (measurable_const.prodMk measurable_id)
      rw [Measure.map_apply hm hE]
      rfl
    rw [lintegral_congr_ae this, lintegral_const, measure_univ, mul_one]
  have h2 : (l.prod ν) {p | act p.1 p.2 ∈ E} = l.map (fun U => act U x0) E := by
    rw [Measure.prod_apply_symm hpre]
    have : ∀ᵐ x ∂ν, l ((fun U => (U, x)) ⁻¹' {p : Matrix (Fin d) (Fin d) R × X | act p.1 p.2 ∈ E}) = l.map (fun U => act U x0) E := by
      filter_upwards [hs] with x hx
      obtain ⟨V, hV, rfl⟩ := hx
      conv_rhs => rw [← hl.right V hV]
      rw [Measure.map_map hx0 (hmul V), Measure.map_apply (hx0.comp (hmul V)) hE]
      refine measure_congr ?_
      filter_upwards [hl.support] with U hU
      change (act U (act V x0) ∈ E) = (act (U * V) x0 ∈ E)
      rw [hassoc U hU V hV]
    rw [lintegral_congr_ae this, lintegral_const, measure_univ, mul_one]
  rw [← h1, h2]

end

/-! ## orbital rotations -/

theorem orb_mul {n : ℕ} (O P : RMat (n + n)) : orb (O * P) = orb O * orb P := by
  rw [orb, orb, orb, toC_mul]
  calc (buildOmega n)ᴴ * (toC O * toC P) * buildOmega n
      = (buildOmega n)ᴴ * toC O * 1 * toC P * buildOmega n := by simp only [mul_assoc, one_mul]
    _ = _ := by rw [← omega_unitary' n]; simp only [mul_assoc]

theorem orb_measurable {n : ℕ} : Measurable (orb : RMat (n + n) → Op (n + n)) := by
  refine Continuous.measurable ?_
  refine (continuous_const.matrix_mul ?_).matrix_mul continuous_const
  exact continuous_id.matrix_map Complex.continuous_ofReal

end FF
