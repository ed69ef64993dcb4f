import Verif.Proofs.Haar
import Mathlib.Probability.ProductMeasure

/-! # An ideal random source exists -/

namespace FF

open Matrix MeasureTheory Measure ProbabilityTheory Spec

/-- The first element of a stream of independent samples is independent of the rest. -/
theorem stream_split {X : Type} [MeasurableSpace X] (l : Measure X) [IsProbabilityMeasure l] :
    (infinitePi fun _ : ℕ => l).map (fun f => (f 0, fun i => f (i + 1))) = l.prod (infinitePi fun _ : ℕ => l) := by
  classical
  set μ := infinitePi fun _ : ℕ => l with hμ
  set c : X × (ℕ → X) → ℕ → X := fun p i => Nat.casesOn i p.1 p.2 with hc
  have hcm : Measurable c := by
    rw [measurable_pi_iff]
    rintro (_ | i)
    · exact measurable_fst
    · exact (measurable_pi_apply i).comp measurable_snd
  have hdm : Measurable fun f : ℕ → X => (f 0, fun i => f (i + 1)) :=
    (measurable_pi_apply 0).prodMk (measurable_pi_lambda _ fun i => measurable_pi_apply (i + 1))
  have h1 : (l.prod μ).map c = μ := by
    refine eq_infinitePi _ fun s t ht => ?_
    have e : c ⁻¹' (s : Set ℕ).pi t = (if 0 ∈ s then t 0 else Set.univ) ×ˢ
        ((s.preimage (· + 1) (add_left_injective 1).injOn : Finset ℕ) : Set ℕ).pi (fun i => t (i + 1)) := by
      ext ⟨x, f⟩
      simp only [Set.mem_preimage, Set.mem_pi, Set.mem_prod, Finset.mem_coe, Finset.mem_preimage]
      constructor
      · intro h
        refine ⟨?_, fun i hi => h (i + 1) hi⟩
        split_ifs with h0
        · exact h 0 h0
        · trivial
      · rintro ⟨h0, h2⟩ (_ | i) hi
        · rw [if_pos hi] at h0; exact h0
        · exact h2 i hi
    rw [Measure.map_apply hcm (MeasurableSet.pi s.countable_toSet fun i _ => ht i), e, Measure.prod_prod, hμ,
      infinitePi_pi _ fun i _ => ht (i + 1)]
    rw [Finset.prod_preimage' (fun i => i + 1) s (add_left_injective 1).injOn fun i => l (t i)]
    rw [← Finset.prod_filter_mul_prod_filter_not s (fun i => i ∈ Set.range fun i => i + 1), mul_comm]
    congr 1
    have e2 : (s.filter fun i => i ∉ Set.range fun i => i + 1) = if 0 ∈ s then {0} else ∅ := by
      ext i
      rw [Finset.mem_filter]
      rcases i with _ | i
      · split_ifs with h <;> simp [h]
      · split_ifs with h <;> simp
    rw [e2]
    split_ifs <;> simp
  conv_lhs => rw [← h1]
  rw [Measure.map_map hdm hcm]
  have : (fun f : ℕ → X => (f 0, fun i => f (i + 1))) ∘ c = id := rfl
  rw [this, Measure.map_id]

/-- Drawing from one of several independent sources leaves the others alone. -/
theorem source_split {K : Type} {X : K → Type} [∀ k, MeasurableSpace (X k)] [DecidableEq K] (ν : (k : K) → Measure (X k))
    [∀ k, IsProbabilityMeasure (ν k)] (k : K) {Y : Type} [MeasurableSpace Y] (g : X k → Y × X k) (η : Measure Y)
    [IsProbabilityMeasure η] (hg : Fresh g η (ν k)) :
    Fresh (fun s : (k : K) → X k => ((g (s k)).1, Function.update s k (g (s k)).2)) η (infinitePi ν) := by
  set μ := infinitePi ν with hμ
  have hum : Measurable fun p : X k × ((k : K) → X k) => Function.update p.2 k p.1 := by
    rw [measurable_pi_iff]
    intro j
    by_cases h : j = k
    · subst h; simpa using measurable_fst
    · simp only [Function.update_of_ne h]
      exact (measurable_pi_apply j).comp measurable_snd
  have h1 : ((ν k).prod μ).map (fun p => Function.update p.2 k p.1) = μ := by
    refine eq_infinitePi _ fun s t ht => ?_
    have e : (fun p : X k × ((k : K) → X k) => Function.update p.2 k p.1) ⁻¹' (s : Set K).pi t =
        (if k ∈ s then t k else Set.univ) ×ˢ ((s.erase k : Finset K) : Set K).pi t := by
      ext ⟨x, f⟩
      simp only [Set.mem_preimage, Set.mem_pi, Set.mem_prod, Finset.mem_coe, Finset.mem_erase]
      constructor
      · intro h
        refine ⟨?_, fun i hi => ?_⟩
        · split_ifs with h0
          · simpa using h k h0
          · trivial
        · simpa [hi.1] using h i hi.2
      · rintro ⟨h0, h2⟩ i hi
        by_cases hik : i = k
        · subst hik
          rw [if_pos hi] at h0; simpa using h0
        · simpa [hik] using h2 i ⟨hik, hi⟩
    rw [Measure.map_apply hum (MeasurableSet.pi s.countable_toSet fun i _ => ht i), e, Measure.prod_prod, hμ, infinitePi_pi _ fun i _ => ht i]
    split_ifs with h
    · exact Finset.mul_prod_erase s (fun i => ν i (t i)) h
    · rw [measure_univ, one_mul, Finset.erase_eq_of_notMem h]
  have hdm : Measurable fun s : (k : K) → X k => ((g (s k)).1, Function.update s k (g (s k)).2) :=
    (measurable_fst.comp (hg.measurable.comp (measurable_pi_apply k))).prodMk
      (hum.comp ((measurable_snd.comp (hg.measurable.comp (measurable_pi_apply k))).prodMk measurable_id))
  refine ⟨hdm, ?_⟩
  conv_lhs => rw [← h1]
  rw [Measure.map_map hdm hum]
  have e : (fun s : (k : K) → X k => ((g (s k)).1, Function.update s k (g (s k)).2)) ∘ (fun p : X k × ((k : K) → X k) => Function.update p.2 k p.1) =
      Prod.map id (fun p : X k × ((k : K) → X k) => Function.update p.2 k p.1) ∘ MeasurableEquiv.prodAssoc ∘ Prod.map g id := by
    funext p
    simp [MeasurableEquiv.prodAssoc]
  rw [e, ← Measure.map_map (measurable_id.prodMap hum) (MeasurableEquiv.prodAssoc.measurable.comp (hg.measurable.prodMap measurable_id)),
    ← Measure.map_map MeasurableEquiv.prodAssoc.measurable (hg.measurable.prodMap measurable_id),
    ← Measure.map_prod_map _ _ hg.measurable measurable_id, hg.law, Measure.map_id, Measure.prodAssoc_prod,
    ← Measure.map_prod_map _ _ measurable_id hum, Measure.map_id, h1]

/-! ## the distributions -/

instance exp_prob : IsProbabilityMeasure (expMeasure 1) := isProbabilityMeasure_expMeasure one_pos

theorem exp_pos_ae : ∀ᵐ x ∂expMeasure 1, 0 < x := by
  rw [expMeasure, gammaMeasure]
  refine (ae_withDensity_iff (f := gammaPDF 1 1) (measurable_gammaPDFReal 1 1).ennreal_ofReal).2 ?_
  have h0 : ∀ᵐ x : ℝ, x ≠ 0 := by
    rw [ae_iff]
    simp
  filter_upwards [h0] with x hx h
  by_contra hn
  exact h (gammaPDF_of_neg (lt_of_le_of_ne (not_lt.1 hn) hx))

instance dirichlet_prob (d : ℕ) : IsProbabilityMeasure (flatDirichlet d) :=
  Measure.isProbabilityMeasure_map (Measurable.aemeasurable (by fun_prop))

theorem isProb_measurable (d : ℕ) : MeasurableSet {p : Fin d → ℝ | IsProb p} := by
  have e : {p : Fin d → ℝ | IsProb p} = (⋂ i, {p | 0 ≤ p i}) ∩ {p | ∑ i, p i = 1} := by
    ext p
    simp only [Set.mem_setOf_eq, Set.mem_inter_iff, Set.mem_iInter]
    exact ⟨fun h => ⟨h.nonneg, h.sum_one⟩, fun h => ⟨h.1, h.2⟩⟩
  rw [e]
  refine (MeasurableSet.iInter fun i => ?_).inter ?_
  · exact measurableSet_le measurable_const (measurable_pi_apply i)
  · exact measurableSet_eq_fun (by fun_prop) measurable_const

theorem dirichlet_support {d : ℕ} (hd : 0 < d) : ∀ᵐ p ∂flatDirichlet d, IsProb p := by
  rw [flatDirichlet, ae_map_iff (Measurable.aemeasurable (by fun_prop)) (isProb_measurable d)]
  have h1 : ∀ᵐ x ∂(Measure.pi fun _ : Fin d => expMeasure 1), ∀ i, 0 < x i := by
    rw [ae_all_iff]
    intro i
    have := (measurePreserving_eval (fun _ : Fin d => expMeasure 1) i).quasiMeasurePreserving.ae exp_pos_ae
    exact this
  filter_upwards [h1] with x hx
  have hs : 0 < ∑ j, x j := Finset.sum_pos (fun i _ => hx i) ⟨⟨0, hd⟩, Finset.mem_univ _⟩
  exact ⟨fun i => div_nonneg (hx i).le hs.le, by rw [← Finset.sum_div, div_self hs.ne']⟩

/-! ## the source -/

/-- The kinds of draws. -/
inductive DrawKind where
  | orth (m : ℕ)
  | unit (d : ℕ)
  | randn (r c : ℕ)
  | dir (d : ℕ)
  | exp
  | int (k : ℕ)
  deriving DecidableEq

/-- The values of the draws. -/
def DrawKind.Val : DrawKind → Type
  | orth m => RMat m
  | unit d => Op d
  | randn r c => Matrix (Fin r) (Fin c) ℝ
  | dir d => Fin d → ℝ
  | exp => ℝ
  | int _ => ℕ

noncomputable instance (k : DrawKind) : MeasurableSpace k.Val := by
  cases k <;> (dsimp only [DrawKind.Val]; infer_instance)

/-- The distributions of the draws. -/
noncomputable def DrawKind.law : (k : DrawKind) → Measure k.Val
  | orth m => (haar_rotations m).choose
  | unit d => (haar_unitary d).choose
  | randn r c => normalMatrix r c
  | dir d => flatDirichlet d
  | exp => expMeasure 1
  | int k => if 0 < k then uniformOn {i : ℕ | i < k} else dirac (0 : ℕ)

instance (k : DrawKind) : IsProbabilityMeasure k.law := by
  cases k with
  | orth m => exact (haar_rotations m).choose_spec.prob
  | unit d => exact (haar_unitary d).choose_spec.prob
  | randn r c => exact inferInstanceAs (IsProbabilityMeasure (Measure.pi fun _ : Fin r => Measure.pi fun _ : Fin c => gaussianReal 0 1))
  | dir d => exact dirichlet_prob d
  | exp => exact exp_prob
  | int k =>
    change IsProbabilityMeasure (if 0 < k then uniformOn {i : ℕ | i < k} else dirac (0 : ℕ))
    split_ifs with h
    · exact isProbabilityMeasure_uniformOn (Set.finite_lt_nat k) ⟨0, h⟩
    · infer_instance

/-- The states of the source: a stream of values for every kind of draw. -/
abbrev IdealState := (k : DrawKind) → ℕ → k.Val

/-- Take the next value of kind `k`; `fix` corrects values of probability zero. -/
def idealDraw (k : DrawKind) {Y : Type} (fix : k.Val → Y) (s : IdealState) : Y × IdealState :=
  (fix (s k 0), Function.update s k fun i => s k (i + 1))

/-- The law of the states. -/
noncomputable def idealLaw : Measure IdealState := infinitePi fun k => infinitePi fun _ : ℕ => k.law

instance : IsProbabilityMeasure idealLaw := inferInstanceAs (IsProbabilityMeasure (infinitePi fun k : DrawKind => infinitePi fun _ : ℕ => k.law))

theorem ideal_fresh (k : DrawKind) (fix : k.Val → k.Val) (hm : Measurable fix) (hae : ∀ᵐ x ∂k.law, fix x = x) :
    Fresh (idealDraw k fix) k.law idealLaw := by
  have h0 : Fresh (fun f : ℕ → k.Val => (f 0, fun i => f (i + 1))) k.law (infinitePi fun _ : ℕ => k.law) :=
    ⟨(measurable_pi_apply 0).prodMk (measurable_pi_lambda _ fun i => measurable_pi_apply (i + 1)), stream_split k.law⟩
  have h1 := source_split (fun k : DrawKind => infinitePi fun _ : ℕ => k.law) k _ k.law h0
  have h2 := fresh_map h1 hm
  have h3 : k.law.map fix = k.law := by
    conv_rhs => rw [← Measure.map_id (μ := k.law)]
    exact Measure.map_congr hae
  rw [h3] at h2
  exact h2

open Classical in
/-- Replace a matrix that is no rotation. -/
noncomputable def fixOrth (m : ℕ) (O : RMat m) : RMat m := if O ∈ rotations m then O else 1

open Classical in
/-- Replace a matrix that is not unitary. -/
noncomputable def fixUnit (d : ℕ) (U : Op d) : Op d := if U ∈ unitaryGroup (Fin d) ℂ then U else 1

open Classical in
/-- Replace a vector that is no distribution. -/
noncomputable def fixProb (d : ℕ) (p : Fin d → ℝ) : Fin d → ℝ := if IsProb p then p else fun _ => 1 / d

/-- Replace a number that is not positive. -/
noncomputable def fixExp (x : ℝ) : ℝ := if 0 < x then x else 0

/-- Replace a number that is too large. -/
def fixInt (k i : ℕ) : ℕ := if i < k then i else 0

/-- An ideal random generator. -/
noncomputable def idealRng : Rng IdealState where
  seeded _ := fun k _ => match k with
    | .orth _ => (1 : RMat _)
    | .unit _ => (1 : Op _)
    | .randn _ _ => (0 : Matrix _ _ ℝ)
    | .dir _ => (fun _ => (0 : ℝ))
    | .exp => (0 : ℝ)
    | .int _ => (0 : ℕ)
  orthogonal m := idealDraw (.orth m) (fixOrth m)
  unitary d := idealDraw (.unit d) (fixUnit d)
  randn r c := idealDraw (.randn r c) id
  dirichlet d := idealDraw (.dir d) (fixProb d)
  exponential := idealDraw .exp fixExp
  randint k := idealDraw (.int k) (fixInt k)

theorem fixOrth_mem (m : ℕ) (O : RMat m) : fixOrth m O ∈ rotations m := by
  unfold fixOrth
  split_ifs with h
  · exact h
  · exact ⟨by simp, by simp⟩

theorem fixUnit_mem (d : ℕ) (U : Op d) : fixUnit d U ∈ unitaryGroup (Fin d) ℂ := by
  unfold fixUnit
  split_ifs with h
  · exact h
  · exact one_mem _

theorem fixProb_ok {d : ℕ} (hd : 0 < d) (p : Fin d → ℝ) : IsProb (fixProb d p) := by
  unfold fixProb
  split_ifs with h
  · exact h
  · have : (d : ℝ) ≠ 0 := by exact_mod_cast hd.ne'
    exact ⟨fun i => by positivity, by rw [Finset.sum_const, Finset.card_univ, Fintype.card_fin, nsmul_eq_mul, mul_one_div, div_self this]⟩

theorem fixExp_nonneg (x : ℝ) : 0 ≤ fixExp x := by
  unfold fixExp
  split_ifs with h
  · exact h.le
  · exact le_rfl

theorem fixInt_lt {k : ℕ} (hk : 0 < k) (i : ℕ) : fixInt k i < k := by
  unfold fixInt
  split_ifs with h
  · exact h
  · exact hk

theorem idealRng_draws : DrawsOk idealRng where
  orthogonal m s := (fixOrth_mem m (s (.orth m) 0)).1
  orthogonal_det m s := (fixOrth_mem m (s (.orth m) 0)).2
  unitary d s := mem_unitaryGroup_iff.1 (fixUnit_mem d (s (.unit d) 0))
  dirichlet d hd s := fixProb_ok hd (s (.dir d) 0)
  exponential s := fixExp_nonneg (s .exp 0)
  randint k hk s := fixInt_lt hk (s (.int k) 0)

theorem fixOrth_measurable (m : ℕ) : Measurable (fixOrth m) := by
  refine Measurable.ite ?_ measurable_id measurable_const
  have h : IsClosed {O : RMat m | O * Oᵀ = 1 ∧ O.det = 1} :=
    (isClosed_eq (continuous_id.matrix_mul continuous_id.matrix_transpose) continuous_const).inter
      (isClosed_eq continuous_id.matrix_det continuous_const)
  exact h.measurableSet

theorem fixUnit_measurable (d : ℕ) : Measurable (fixUnit d) := by
  refine Measurable.ite ?_ measurable_id measurable_const
  have h : IsClosed {U : Op d | U * Uᴴ = 1} := isClosed_eq (continuous_id.matrix_mul continuous_id.matrix_conjTranspose) continuous_const
  have e : {U : Op d | U ∈ unitaryGroup (Fin d) ℂ} = {U : Op d | U * Uᴴ = 1} := by ext U; exact mem_unitaryGroup_iff
  rw [e]
  exact h.measurableSet

/-- An ideal source of randomness exists. -/
theorem idealRng_ideal : IdealSource idealRng idealLaw where
  prob := inferInstance
  orthogonal m := by
    have hH : IsHaar (rotations m) (haar_rotations m).choose := (haar_rotations m).choose_spec
    have hs : ∀ᵐ O ∂(haar_rotations m).choose, fixOrth m O = O := by
      filter_upwards [hH.support] with O hO
      exact if_pos hO
    exact ⟨_, hH, ideal_fresh (.orth m) (fixOrth m) (fixOrth_measurable m) hs⟩
  unitary d := by
    have hH := (haar_unitary d).choose_spec
    have hs : ∀ᵐ O ∂(haar_unitary d).choose, fixUnit d O = O := by
      filter_upwards [hH.support] with O hO
      exact if_pos hO
    exact ⟨_, hH, ideal_fresh (.unit d) (fixUnit d) (fixUnit_measurable d) hs⟩
  randn r c := ideal_fresh (.randn r c) id measurable_id (Filter.Eventually.of_forall fun _ => rfl)
  dirichlet d hd := by
    have hm : Measurable (fixProb d) := Measurable.ite (isProb_measurable d) measurable_id measurable_const
    have hs : ∀ᵐ O ∂flatDirichlet d, fixProb d O = O := by
      filter_upwards [dirichlet_support hd] with O hO
      exact if_pos hO
    exact ideal_fresh (.dir d) (fixProb d) hm hs
  exponential := by
    have hm : Measurable fixExp := Measurable.ite (measurableSet_lt measurable_const measurable_id) measurable_id measurable_const
    have hs : ∀ᵐ O ∂expMeasure 1, fixExp O = O := by
      filter_upwards [exp_pos_ae] with O hO
      exact if_pos hO
    exact ideal_fresh .exp fixExp hm hs
  randint k hk := by
    have hm : Measurable (fixInt k) := measurable_from_nat
    have e : (DrawKind.int k).law = uniformOn {i : ℕ | i < k} := if_pos hk
    have hs : ∀ᵐ i ∂uniformOn {i : ℕ | i < k}, fixInt k i = i := by
      have : ∀ᵐ i ∂uniformOn {i : ℕ | i < k}, i ∈ {i : ℕ | i < k} := ae_cond_mem MeasurableSet.of_discrete
      filter_upwards [this] with i hi
      exact if_pos hi
    have h := ideal_fresh (.int k) (fixInt k) hm (by rw [e]; exact hs)
    rw [e] at h
    exact h

end FF
