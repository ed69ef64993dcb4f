import Verif.Proofs.IdealSource
import Verif.Props.Utils
import Verif.Model.Session
import Mathlib.Data.Set.Finite.List

/-! # C136: random bit strings are uniformly distributed -/

namespace FF.Props

open MeasureTheory ProbabilityTheory Spec

instance : MeasurableSpace (List ℕ) := ⊤
instance : DiscreteMeasurableSpace (List ℕ) := ⟨fun _ => trivial⟩

/-- The 0/1 strings of length `n` with `k` ones. -/
def WeightStrings (n k : ℕ) : Set (List ℕ) := {bs | bs.length = n ∧ (∀ b ∈ bs, b = 0 ∨ b = 1) ∧ bs.count 1 = k}

/-- The positions of the ones. -/
def ones (n : ℕ) (bs : List ℕ) : List ℕ := (List.range n).filter fun j => decide (bs.getD j 0 = 1)

/-- The string with ones at the given positions. -/
def fill (n : ℕ) (l : List ℕ) : List ℕ := l.foldl (fun bs i => bs.set i 1) (List.replicate n 0)

theorem fill_eq {n : ℕ} {l : List ℕ} (h : ∀ i ∈ l, i < n) : fill n l = (List.range n).map fun j => if j ∈ l then 1 else 0 := by
  obtain ⟨h1, h2⟩ := setOnes_spec l (List.replicate n 0) (by simpa using h)
  change (fill n l).length = _ at h1
  change ∀ j, j < _ → (fill n l).getD j 0 = _ at h2
  have hlen : (fill n l).length = n := by simpa using h1
  apply List.ext_getElem
  · simp [hlen]
  · intro j h3 h4
    have := h2 j (by simpa [hlen] using h3)
    rw [List.getD_eq_getElem _ _ h3] at this
    rw [List.getElem_map, List.getElem_range]
    refine this.trans ?_
    simp [show j < n by omega]

theorem ones_nodup (n : ℕ) (bs : List ℕ) : (ones n bs).Nodup := List.nodup_range.filter _

theorem ones_length {n k : ℕ} {bs : List ℕ} (h : bs ∈ WeightStrings n k) : (ones n bs).length = k := by
  obtain ⟨hlen, -, hk⟩ := h
  have hmap : bs = (List.range n).map fun j => bs.getD j 0 := by
    apply List.ext_getElem
    · simp [hlen]
    · intro j h1 h2; simp [h1]
  rw [← hk]
  conv_rhs => rw [hmap, List.count, List.countP_map]
  rw [List.countP_eq_length_filter, ones]
  congr 1

/-- The choices that give a string are the orderings of the positions of its ones. -/
theorem fibre {n k : ℕ} {bs : List ℕ} (h : bs ∈ WeightStrings n k) :
    {l | IsChoice n k l} ∩ fill n ⁻¹' {bs} = ((ones n bs).permutations.toFinset : Set (List ℕ)) := by
  have hlen := ones_length h
  have hnd : (ones n bs).Nodup := List.nodup_range.filter _
  have hmem : ∀ j, j ∈ ones n bs ↔ j < n ∧ bs.getD j 0 = 1 := fun j => by simp [ones]
  ext l
  rw [Finset.mem_coe, List.mem_toFinset, List.mem_permutations]
  constructor
  · rintro ⟨hc, hf⟩
    rw [List.perm_ext_iff_of_nodup hc.nodup hnd]
    intro j
    rw [hmem]
    have hf' : fill n l = bs := hf
    rw [fill_eq hc.lt] at hf'
    subst hf'
    constructor
    · intro hj
      have := hc.lt j hj
      exact ⟨this, by simp [this, hj]⟩
    · rintro ⟨h1, h2⟩
      by_contra hj
      simp [h1, hj] at h2
  · intro hp
    have hc : IsChoice n k l := ⟨by rw [hp.length_eq, hlen], hp.nodup_iff.2 hnd, fun i hi => ((hmem i).1 (hp.mem_iff.1 hi)).1⟩
    refine ⟨hc, ?_⟩
    change fill n l = bs
    rw [fill_eq hc.lt]
    apply List.ext_getElem
    · simp [h.1]
    · intro j h1 h2
      rw [List.getElem_map, List.getElem_range]
      have h3 : j ∈ l ↔ j < n ∧ bs.getD j 0 = 1 := (hp.mem_iff).trans (hmem j)
      rw [List.getD_eq_getElem _ _ h2] at h3
      have hjn : j < n := by rw [← h.1]; exact h2
      rcases h.2.1 _ (List.getElem_mem h2) with h4 | h4
      · rw [if_neg (by rw [h3, h4]; simp), h4]
      · rw [if_pos (h3.2 ⟨hjn, h4⟩), h4]

theorem fill_weight {n k : ℕ} {l : List ℕ} (h : IsChoice n k l) : fill n l ∈ WeightStrings n k := by
  by_cases hk : k ≤ n
  · obtain ⟨bs, h1, h2⟩ := C15_bitstring (fun _ _ => l) n k hk h
    unfold generateRandomBitstring at h1
    rw [if_neg (by omega)] at h1
    obtain rfl := Option.some.inj h1
    exact h2
  · exfalso
    have h1 : l.toFinset ⊆ Finset.range n := fun i hi => Finset.mem_range.2 (h.lt i (List.mem_toFinset.1 hi))
    have h2 := Finset.card_le_card h1
    rw [List.toFinset_card_of_nodup h.nodup, h.length, Finset.card_range] at h2
    omega

theorem choices_finite (n k : ℕ) : {l : List ℕ | IsChoice n k l}.Finite := by
  refine (List.finite_length_eq (Fin n) k).image (List.map Fin.val) |>.subset fun l hl => ?_
  refine ⟨l.pmap (fun i hi => (⟨i, hi⟩ : Fin n)) hl.lt, by simp [hl.length], ?_⟩
  rw [List.map_pmap]
  simp

theorem strings_finite (n k : ℕ) : (WeightStrings n k).Finite := by
  refine (List.finite_length_eq (Fin 2) n).image (List.map Fin.val) |>.subset fun l hl => ?_
  refine ⟨l.pmap (fun i hi => (⟨i, hi⟩ : Fin 2)) (fun i hi => by rcases hl.2.1 i hi with h | h <;> omega), by simp [hl.1], ?_⟩
  rw [List.map_pmap]
  simp

theorem choices_card (n k : ℕ) : Measure.count {l : List ℕ | IsChoice n k l} = (k.factorial : ENNReal) * Measure.count (WeightStrings n k) := by
  classical
  have h1 : {l : List ℕ | IsChoice n k l} = ⋃ bs ∈ (strings_finite n k).toFinset, ({l | IsChoice n k l} ∩ fill n ⁻¹' {bs}) := by
    ext l
    simp only [Set.mem_iUnion, Set.Finite.mem_toFinset]
    constructor
    · exact fun hl => ⟨fill n l, fill_weight hl, hl, rfl⟩
    · rintro ⟨_, _, h, _⟩
      exact h
  have hd : Set.PairwiseDisjoint (↑(strings_finite n k).toFinset) (fun bs => {l : List ℕ | IsChoice n k l} ∩ fill n ⁻¹' {bs}) := by
    intro a _ b _ hab
    refine Set.disjoint_left.2 fun l ha hb => hab ?_
    exact (show fill n l = a from ha.2).symm.trans hb.2
  rw [h1, measure_biUnion_finset hd (fun _ _ => MeasurableSet.of_discrete)]
  have h2 : ∀ bs ∈ (strings_finite n k).toFinset, Measure.count ({l : List ℕ | IsChoice n k l} ∩ fill n ⁻¹' {bs}) = (k.factorial : ENNReal) := by
    intro bs hbs
    have hbs' : bs ∈ WeightStrings n k := by simpa using hbs
    rw [fibre hbs', Measure.count_apply_finset, List.toFinset_card_of_nodup (List.nodup_permutations _ (ones_nodup n bs)),
      List.length_permutations, ones_length hbs']
  rw [Finset.sum_congr rfl h2, Finset.sum_const, nsmul_eq_mul, mul_comm]
  congr 1
  rw [Measure.count_apply_finite _ (strings_finite n k)]

/-- If the choice is uniform so is the string. -/
theorem fill_uniform {n k : ℕ} (hk : k ≤ n) : (uniformOn {l : List ℕ | IsChoice n k l}).map (fill n) = uniformOn (WeightStrings n k) := by
  refine Measure.ext_of_singleton fun bs => ?_
  rw [Measure.map_apply (measurable_from_top) (MeasurableSet.of_discrete)]
  rw [uniformOn, uniformOn, cond_apply MeasurableSet.of_discrete, cond_apply MeasurableSet.of_discrete]
  have hfac : (k.factorial : ENNReal) ≠ 0 := by exact_mod_cast k.factorial_ne_zero
  have htop : (k.factorial : ENNReal) ≠ ⊤ := ENNReal.natCast_ne_top _
  by_cases h : bs ∈ WeightStrings n k
  · rw [fibre h, Measure.count_apply_finset, List.toFinset_card_of_nodup (List.nodup_permutations _ (ones_nodup n bs)),
      List.length_permutations, ones_length h, choices_card, Set.inter_eq_right.2 (Set.singleton_subset_iff.2 h)]
    rw [Measure.count_singleton, mul_one, ENNReal.mul_inv (Or.inl hfac) (Or.inl htop), mul_right_comm, ENNReal.inv_mul_cancel hfac htop, one_mul]
  · have h1 : {l : List ℕ | IsChoice n k l} ∩ fill n ⁻¹' {bs} = ∅ := by
      ext l
      simp only [Set.mem_inter_iff, Set.mem_empty_iff_false, iff_false, not_and]
      intro hl hf
      exact h ((show fill n l = bs from hf) ▸ fill_weight hl)
    have h2 : WeightStrings n k ∩ {bs} = ∅ := by simpa using h
    rw [h1, h2]
    simp

theorem strings_card (n k : ℕ) : Measure.count (WeightStrings n k) = (n.choose k : ENNReal) := by
  classical
  rw [Measure.count_apply_finite _ (strings_finite n k)]
  congr 1
  rw [← Finset.card_range n, ← Finset.card_powersetCard, Finset.card_range]
  refine Finset.card_bij (fun bs _ => (ones n bs).toFinset) ?_ ?_ ?_
  · intro bs hbs
    have hbs' : bs ∈ WeightStrings n k := by simpa using hbs
    rw [Finset.mem_powersetCard, List.toFinset_card_of_nodup (ones_nodup n bs), ones_length hbs']
    refine ⟨fun i hi => ?_, rfl⟩
    have := (List.mem_filter.1 (List.mem_toFinset.1 hi)).1
    simpa using this
  · intro a ha b hb hab
    have ha' : a ∈ WeightStrings n k := by simpa using ha
    have hb' : b ∈ WeightStrings n k := by simpa using hb
    have h1 : (ones n a) ∈ {l | IsChoice n k l} ∩ fill n ⁻¹' {a} := by
      rw [fibre ha', Finset.mem_coe, List.mem_toFinset, List.mem_permutations]
    have h2 : (ones n a) ∈ {l | IsChoice n k l} ∩ fill n ⁻¹' {b} := by
      rw [fibre hb', Finset.mem_coe, List.mem_toFinset, List.mem_permutations]
      exact (List.perm_of_nodup_nodup_toFinset_eq (ones_nodup n a) (ones_nodup n b) hab)
    exact (show fill n (ones n a) = a from h1.2).symm.trans h2.2
  · intro S hS
    rw [Finset.mem_powersetCard] at hS
    have hc : IsChoice n k S.toList := ⟨by simp [hS.2], S.nodup_toList, fun i hi => by
      simpa using hS.1 (Finset.mem_toList.1 hi)⟩
    refine ⟨fill n S.toList, by simpa using fill_weight hc, ?_⟩
    have h2 : S.toList ∈ {l | IsChoice n k l} ∩ fill n ⁻¹' {fill n S.toList} := ⟨hc, rfl⟩
    rw [fibre (fill_weight hc), Finset.mem_coe, List.mem_toFinset, List.mem_permutations] at h2
    rw [← List.toFinset_eq_of_perm _ _ h2, Finset.toList_toFinset]

/-- C136. If `np.random.choice(n, size=k, replace=False)` gives every sequence of `k` different indices with the same probability,
`generate_random_bitstring(n, k)` gives every string of length `n` with `k` ones with the same probability, one over the binomial
coefficient, independently of later draws. -/
theorem C136_bitstring {σ : Type} [MeasurableSpace σ] (μ : Measure σ) [IsProbabilityMeasure μ] (choice : ℕ → ℕ → σ → List ℕ × σ) (n k : ℕ)
    (hk : k ≤ n) (hc : Fresh (choice n k) (uniformOn {l | IsChoice n k l}) μ) :
    Samples μ (randomBitstring choice n k) some (uniformOn (WeightStrings n k)) ∧
      ∀ bs ∈ WeightStrings n k, uniformOn (WeightStrings n k) {bs} = 1 / (n.choose k : ENNReal) := by
  refine ⟨⟨fun s => (fill n (choice n k s).1, (choice n k s).2), ?_, fun s => ?_⟩, fun bs h => ?_⟩
  · rw [← fill_uniform hk]
    exact fresh_map hc measurable_from_top
  · have h0 : ¬ ((k : ℤ) < 0 ∨ (k : ℤ) > n) := by omega
    change (if (k : ℤ) < 0 ∨ (k : ℤ) > n then _ else _ : Except PyErr (Option (List ℕ)) × σ) = _
    rw [if_neg h0]
    unfold generateRandomBitstring
    rw [if_neg h0, Int.toNat_natCast]
    rfl
  · rw [uniformOn, cond_apply MeasurableSet.of_discrete, Set.inter_eq_right.2 (Set.singleton_subset_iff.2 h), Measure.count_singleton, mul_one,
      strings_card, one_div]

/-- Beside the theorem: a source of choices with the assumed distribution, and the six strings of length four with two ones. -/
example : ∃ (μ : Measure (ℕ → List ℕ)) (choice : ℕ → ℕ → (ℕ → List ℕ) → List ℕ × (ℕ → List ℕ)), IsProbabilityMeasure μ ∧
    Fresh (choice 4 2) (uniformOn {l | IsChoice 4 2 l}) μ ∧ uniformOn (WeightStrings 4 2) {[0, 1, 1, 0]} = 1 / 6 := by
  have hp : IsProbabilityMeasure (uniformOn {l : List ℕ | IsChoice 4 2 l}) :=
    isProbabilityMeasure_uniformOn (choices_finite 4 2) ⟨[0, 1], by decide, by decide, by decide⟩
  have hf : Fresh (fun f : ℕ → List ℕ => (f 0, fun i => f (i + 1))) (uniformOn {l | IsChoice 4 2 l})
      (Measure.infinitePi fun _ : ℕ => uniformOn {l : List ℕ | IsChoice 4 2 l}) :=
    ⟨(measurable_pi_apply 0).prodMk (measurable_pi_lambda _ fun i => measurable_pi_apply (i + 1)), stream_split _⟩
  refine ⟨_, fun _ _ f => (f 0, fun i => f (i + 1)), inferInstance, hf, ?_⟩
  have := (C136_bitstring _ (fun _ _ f => (f 0, fun i => f (i + 1))) 4 2 (by norm_num) hf).2 [0, 1, 1, 0] ⟨rfl, by decide, by decide⟩
  rw [this]
  norm_num [Nat.choose]

end FF.Props
