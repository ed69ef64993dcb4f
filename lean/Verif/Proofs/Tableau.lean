import Verif.Proofs.StabCount

/-! # Lemmas for C148: uniformly distributed tableaux give uniformly distributed states -/

namespace FF

open Matrix Finset FF.Props MeasureTheory
open Spec (stabStates tableau tableaux)

variable {n : ℕ}

theorem tableaux_finite (n : ℕ) : (tableaux n).Finite := by
  refine (Set.Finite.pi' (t := fun _ : Fin n → Fin 4 => (Set.range (fun w : Fin n → Fin 4 => Spec.pauliString w) ∪
    Set.range (fun w : Fin n → Fin 4 => -Spec.pauliString w))) fun _ => Set.toFinite _).subset ?_
  rintro _ ⟨V, hV, rfl⟩ w
  obtain ⟨w', h | h⟩ := hV.2 w
  · exact .inl ⟨w', h.symm⟩
  · exact .inr ⟨w', h.symm⟩

/-- The tableaux of the unitaries that prepare the state `ρ`. -/
def fibre (ρ : Op (2 ^ n)) : Set ((Fin n → Fin 4) → Op (2 ^ n)) :=
  {t | t ∈ tableaux n ∧ ∀ w, t w ⟨0, by positivity⟩ ⟨0, by positivity⟩ = (Spec.pauliString w * ρ).trace}

theorem fibre_finite (ρ : Op (2 ^ n)) : (fibre ρ).Finite := (tableaux_finite n).subset fun _ h => h.1

theorem column_mulVec (V : Op (2 ^ n)) : V *ᵥ zeroState (2 ^ n) = fun i => V i ⟨0, by positivity⟩ := by
  funext i
  rw [mulVec, dotProduct, Finset.sum_eq_single ⟨0, by positivity⟩]
  · simp [zeroState]
  · intro b _ hb
    have : (b : ℕ) ≠ 0 := fun e => hb (Fin.ext e)
    simp [zeroState, this]
  · simp

theorem column_exp (V : Op (2 ^ n)) (w : Fin n → Fin 4) :
    (Spec.pauliString w * Spec.proj fun i => V i ⟨0, by positivity⟩).trace = tableau V w ⟨0, by positivity⟩ ⟨0, by positivity⟩ := by
  rw [← column_mulVec, ← proj_conj, ← mul_assoc, trace_mul_comm, ← mul_assoc, ← mul_assoc, proj_zero_trace]
  rfl

theorem column_stab {V : Op (2 ^ n)} (hV : Spec.IsClifford V) : (Spec.proj fun i => V i ⟨0, by positivity⟩) ∈ stabStates n :=
  ⟨_, ⟨V, hV, fun _ => rfl⟩, rfl⟩

theorem mem_fibre {V ρ : Op (2 ^ n)} (hV : Spec.IsClifford V) (hρ : ρ ∈ stabStates n) :
    tableau V ∈ fibre ρ ↔ (Spec.proj fun i => V i ⟨0, by positivity⟩) = ρ := by
  constructor
  · rintro ⟨-, h⟩
    exact pauli_traces_inj (stab_herm (column_stab hV)) (stab_herm hρ) fun w => by rw [column_exp, h]
  · rintro rfl
    exact ⟨⟨V, hV, rfl⟩, fun w => (column_exp V w).symm⟩

theorem tableau_cancel {W X Y : Op (2 ^ n)} (hW : Spec.IsClifford W) (h : tableau (W * X) = tableau (W * Y)) : tableau X = tableau Y := by
  funext w
  obtain ⟨v, hv⟩ := (clifford_inv hW).2 w
  rw [conjTranspose_conjTranspose] at hv
  have hW' : Wᴴ * W = 1 := mul_eq_one_comm.1 hW.1
  have key : ∀ X : Op (2 ^ n), tableau X w = (W * X)ᴴ * (W * Spec.pauliString w * Wᴴ) * (W * X) := fun X => by
    have : (W * X)ᴴ * (W * Spec.pauliString w * Wᴴ) * (W * X) = Xᴴ * (Wᴴ * W) * Spec.pauliString w * (Wᴴ * W) * X := by
      rw [conjTranspose_mul]; simp only [mul_assoc]
    rw [this, hW', mul_one, mul_one, tableau]
  rw [key, key]
  have := congrFun h v
  simp only [tableau] at this
  rcases hv with hv | hv
  · rw [hv, this]
  · rw [hv, mul_neg, neg_mul, this, mul_neg, neg_mul]

theorem fibre_le {ρ ρ' : Op (2 ^ n)} (hρ : ρ ∈ stabStates n) (hρ' : ρ' ∈ stabStates n) : (fibre ρ).ncard ≤ (fibre ρ').ncard := by
  classical
  obtain ⟨ψ, ⟨V, hV, hψ⟩, rfl⟩ := hρ
  obtain ⟨ψ', ⟨V', hV', hψ'⟩, rfl⟩ := hρ'
  have hW := clifford_mul hV' (clifford_inv hV)
  have e1 : ψ = V *ᵥ zeroState (2 ^ n) := by rw [column_mulVec]; exact funext hψ
  have e2 : ψ' = V' *ᵥ zeroState (2 ^ n) := by rw [column_mulVec]; exact funext hψ'
  have hWρ : (V' * Vᴴ) * Spec.proj ψ * (V' * Vᴴ)ᴴ = Spec.proj ψ' := by
    rw [proj_conj, e1, e2, mulVec_mulVec, mul_assoc, mul_eq_one_comm.1 hV.1, mul_one]
  set W := V' * Vᴴ
  have hst : Spec.proj ψ ∈ stabStates n := ⟨ψ, ⟨V, hV, hψ⟩, rfl⟩
  have hst' : Spec.proj ψ' ∈ stabStates n := ⟨ψ', ⟨V', hV', hψ'⟩, rfl⟩
  have hch : ∀ t : (Fin n → Fin 4) → Op (2 ^ n), t ∈ tableaux n → ∃ X, Spec.IsClifford X ∧ t = tableau X := fun t h => h
  choose! X hX using hch
  refine Set.ncard_le_ncard_of_injOn (fun t => tableau (W * X t)) (fun t ht => ?_) (fun t ht u hu h => ?_) (fibre_finite _)
  · obtain ⟨hc, he⟩ := hX t ht.1
    rw [he, mem_fibre hc hst] at ht
    refine (mem_fibre (clifford_mul hW hc) hst').2 ?_
    rw [← column_mulVec] at ht ⊢
    rw [← mulVec_mulVec, ← proj_conj, ht, hWρ]
  · rw [(hX t ht.1).2, (hX u hu.1).2]
    exact tableau_cancel hW h

theorem fibre_card {ρ : Op (2 ^ n)} (hρ : ρ ∈ stabStates n) : (stabStates n).ncard * (fibre ρ).ncard = (tableaux n).ncard := by
  classical
  have hS := stab_finite n
  have hT := tableaux_finite n
  have e : ∀ ρ' ∈ hS.toFinset, (fibre ρ).ncard = #{t ∈ hT.toFinset | t ∈ fibre ρ'} := fun ρ' h' => by
    rw [le_antisymm (fibre_le hρ (hS.mem_toFinset.1 h')) (fibre_le (hS.mem_toFinset.1 h') hρ), ← Set.ncard_coe_finset]
    congr 1
    ext t
    simp only [coe_filter, Set.Finite.mem_toFinset, Set.mem_setOf_eq]
    exact ⟨fun h => ⟨h.1, h⟩, fun h => h.2⟩
  have h1 : ∑ ρ' ∈ hS.toFinset, (fibre ρ).ncard = ∑ ρ' ∈ hS.toFinset, #{t ∈ hT.toFinset | t ∈ fibre ρ'} := sum_congr rfl e
  rw [sum_const, smul_eq_mul, ← Set.ncard_eq_toFinset_card _ hS] at h1
  rw [h1, Set.ncard_eq_toFinset_card _ hT]
  simp only [card_filter]
  rw [sum_comm, card_eq_sum_ones]
  refine sum_congr rfl fun t ht => ?_
  obtain ⟨V, hV, rfl⟩ := hT.mem_toFinset.1 ht
  rw [← card_filter, card_eq_one]
  refine ⟨Spec.proj fun i => V i ⟨0, by positivity⟩, ?_⟩
  ext ρ'
  simp only [mem_filter, Set.Finite.mem_toFinset, mem_singleton]
  constructor
  · rintro ⟨h1, h2⟩
    exact ((mem_fibre hV h1).1 h2).symm
  · rintro rfl
    exact ⟨column_stab hV, (mem_fibre hV (column_stab hV)).2 rfl⟩

theorem law_of_tableaux {σ : Type} [MeasurableSpace σ] {μ : Measure σ} {V : σ → Op (2 ^ n)} (hV : ∀ s, Spec.IsClifford (V s))
    (h : ∀ t ∈ tableaux n, MeasurableSet {s | tableau (V s) = t} ∧ μ {s | tableau (V s) = t} = ((tableaux n).ncard : ENNReal)⁻¹)
    {ρ : Op (2 ^ n)} (hρ : ρ ∈ stabStates n) :
    MeasurableSet {s | (Spec.proj fun i => V s i ⟨0, by positivity⟩) = ρ} ∧
      μ {s | (Spec.proj fun i => V s i ⟨0, by positivity⟩) = ρ} = ((stabStates n).ncard : ENNReal)⁻¹ := by
  classical
  have hF := fibre_finite ρ
  have e : {s | (Spec.proj fun i => V s i ⟨0, by positivity⟩) = ρ} = ⋃ t ∈ hF.toFinset, {s | tableau (V s) = t} := by
    ext s
    simp only [Set.mem_setOf_eq, Set.mem_iUnion, Set.Finite.mem_toFinset, exists_prop, exists_eq_right']
    exact (mem_fibre (hV s) hρ).symm
  have hm : ∀ t ∈ hF.toFinset, MeasurableSet {s | tableau (V s) = t} := fun t ht => (h t (hF.mem_toFinset.1 ht).1).1
  refine ⟨by rw [e]; exact Finset.measurableSet_biUnion _ hm, ?_⟩
  rw [e, measure_biUnion_finset (fun t _ u _ htu => Set.disjoint_left.2 fun s hs hs' => htu (hs.symm.trans hs')) hm,
    sum_congr rfl fun t ht => (h t (hF.mem_toFinset.1 ht).1).2, sum_const, nsmul_eq_mul, ← Set.ncard_eq_toFinset_card _ hF, ← fibre_card hρ]
  have h0 : (fibre ρ).ncard ≠ 0 := by
    obtain ⟨ψ, ⟨V, hV, hψ⟩, rfl⟩ := hρ
    have : tableau V ∈ fibre (Spec.proj ψ) := (mem_fibre hV ⟨ψ, ⟨V, hV, hψ⟩, rfl⟩).2 (by congr 1; exact (funext hψ).symm)
    exact Set.ncard_ne_zero_of_mem this (fibre_finite _)
  have h0' : ((fibre ρ).ncard : ENNReal) ≠ 0 := by exact_mod_cast h0
  rw [Nat.cast_mul, ENNReal.mul_inv (.inr (ENNReal.natCast_ne_top _)) (.inr h0'), mul_left_comm, ENNReal.mul_inv_cancel h0' (ENNReal.natCast_ne_top _), mul_one]

end FF
