import Verif.Proofs.Clifford
import Verif.Spec.Clifford
import Verif.Props.Plot
import Verif.Props.FFLaw
import Verif.Proofs.FafMore

/-! # Lemmas for C148: flat pure states are stabilizer states, and their number -/

namespace FF

open Matrix Finset FF.Props
open scoped ComplexOrder

variable {n : ℕ}

theorem sum_bit {M : Type} [AddCommMonoid M] (f : Fin (2 ^ 1) → M) : ∑ y, f y = f ⟨0, by norm_num⟩ + f ⟨1, by norm_num⟩ := Fin.sum_univ_two f

theorem bit_cases (y : Fin (2 ^ 1)) : y = ⟨0, by norm_num⟩ ∨ y = ⟨1, by norm_num⟩ := by
  have := y.2
  rcases y with ⟨y, hy⟩
  have : y = 0 ∨ y = 1 := by omega
  rcases this with rfl | rfl <;> simp

/-- `φ ⊗ |0⟩`. -/
def ket (φ : Fin (2 ^ n) → ℂ) : Fin (2 ^ (n + 1)) → ℂ := fun u => if (((sIdx n 1).symm u).2 : ℕ) = 0 then φ ((sIdx n 1).symm u).1 else 0

theorem ket_zero (φ : Fin (2 ^ n) → ℂ) (x : Fin (2 ^ n)) : ket φ (sIdx n 1 (x, ⟨0, by norm_num⟩)) = φ x := by simp [ket]

theorem ket_one (φ : Fin (2 ^ n) → ℂ) (x : Fin (2 ^ n)) : ket φ (sIdx n 1 (x, ⟨1, by norm_num⟩)) = 0 := by simp [ket]

theorem sum_sites {M : Type} [AddCommMonoid M] (f : Fin (2 ^ (n + 1)) → M) :
    ∑ u, f u = ∑ x, (f (sIdx n 1 (x, ⟨0, by norm_num⟩)) + f (sIdx n 1 (x, ⟨1, by norm_num⟩))) := by
  rw [← (sIdx n 1).sum_comp, Fintype.sum_prod_type]
  exact sum_congr rfl fun x _ => sum_bit _

theorem ket_unit {φ : Fin (2 ^ n) → ℂ} : Spec.IsUnitVec (ket φ) ↔ Spec.IsUnitVec φ := by
  rw [Spec.IsUnitVec, Spec.IsUnitVec, sum_sites]
  simp only [ket_zero, ket_one, norm_zero]
  simp

theorem ext_sites {f g : Fin (2 ^ (n + 1)) → ℂ} (h0 : ∀ x, f (sIdx n 1 (x, ⟨0, by norm_num⟩)) = g (sIdx n 1 (x, ⟨0, by norm_num⟩)))
    (h1 : ∀ x, f (sIdx n 1 (x, ⟨1, by norm_num⟩)) = g (sIdx n 1 (x, ⟨1, by norm_num⟩))) : f = g := by
  funext u
  obtain ⟨⟨x, y⟩, rfl⟩ := (sIdx n 1).surjective u
  rcases bit_cases y with rfl | rfl
  · exact h0 x
  · exact h1 x

theorem proj_ket (φ : Fin (2 ^ n) → ℂ) : Spec.proj (ket φ) = kr (Spec.proj φ) (Spec.proj (zeroState (2 ^ 1))) := by
  ext u v
  obtain ⟨⟨x, y⟩, rfl⟩ := (sIdx n 1).surjective u
  obtain ⟨⟨x', y'⟩, rfl⟩ := (sIdx n 1).surjective v
  rw [kr_apply]
  simp only [Spec.proj, of_apply]
  rcases bit_cases y with rfl | rfl <;> rcases bit_cases y' with rfl | rfl <;> simp only [ket_zero, ket_one, zeroState] <;> simp

theorem zero_unit (n : ℕ) : Spec.IsUnitVec (zeroState (2 ^ n)) := by
  rw [Spec.IsUnitVec, Finset.sum_eq_single ⟨0, by positivity⟩]
  · simp [zeroState]
  · intro b _ hb
    have : (b : ℕ) ≠ 0 := fun e => hb (Fin.ext e)
    simp [zeroState, this]
  · simp

theorem split_append {a b : ℕ} (w : Fin a → Fin 4) (v : Fin b → Fin 4) : Spec.pauliString (Fin.append w v) = kr (Spec.pauliString w) (Spec.pauliString v) := by
  rw [pauliString_split]
  simp only [Fin.append_left, Fin.append_right]

theorem proj_unit_trace {d : ℕ} {ψ : Fin d → ℂ} (h : Spec.IsUnitVec ψ) : (Spec.proj ψ).trace = 1 := by
  rw [proj_trace, h, Complex.ofReal_one]

theorem ket_flat {φ : Fin (2 ^ n) → ℂ} : Spec.PauliFlat (Spec.proj (ket φ)) ↔ Spec.PauliFlat (Spec.proj φ) := by
  constructor
  · intro h w
    have := h (Fin.append w (0 : Fin 1 → Fin 4))
    rwa [split_append, proj_ket, kr_mul, kr_trace, pauliString_zero, one_mul, proj_unit_trace (zero_unit 1), mul_one] at this
  · intro h w
    rw [pauliString_split, proj_ket, kr_mul, kr_trace]
    rcases h fun i => w (Fin.castAdd 1 i) with e | e | e <;> rcases zeroState_flat (n := 1) (fun i => w (Fin.natAdd n i)) with e' | e' | e' <;>
      rw [e, e'] <;> simp

/-- The letter Z at the last place. -/
def lastZ (n : ℕ) : Fin (n + 1) → Fin 4 := Fin.append (0 : Fin n → Fin 4) (fun _ : Fin 1 => 3)

theorem lastZ_ne (n : ℕ) : lastZ n ≠ 0 := fun h => by
  have := congrFun h (Fin.natAdd n 0)
  rw [lastZ, Fin.append_right] at this
  simp at this

theorem lastZ_exp (ψ : Fin (2 ^ (n + 1)) → ℂ) : (Spec.pauliString (lastZ n) * Spec.proj ψ).trace =
    ((∑ x, (‖ψ (sIdx n 1 (x, ⟨0, by norm_num⟩))‖ ^ 2 - ‖ψ (sIdx n 1 (x, ⟨1, by norm_num⟩))‖ ^ 2) : ℝ) : ℂ) := by
  have hB : ∀ x y : Fin (2 ^ 1), Spec.pauliString (fun _ : Fin 1 => 3) x y = Spec.pauli 3 x y := fun x y => by
    rw [Spec.pauliString, of_apply, Fin.prod_univ_one]
    rcases bit_cases x with rfl | rfl <;> rcases bit_cases y with rfl | rfl <;> rfl
  rw [trace_mul_comm, lastZ, split_append, pauliString_zero, ← rd1_trace, Matrix.trace, sum_bit]
  simp only [diag_apply, mul_apply, sum_bit, hB]
  have e00 : Spec.pauli 3 (⟨0, by norm_num⟩ : Fin (2 ^ 1)) (⟨0, by norm_num⟩ : Fin (2 ^ 1)) = 1 := rfl
  have e01 : Spec.pauli 3 (⟨0, by norm_num⟩ : Fin (2 ^ 1)) (⟨1, by norm_num⟩ : Fin (2 ^ 1)) = 0 := rfl
  have e10 : Spec.pauli 3 (⟨1, by norm_num⟩ : Fin (2 ^ 1)) (⟨0, by norm_num⟩ : Fin (2 ^ 1)) = 0 := rfl
  have e11 : Spec.pauli 3 (⟨1, by norm_num⟩ : Fin (2 ^ 1)) (⟨1, by norm_num⟩ : Fin (2 ^ 1)) = -1 := rfl
  rw [e00, e01, e10, e11]
  simp only [rd1, Spec.proj, of_apply, mul_one, mul_zero, add_zero, zero_add, mul_neg]
  rw [← Finset.sum_neg_distrib, ← Finset.sum_add_distrib]
  push_cast
  refine sum_congr rfl fun x _ => ?_
  simp only [Complex.star_def, Complex.mul_conj, Complex.normSq_eq_norm_sq]
  push_cast
  ring

/-- A state with Z = 1 at the last site is a product. -/
theorem ket_of_last {ψ : Fin (2 ^ (n + 1)) → ℂ} (hψ : Spec.IsUnitVec ψ) (h : (Spec.pauliString (lastZ n) * Spec.proj ψ).trace = 1) : ∃ φ, ψ = ket φ := by
  rw [lastZ_exp, ← Complex.ofReal_one, Complex.ofReal_inj] at h
  rw [Spec.IsUnitVec, sum_sites] at hψ
  rw [sum_sub_distrib] at h
  rw [sum_add_distrib] at hψ
  have h0 : ∑ x, ‖ψ (sIdx n 1 (x, ⟨1, by norm_num⟩))‖ ^ 2 = 0 := by linarith
  rw [sum_eq_zero_iff_of_nonneg fun x _ => sq_nonneg _] at h0
  refine ⟨fun x => ψ (sIdx n 1 (x, ⟨0, by norm_num⟩)), ext_sites (fun x => by rw [ket_zero]) fun x => ?_⟩
  rw [ket_one]
  simpa using h0 x (mem_univ x)

theorem flat_conj {V ρ : Op (2 ^ n)} (hV : Spec.IsClifford V) (h : Spec.PauliFlat ρ) : Spec.PauliFlat (V * ρ * Vᴴ) := by
  intro w
  have e : (Spec.pauliString w * (V * ρ * Vᴴ)).trace = (Vᴴ * Spec.pauliString w * V * ρ).trace := by
    rw [← mul_assoc, trace_mul_comm, ← mul_assoc, ← mul_assoc]
  rw [e]
  obtain ⟨w', hw | hw⟩ := hV.2 w
  · rw [hw]; exact h w'
  · rw [hw, neg_mul, trace_neg]
    rcases h w' with h | h | h <;> rw [h] <;> simp

theorem clifford_kr {V : Op (2 ^ n)} (hV : Spec.IsClifford V) : Spec.IsClifford (n := n + 1) (kr V (1 : Op (2 ^ 1))) := by
  refine ⟨by rw [kr_conjTranspose, kr_mul, hV.1, conjTranspose_one, mul_one, kr_one], fun w => ?_⟩
  obtain ⟨w', hw⟩ := hV.2 fun i => w (Fin.castAdd 1 i)
  refine ⟨Fin.append w' fun i => w (Fin.natAdd n i), ?_⟩
  rw [split_append, pauliString_split, kr_conjTranspose, kr_mul, kr_mul, conjTranspose_one, one_mul, mul_one]
  rcases hw with hw | hw
  · left; rw [hw]
  · right
    rw [hw, show -Spec.pauliString w' = (-1 : ℂ) • Spec.pauliString w' by simp, kr_smul_left, neg_smul, one_smul]

/-- Some string but the identity has an expectation value 1 or -1. -/
theorem exists_stab {ψ : Fin (2 ^ (n + 1)) → ℂ} (hψ : Spec.IsUnitVec ψ) (hf : Spec.PauliFlat (Spec.proj ψ)) :
    ∃ w : Fin (n + 1) → Fin 4, w ≠ 0 ∧ ((Spec.pauliString w * Spec.proj ψ).trace = 1 ∨ (Spec.pauliString w * Spec.proj ψ).trace = -1) := by
  by_contra hc
  push Not at hc
  have h0 : ∀ w, w ≠ 0 → pexp (Spec.proj ψ) w = 0 := fun w hw => by
    rw [pexp, (hf w).resolve_right fun h => h.elim (hc w hw).1 (hc w hw).2]; simp
  have h1 := pexp_parseval (proj_herm ψ)
  rw [pure_purity ⟨ψ, hψ, rfl⟩, mul_one, sum_eq_single 0 (fun w _ hw => by rw [h0 w hw]; norm_num) (by simp)] at h1
  have h2 : pexp (Spec.proj ψ) 0 = 1 := by rw [pexp, pauliString_zero, one_mul, proj_unit_trace hψ, Complex.one_re]
  rw [h2, one_pow, pow_succ] at h1
  have : (1 : ℝ) ≤ 2 ^ n := one_le_pow₀ (by norm_num)
  linarith

/-- A unit vector whose Pauli expectation values are all 0, 1 or -1 is a stabilizer state. -/
theorem flat_stab : ∀ (n : ℕ) (ψ : Fin (2 ^ n) → ℂ), Spec.IsUnitVec ψ → Spec.PauliFlat (Spec.proj ψ) → Spec.IsStabilizerVec ψ := by
  intro n
  induction n with
  | zero =>
    intro ψ hψ _
    have hs : ∀ i : Fin (2 ^ 0), i = ⟨0, by positivity⟩ := fun i => Fin.ext (by have := i.2; simp at this; omega)
    have hm : ∀ A B : Op (2 ^ 0), A ⟨0, by positivity⟩ ⟨0, by positivity⟩ = B ⟨0, by positivity⟩ ⟨0, by positivity⟩ → A = B := fun A B h => by
      ext i j; rw [hs i, hs j, h]
    have hn : ψ ⟨0, by positivity⟩ * star (ψ ⟨0, by positivity⟩) = 1 := by
      rw [Spec.IsUnitVec] at hψ
      rw [Complex.star_def, Complex.mul_conj, Complex.normSq_eq_norm_sq]
      have : ∑ i : Fin (2 ^ 0), ‖ψ i‖ ^ 2 = ‖ψ ⟨0, by positivity⟩‖ ^ 2 := Fin.sum_univ_one (fun i : Fin 1 => ‖ψ i‖ ^ 2)
      rw [← this, hψ]; simp
    refine ⟨ψ ⟨0, by positivity⟩ • 1, ⟨?_, fun w => ⟨w, .inl ?_⟩⟩, fun i => ?_⟩
    · rw [conjTranspose_smul, conjTranspose_one, smul_mul_smul_comm, one_mul, hn, one_smul]
    · rw [conjTranspose_smul, conjTranspose_one, Matrix.smul_mul, one_mul, Matrix.mul_smul, mul_one, smul_smul, hn, one_smul]
    · rw [hs i]; simp
  | succ n ih =>
    intro ψ hψ hf
    obtain ⟨w, hw, hv⟩ := exists_stab hψ hf
    obtain ⟨C, hC, hCw⟩ : ∃ C : Op (2 ^ (n + 1)), Spec.IsClifford C ∧ (Cᴴ * Spec.pauliString (lastZ n) * C * Spec.proj ψ).trace = 1 := by
      obtain ⟨C, hC, e⟩ := clifford_transitive (lastZ_ne n) hw
      rcases hv with hv | hv
      · exact ⟨C, hC, by rw [e, hv]⟩
      · obtain ⟨D, hD, e'⟩ := clifford_flip hw
        refine ⟨C * D, clifford_mul hC hD, ?_⟩
        have : (C * D)ᴴ * Spec.pauliString (lastZ n) * (C * D) = Dᴴ * (Cᴴ * Spec.pauliString (lastZ n) * C) * D := by
          rw [conjTranspose_mul]; simp only [mul_assoc]
        rw [this, e, e', neg_mul, trace_neg, hv, neg_neg]
    have hU : Spec.IsUnitVec (C *ᵥ ψ) := unit_mulVec hC.1 hψ
    have hF : Spec.PauliFlat (Spec.proj (C *ᵥ ψ)) := by rw [← proj_conj]; exact flat_conj hC hf
    have hT : (Spec.pauliString (lastZ n) * Spec.proj (C *ᵥ ψ)).trace = 1 := by
      rw [← proj_conj, ← mul_assoc, trace_mul_comm, ← mul_assoc, ← mul_assoc, hCw]
    obtain ⟨φ, hφ⟩ := ket_of_last hU hT
    rw [hφ] at hU hF
    obtain ⟨V, hV, hVφ⟩ := ih φ (ket_unit.1 hU) (ket_flat.1 hF)
    refine ⟨Cᴴ * kr V (1 : Op (2 ^ 1)), clifford_mul (clifford_inv hC) (clifford_kr hV), fun i => ?_⟩
    have hcol : ∀ i, kr V (1 : Op (2 ^ 1)) i ⟨0, by positivity⟩ = ket φ i := by
      have hz : (⟨0, by positivity⟩ : Fin (2 ^ (n + 1))) = sIdx n 1 (⟨0, by positivity⟩, ⟨0, by norm_num⟩) := Fin.ext (by rw [sIdx_val]; simp)
      rw [hz]
      intro i
      refine congrFun (ext_sites (f := fun i => kr V (1 : Op (2 ^ 1)) i _) (g := ket φ) (fun x => ?_) fun x => ?_) i
      · rw [kr_apply, ket_zero, one_apply_eq, mul_one, hVφ]
      · rw [kr_apply, ket_one, one_apply_ne (by simp), mul_zero]
    have hback : ψ = Cᴴ *ᵥ ket φ := by
      rw [← hφ, mulVec_mulVec, mul_eq_one_comm.1 hC.1, one_mulVec]
    rw [hback, mul_apply, mulVec, dotProduct]
    exact sum_congr rfl fun j _ => by rw [hcol]

/-! ## counting -/

open Spec (stabStates)

theorem mem_stab {ρ : Op (2 ^ n)} : ρ ∈ stabStates n ↔ Spec.Pure ρ ∧ Spec.PauliFlat ρ := by
  constructor
  · rintro ⟨ψ, h, rfl⟩
    exact ⟨⟨ψ, (stab_vec h).1, rfl⟩, (stab_vec h).2⟩
  · rintro ⟨⟨ψ, h, rfl⟩, hf⟩
    exact ⟨ψ, flat_stab n ψ h hf, rfl⟩

theorem stab_conj {V ρ : Op (2 ^ n)} (hV : Spec.IsClifford V) (h : ρ ∈ stabStates n) : V * ρ * Vᴴ ∈ stabStates n := by
  rw [mem_stab] at h ⊢
  obtain ⟨⟨ψ, hψ, rfl⟩, hf⟩ := h
  exact ⟨⟨V *ᵥ ψ, unit_mulVec hV.1 hψ, proj_conj V ψ⟩, flat_conj hV hf⟩

theorem pauli_traces_inj {A B : Op (2 ^ n)} (hA : Aᴴ = A) (hB : Bᴴ = B) (h : ∀ w, (Spec.pauliString w * A).trace = (Spec.pauliString w * B).trace) : A = B := by
  have hAB : (A - B)ᴴ = A - B := by rw [conjTranspose_sub, hA, hB]
  have h1 := pauli_parseval (A - B)
  have h2 : ∀ w, (Spec.pauliString w * (A - B)).trace = 0 := fun w => by rw [mul_sub, trace_sub, h, sub_self]
  simp only [h2] at h1
  rw [← purity_eq hAB] at h1
  have h3 : ((A - B) * (A - B)ᴴ).trace = 0 := by
    rw [hAB]
    have : (2 : ℂ) ^ n ≠ 0 := pow_ne_zero _ two_ne_zero
    simpa [this] using h1.symm
  exact sub_eq_zero.1 (trace_mul_conjTranspose_self_eq_zero_iff.1 h3)

theorem stab_herm {ρ : Op (2 ^ n)} (h : ρ ∈ stabStates n) : ρᴴ = ρ := by
  obtain ⟨ψ, -, rfl⟩ := h
  exact proj_herm ψ

theorem stab_finite (n : ℕ) : (stabStates n).Finite := by
  refine Set.Finite.of_finite_image (f := fun ρ (w : Fin n → Fin 4) => (Spec.pauliString w * ρ).trace) ?_ ?_
  · refine (Set.Finite.pi' (t := fun _ : Fin n → Fin 4 => ({0, 1, -1} : Set ℂ)) fun _ => Set.toFinite _).subset ?_
    rintro _ ⟨ρ, hρ, rfl⟩ w
    simpa using (mem_stab.1 hρ).2 w
  · intro A hA B hB h
    exact pauli_traces_inj (stab_herm hA) (stab_herm hB) (congrFun h)

/-- The stabilizer states in which the string `w` has the value `c`. -/
def stabWith (w : Fin n → Fin 4) (c : ℂ) : Set (Op (2 ^ n)) := {ρ | ρ ∈ stabStates n ∧ (Spec.pauliString w * ρ).trace = c}

theorem stabWith_finite (w : Fin n → Fin 4) (c : ℂ) : (stabWith w c).Finite := (stab_finite n).subset fun _ h => h.1

theorem conj_injective {V : Op (2 ^ n)} (hV : V * Vᴴ = 1) : Function.Injective fun ρ : Op (2 ^ n) => V * ρ * Vᴴ := fun A B h => by
  have h' : Vᴴ * V = 1 := mul_eq_one_comm.1 hV
  have key : ∀ A : Op (2 ^ n), Vᴴ * (V * A * Vᴴ) * V = A := fun A => by
    rw [mul_assoc, mul_assoc (V * A), h', mul_one, ← mul_assoc, h', one_mul]
  rw [← key A, ← key B]
  exact congrArg (fun M => Vᴴ * M * V) h

theorem stabWith_le {w z : Fin n → Fin 4} {c e : ℂ} {V : Op (2 ^ n)} (hV : Spec.IsClifford V)
    (h : ∀ ρ, (Vᴴ * Spec.pauliString w * V * ρ).trace = e * (Spec.pauliString z * ρ).trace) : (stabWith z c).ncard ≤ (stabWith w (e * c)).ncard := by
  refine Set.ncard_le_ncard_of_injOn (fun ρ => V * ρ * Vᴴ) (fun ρ hρ => ⟨stab_conj hV hρ.1, ?_⟩) ((conj_injective hV.1).injOn) (stabWith_finite _ _)
  rw [← mul_assoc, trace_mul_comm, ← mul_assoc, ← mul_assoc, h, hρ.2]

theorem stabWith_eq {w z : Fin n → Fin 4} (hw : w ≠ 0) (hz : z ≠ 0) (c : ℂ) : (stabWith w c).ncard = (stabWith z c).ncard := by
  have key : ∀ {w z : Fin n → Fin 4}, w ≠ 0 → z ≠ 0 → (stabWith z c).ncard ≤ (stabWith w c).ncard := fun {w z} hw hz => by
    obtain ⟨V, hV, e⟩ := clifford_transitive hw hz
    have := stabWith_le (c := c) (e := 1) hV (w := w) (z := z) fun ρ => by rw [e, one_mul]
    rwa [one_mul] at this
  exact le_antisymm (key hz hw) (key hw hz)

theorem stabWith_neg {w : Fin n → Fin 4} (hw : w ≠ 0) : (stabWith w (-1)).ncard = (stabWith w 1).ncard := by
  obtain ⟨V, hV, e⟩ := clifford_flip hw
  have key := fun c => stabWith_le (c := c) (e := -1) hV (w := w) (z := w) fun ρ => by rw [e, neg_mul, trace_neg, neg_one_mul]
  refine le_antisymm ?_ ?_
  · have := key (-1); rwa [neg_one_mul, neg_neg] at this
  · have := key 1; rwa [mul_one] at this

theorem stabWith_last (n : ℕ) : (stabWith (lastZ n) 1).ncard = (stabStates n).ncard := by
  have e : stabWith (lastZ n) 1 = (fun ρ : Op (2 ^ n) => kr ρ (Spec.proj (zeroState (2 ^ 1)))) '' stabStates n := by
    ext ρ
    constructor
    · rintro ⟨hρ, h1⟩
      rw [mem_stab] at hρ
      obtain ⟨⟨ψ, hψ, rfl⟩, hf⟩ := hρ
      obtain ⟨φ, rfl⟩ := ket_of_last hψ h1
      exact ⟨Spec.proj φ, mem_stab.2 ⟨⟨φ, ket_unit.1 hψ, rfl⟩, ket_flat.1 hf⟩, (proj_ket φ).symm⟩
    · rintro ⟨ρ, hρ, rfl⟩
      rw [mem_stab] at hρ
      obtain ⟨⟨φ, hφ, rfl⟩, hf⟩ := hρ
      simp only
      rw [← proj_ket]
      refine ⟨mem_stab.2 ⟨⟨_, ket_unit.2 hφ, rfl⟩, ket_flat.2 hf⟩, ?_⟩
      rw [lastZ_exp]
      simp only [ket_zero, ket_one, norm_zero]
      rw [Spec.IsUnitVec] at hφ
      simp [hφ, ← Complex.ofReal_pow, ← Complex.ofReal_sum]
  rw [e, Set.ncard_image_of_injective]
  intro A B h
  ext x y
  have := congrFun (congrFun h (sIdx n 1 (x, ⟨0, by norm_num⟩))) (sIdx n 1 (y, ⟨0, by norm_num⟩))
  simp only [kr_apply] at this
  simpa [Spec.proj, zeroState] using this

open Classical in
theorem stab_words {ρ : Op (2 ^ n)} (h : ρ ∈ stabStates n) :
    ∑ w : Fin n → Fin 4, ((if (Spec.pauliString w * ρ).trace = 1 then 1 else 0) + if (Spec.pauliString w * ρ).trace = -1 then 1 else 0 : ℕ) = 2 ^ n := by
  obtain ⟨hp, hf⟩ := mem_stab.1 h
  have h1 := pexp_parseval (stab_herm h)
  rw [pure_purity hp, mul_one] at h1
  have h2 : ∀ w, pexp ρ w ^ 2 = (((if (Spec.pauliString w * ρ).trace = 1 then 1 else 0) + if (Spec.pauliString w * ρ).trace = -1 then 1 else 0 : ℕ) : ℝ) := by
    intro w
    rw [pexp]
    have : (1 : ℂ) ≠ -1 := by norm_num
    rcases hf w with e | e | e <;> rw [e]
    · simp
    · simp [this]
    · simp [this.symm]
  simp only [h2] at h1
  exact_mod_cast h1

open Classical in
theorem stab_double (n : ℕ) :
    (stabStates n).ncard * 2 ^ n = ∑ w : Fin n → Fin 4, ((stabWith w 1).ncard + (stabWith w (-1)).ncard) := by
  have hS := stab_finite n
  have e : ∀ (w : Fin n → Fin 4) (c : ℂ), (stabWith w c).ncard = ∑ ρ ∈ hS.toFinset, if (Spec.pauliString w * ρ).trace = c then 1 else 0 := fun w c => by
    rw [← card_filter, ← Set.ncard_coe_finset]
    congr 1
    ext ρ
    simp [stabWith]
  simp only [e, ← sum_add_distrib]
  rw [sum_comm, sum_congr rfl fun ρ hρ => stab_words (hS.mem_toFinset.1 hρ), sum_const, smul_eq_mul, Set.ncard_eq_toFinset_card _ hS]

theorem stab_nonempty (n : ℕ) : (stabStates n).Nonempty :=
  ⟨_, mem_stab.2 ⟨⟨zeroState (2 ^ n), zero_unit n, rfl⟩, zeroState_flat⟩⟩

theorem stab_step (n : ℕ) : (stabStates (n + 1)).ncard = 2 * (2 ^ (n + 1) + 1) * (stabStates n).ncard := by
  classical
  have h := stab_double (n + 1)
  rw [← add_sum_erase _ _ (mem_univ (0 : Fin (n + 1) → Fin 4))] at h
  have h0 : stabWith (0 : Fin (n + 1) → Fin 4) 1 = stabStates (n + 1) := by
    ext ρ
    refine ⟨fun h => h.1, fun h => ⟨h, ?_⟩⟩
    obtain ⟨⟨ψ, hψ, rfl⟩, -⟩ := mem_stab.1 h
    rw [pauliString_zero, one_mul, proj_unit_trace hψ]
  have h1 : stabWith (0 : Fin (n + 1) → Fin 4) (-1) = ∅ := by
    ext ρ
    refine ⟨fun h => ?_, fun h => h.elim⟩
    obtain ⟨h, h'⟩ := h
    obtain ⟨⟨ψ, hψ, rfl⟩, -⟩ := mem_stab.1 h
    rw [pauliString_zero, one_mul, proj_unit_trace hψ] at h'
    norm_num at h'
  have h2 : ∀ w ∈ univ.erase (0 : Fin (n + 1) → Fin 4), (stabWith w 1).ncard + (stabWith w (-1)).ncard = 2 * (stabStates n).ncard := fun w hw => by
    have hw' := ne_of_mem_erase hw
    rw [stabWith_neg hw', stabWith_eq hw' (lastZ_ne n), stabWith_last, two_mul]
  rw [sum_congr rfl h2, h0, h1, Set.ncard_empty, add_zero, sum_const, card_erase_of_mem (mem_univ _), card_univ, Fintype.card_fun, Fintype.card_fin,
    Fintype.card_fin, smul_eq_mul] at h
  have h4 : (4 : ℕ) ^ (n + 1) = 2 ^ (n + 1) * 2 ^ (n + 1) := by rw [← mul_pow]; norm_num
  have h7 : 2 ≤ 2 ^ (n + 1) := by
    rw [pow_succ]
    have := Nat.one_le_two_pow (n := n)
    omega
  obtain ⟨k, hk⟩ : ∃ k, 2 ^ (n + 1) = k + 2 := ⟨2 ^ (n + 1) - 2, by omega⟩
  rw [h4] at h
  generalize (stabStates (n + 1)).ncard = a at h ⊢
  generalize (stabStates n).ncard = b at h ⊢
  rw [hk] at h ⊢
  have h5 : (k + 2) * (k + 2) - 1 = (k + 1) * (k + 3) := by
    have : (k + 2) * (k + 2) = (k + 1) * (k + 3) + 1 := by ring
    omega
  rw [h5] at h
  have h6 : (k + 1) * a = (k + 1) * (2 * (k + 2 + 1) * b) := by nlinarith
  exact Nat.eq_of_mul_eq_mul_left (Nat.succ_pos k) h6

theorem stab_count (n : ℕ) : (stabStates n).ncard = 2 ^ n * ∏ k ∈ range n, (2 ^ (k + 1) + 1) := by
  induction n with
  | zero =>
    have : stabStates 0 = {1} := by
      have hs : ∀ i : Fin (2 ^ 0), i = ⟨0, by positivity⟩ := fun i => Fin.ext (by have := i.2; simp at this; omega)
      ext ρ
      rw [Set.mem_singleton_iff]
      have hone : ∀ ψ : Fin (2 ^ 0) → ℂ, Spec.IsUnitVec ψ → Spec.proj ψ = 1 := fun ψ hψ => by
        have := proj_unit_trace hψ
        have h1 : (Spec.proj ψ).trace = Spec.proj ψ ⟨0, by positivity⟩ ⟨0, by positivity⟩ := Fin.sum_univ_one (fun i : Fin 1 => (Spec.proj ψ).diag i)
        ext i j
        rw [hs i, hs j, one_apply_eq, ← h1, this]
      constructor
      · intro h
        obtain ⟨⟨ψ, hψ, rfl⟩, -⟩ := mem_stab.1 h
        exact hone ψ hψ
      · rintro rfl
        obtain ⟨ρ, hρ⟩ := stab_nonempty 0
        obtain ⟨⟨ψ, hψ, e⟩, -⟩ := mem_stab.1 hρ
        rw [← hone ψ hψ, ← e]; exact hρ
    rw [this]; simp
  | succ n ih =>
    rw [stab_step, ih, prod_range_succ, pow_succ]
    ring

end FF
