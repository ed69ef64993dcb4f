import Verif.Proofs.Gauss
import Verif.Proofs.Faf
import Verif.Proofs.TraceNorm
import Verif.Proofs.Random2
import Mathlib.Analysis.Matrix.Order

/-! # Proofs: states annihilated by `n` orthonormal modes -/

namespace FF

open Matrix
open scoped ComplexOrder ComplexConjugate

variable {n : ℕ}

/-- The correlations `P_ij = Tr(ρ α_i α_j†)`. -/
noncomputable def corrP (ρ : Op (2 ^ n)) : Op (n + n) := Matrix.of fun i j => (ρ * al n i * (al n j)ᴴ).trace

theorem psd_kill {d : ℕ} {ρ c : Op d} (hρ : ρ.PosSemidef) (h : (ρ * (c * cᴴ)).trace = 0) : ρ * c = 0 := by
  have h1 : (cᴴ * ρ * c).trace = 0 := by rw [trace_mul_comm, ← Matrix.mul_assoc, trace_mul_comm]; exact h
  have h2 : cᴴ * ρ * c = 0 := (hρ.conjTranspose_mul_mul_same c).trace_eq_zero_iff.1 h1
  ext i j
  have h3 : ρ *ᵥ (c *ᵥ Pi.single j 1) = 0 := by
    rw [← hρ.dotProduct_mulVec_zero_iff, star_mulVec, ← dotProduct_mulVec, mulVec_mulVec, mulVec_mulVec, h2, zero_mulVec,
      dotProduct_zero]
  have h4 := congrFun h3 i
  rw [mulVec_mulVec, mulVec_single_one] at h4
  exact h4

/-- The linear combination of the `α` with the coefficients `v`. -/
noncomputable def comb (v : Fin (n + n) → ℂ) : Op (2 ^ n) := ∑ l, v l • al n l

theorem comb_anticomm (v w : Fin (n + n) → ℂ) :
    comb v * comb w + comb w * comb v = (v ⬝ᵥ (swapS n *ᵥ w)) • (1 : Op (2 ^ n)) := by
  have := rotated_anticomm (n := n) (Matrix.of ![v, w]) 0 1
  rw [Matrix.mul_assoc] at this
  exact this.trans (by congr 1)

theorem comb_conj (v : Fin (n + n) → ℂ) : (comb v)ᴴ = comb fun l => star (v (fl l)) := by
  rw [comb, comb, conjTranspose_sum]
  simp only [conjTranspose_smul, al_conjTranspose]
  rw [← Equiv.sum_comp flE]
  refine Finset.sum_congr rfl fun l _ => ?_
  change star (v (fl l)) • al n (fl (fl l)) = _
  rw [fl_fl]

theorem corr_row {N : ℕ} (V : Matrix (Fin N) (Fin (n + n)) ℂ) (ρ : Op (2 ^ n)) (j : Fin N) (k : Fin (n + n)) :
    (V * corrP ρ) j k = (ρ * comb (V j) * (al n k)ᴴ).trace := by
  simp only [mul_apply, corrP, of_apply, comb, Matrix.mul_sum, Matrix.mul_smul, Matrix.sum_mul, Matrix.smul_mul, trace_sum,
    trace_smul, smul_eq_mul]

theorem corr_quad {N : ℕ} (V : Matrix (Fin N) (Fin (n + n)) ℂ) (ρ : Op (2 ^ n)) (j k : Fin N) :
    (V * corrP ρ * Vᴴ) j k = (ρ * (comb (V j) * (comb (V k))ᴴ)).trace := by
  rw [mul_apply]
  simp only [corr_row, conjTranspose_apply]
  rw [comb, comb, conjTranspose_sum]
  simp only [Matrix.mul_sum, trace_sum, conjTranspose_smul, Matrix.mul_smul, trace_smul, smul_eq_mul, ← Matrix.mul_assoc]
  exact Finset.sum_congr rfl fun _ _ => mul_comm _ _

theorem corr_herm {ρ : Op (2 ^ n)} (hρ : ρᴴ = ρ) : (corrP ρ)ᴴ = corrP ρ := by
  ext i j
  rw [conjTranspose_apply, corrP, of_apply, of_apply, ← trace_conjTranspose, conjTranspose_mul, conjTranspose_mul, hρ,
    conjTranspose_conjTranspose, trace_mul_comm, Matrix.mul_assoc, trace_mul_comm, Matrix.mul_assoc, trace_mul_comm]

theorem corr_ph {ρ : Op (2 ^ n)} (hρ : ρ.trace = 1) : corrP ρ + swapS n * (corrP ρ)ᵀ * swapS n = 1 := by
  ext i j
  have h1 : (swapS n * (corrP ρ)ᵀ * swapS n) i j = corrP ρ (fl j) (fl i) := by
    rw [mul_swapS, swapS_mul, transpose_apply]
  have h2 := al_anticomm (n := n) i (fl j)
  rw [Matrix.add_apply, h1, corrP, of_apply, of_apply, al_conjTranspose, al_conjTranspose, fl_fl, Matrix.mul_assoc,
    Matrix.mul_assoc, ← trace_add, ← Matrix.mul_add, h2, Matrix.mul_smul, trace_smul, mul_one, hρ]
  have h3 : swapS n i (fl j) = (swapS n * swapS n) i j := (mul_swapS _ _ _).symm
  rw [smul_eq_mul, mul_one, h3, swapS_sq]

theorem corr_trace {ρ : Op (2 ^ n)} (hρ : ρ.trace = 1) : (corrP ρ).trace = n := by
  have h := congrArg trace (corr_ph hρ)
  rw [trace_add, trace_mul_comm, ← Matrix.mul_assoc, swapS_sq, one_mul, trace_transpose, trace_one, Fintype.card_fin] at h
  push_cast at h
  linear_combination (1 / 2) * h

/-- `n` orthonormal modes annihilated by the state. -/
def Killed (ρ : Op (2 ^ n)) (V : Matrix (Fin n) (Fin (n + n)) ℂ) : Prop := V * Vᴴ = 1 ∧ ∀ j, ρ * comb (V j) = 0

theorem killed_of_proj {ρ : Op (2 ^ n)} (hρ : Spec.IsDensity ρ) (hP : corrP ρ * corrP ρ = corrP ρ) : ∃ V, Killed ρ V := by
  classical
  obtain ⟨U, l, h1, h2, h3, -⟩ := herm_diag (X := corrP ρ) (corr_herm hρ.psd.isHermitian)
  have hUP : Uᴴ * corrP ρ = diagonal (fun i => (l i : ℂ)) * Uᴴ := by
    rw [h3, ← Matrix.mul_assoc, ← Matrix.mul_assoc, h2, one_mul]
  have hD : diagonal (fun i => (l i : ℂ)) = Uᴴ * corrP ρ * U := by rw [hUP, Matrix.mul_assoc, h2, mul_one]
  have hl : ∀ i, l i = 0 ∨ l i = 1 := by
    have : diagonal (fun i => (l i : ℂ)) * diagonal (fun i => (l i : ℂ)) = diagonal (fun i => (l i : ℂ)) := by
      calc _ = Uᴴ * corrP ρ * U * (Uᴴ * corrP ρ * U) := by rw [hD]
        _ = Uᴴ * corrP ρ * (U * Uᴴ) * corrP ρ * U := by simp only [Matrix.mul_assoc]
        _ = Uᴴ * (corrP ρ * corrP ρ) * U := by rw [h1, mul_one, Matrix.mul_assoc Uᴴ]
        _ = _ := by rw [hP, hD]
    intro i
    rw [diagonal_mul_diagonal] at this
    have h4 := congrFun (diagonal_injective this) i
    have h5 : l i * l i = l i := by exact_mod_cast h4
    rcases eq_or_ne (l i) 0 with h | h
    · exact .inl h
    · exact .inr (mul_right_cancel₀ h (by rw [h5, one_mul]))
  have htr : ∑ i, l i = n := by
    have h4 := corr_trace hρ.trace_one
    rw [h3, trace_mul_comm, ← Matrix.mul_assoc, h2, one_mul, trace_diagonal] at h4
    exact_mod_cast h4
  have hcard : (Finset.univ.filter fun i => l i = 0).card = n := by
    have h5 : ∑ i, l i = ∑ i, if l i = 0 then (0 : ℝ) else 1 := Finset.sum_congr rfl fun i _ => by
      rcases hl i with h | h <;> simp [h]
    have h6 : ∑ i : Fin (n + n), (if l i = 0 then (0 : ℝ) else 1) = ∑ i : Fin (n + n), (1 - if l i = 0 then (1 : ℝ) else 0) :=
      Finset.sum_congr rfl fun i _ => by split_ifs <;> simp
    rw [h5, h6, Finset.sum_sub_distrib, Finset.sum_boole, Finset.sum_const, Finset.card_univ, Fintype.card_fin] at htr
    have h7 : ((Finset.univ.filter fun i => l i = 0).card : ℝ) = n := by
      simp only [nsmul_eq_mul, mul_one, Nat.cast_add] at htr
      linarith
    exact_mod_cast h7
  let e := Finset.equivFinOfCardEq hcard
  refine ⟨Matrix.of fun j k => Uᴴ (e.symm j : Fin (n + n)) k, ?_, fun j => psd_kill hρ.psd ?_⟩
  · ext j k
    have h4 := congrFun (congrFun h2 (e.symm j)) (e.symm k)
    rw [mul_apply] at h4 ⊢
    simp only [of_apply, conjTranspose_apply, star_star] at h4 ⊢
    rw [h4, one_apply, one_apply]
    have : ((e.symm j : Fin (n + n)) = (e.symm k : Fin (n + n))) ↔ j = k := by
      rw [Subtype.coe_injective.eq_iff, e.symm.injective.eq_iff]
    simp only [this]
  · have h4 := corr_quad (Matrix.of fun j k => Uᴴ (e.symm j : Fin (n + n)) k) ρ j j
    rw [← h4, mul_apply]
    refine Finset.sum_eq_zero fun k _ => ?_
    have h5 := congrFun (congrFun hUP (e.symm j)) k
    rw [mul_apply, diagonal_mul, (Finset.mem_filter.1 (e.symm j).2).2] at h5
    have h6 : ((Matrix.of fun j k => Uᴴ (e.symm j : Fin (n + n)) k : Matrix (Fin n) (Fin (n + n)) ℂ) * corrP ρ) j k = 0 := by
      rw [mul_apply]
      simpa using h5
    rw [h6, zero_mul]

theorem Killed.anti {ρ : Op (2 ^ n)} {V : Matrix (Fin n) (Fin (n + n)) ℂ} (h : Killed ρ V) (hρ : ρ.trace = 1)
    (i j : Fin n) : V i ⬝ᵥ (swapS n *ᵥ V j) = 0 := by
  have h1 := congrArg (ρ * ·) (comb_anticomm (V i) (V j))
  simp only [Matrix.mul_add, ← Matrix.mul_assoc, h.2, zero_mul, add_zero, Matrix.mul_smul, mul_one] at h1
  have h2 := congrArg trace h1
  rwa [trace_zero, trace_smul, hρ, smul_eq_mul, mul_one, eq_comm] at h2

theorem dot_swapS (v w : Fin (n + n) → ℂ) : v ⬝ᵥ (swapS n *ᵥ w) = ∑ l, v l * w (fl l) := by
  rw [dotProduct]
  refine Finset.sum_congr rfl fun l _ => ?_
  congr 1
  exact swapS_mul (Matrix.of fun i _ => w i) l l

theorem Killed.modes {ρ : Op (2 ^ n)} {V : Matrix (Fin n) (Fin (n + n)) ℂ} (h : Killed ρ V) (hρ : Spec.IsDensity ρ) :
    HasModes ρ := by
  have hdot : ∀ i j : Fin n, ∑ l, V i l * star (V j l) = if i = j then 1 else 0 := fun i j => by
    have := congrFun (congrFun h.1 i) j
    rwa [mul_apply, one_apply] at this
  have hanti : ∀ i j : Fin n, ∑ l, V i l * V j (fl l) = 0 := fun i j => by
    rw [← dot_swapS]; exact h.anti hρ.trace_one i j
  have hfl : ∀ f : Fin (n + n) → ℂ, ∑ l, f (fl l) = ∑ l, f l := fun f => Equiv.sum_comp flE f
  refine ⟨Matrix.of (Fin.addCases (fun i => V i) (fun i l => star (V i (fl l)))),
    (Matrix.of (Fin.addCases (fun i => V i) (fun i l => star (V i (fl l)))))ᴴ,
    Fin.addCases (fun _ => true) (fun _ => false), ?_, fun k => ?_⟩
  · ext a b
    rw [mul_apply]
    simp only [conjTranspose_apply, of_apply]
    refine Fin.addCases (fun i => ?_) (fun i => ?_) a <;> refine Fin.addCases (fun j => ?_) (fun j => ?_) b
    · simp only [Fin.addCases_left, hdot, one_apply, Fin.castAdd_inj]
    · simp only [Fin.addCases_left, Fin.addCases_right, star_star, hanti, one_apply]
      rw [if_neg]
      intro e; have := congrArg Fin.val e; simp at this; omega
    · simp only [Fin.addCases_left, Fin.addCases_right, one_apply]
      rw [if_neg]
      · have := congrArg star (hanti i j)
        rw [star_sum, star_zero] at this
        rw [← this, ← hfl]
        refine Finset.sum_congr rfl fun l _ => ?_
        rw [fl_fl, star_mul']
      · intro e; have := congrArg Fin.val e; simp at this; omega
    · simp only [Fin.addCases_right, one_apply, star_star]
      have h1 := congrArg star (hdot i j)
      rw [star_sum] at h1
      rw [hfl fun l => star (V i l) * V j l]
      simp only [star_mul', star_star] at h1
      rw [h1]
      have : (Fin.natAdd n i = Fin.natAdd n j) ↔ i = j := (Fin.natAdd_injective n n).eq_iff
      simp only [this]
      split_ifs <;> simp
  · refine Fin.addCases (fun i => ?_) (fun i => ?_) k
    · simp only [Fin.addCases_left, of_apply, if_true]
      exact h.2 i
    · simp only [Fin.addCases_right, of_apply, Bool.false_eq_true, if_false]
      have h1 := congrArg conjTranspose (h.2 i)
      rw [conjTranspose_mul, hρ.psd.isHermitian.eq, comb_conj, conjTranspose_zero] at h1
      exact h1

/-! ## The common vacuum is one-dimensional -/

theorem vacP_comm {d : ℕ} {g : ℕ → Op d} {N : ℕ} (h : IsCAR g N) {i : ℕ} (hi : i < N) :
    ∀ k, k ≤ i → g i * vacP g k = vacP g k * g i := by
  intro k hk
  induction k with
  | zero => simp [vacP]
  | succ k ihk =>
    rw [vacP, ← mul_assoc, ihk (by omega), mul_assoc, mul_assoc, mul_sub, sub_mul, mul_one, one_mul,
      h.comm (by omega) (by omega) (by omega)]

theorem vacP_trace {d : ℕ} {g : ℕ → Op d} {N : ℕ} (h : IsCAR g N) : ∀ m, m ≤ N → 2 ^ m * (vacP g m).trace = d := by
  intro m hm
  induction m with
  | zero => simp [vacP]
  | succ m ih =>
    have h1 := h.mixed m (by omega) m (by omega)
    rw [if_pos rfl] at h1
    have h2 : (vacP g m * ((g m)ᴴ * g m)).trace = (vacP g m * (g m * (g m)ᴴ)).trace := by
      rw [← mul_assoc, trace_mul_comm, ← mul_assoc, vacP_comm h (by omega) m le_rfl, mul_assoc]
    have h3 : (vacP g m * ((g m)ᴴ * g m)).trace + (vacP g m * (g m * (g m)ᴴ)).trace = (vacP g m).trace := by
      rw [← trace_add, ← mul_add, h1, mul_one]
    rw [vacP, mul_sub, mul_one, trace_sub, pow_succ]
    have := ih (by omega)
    linear_combination this - 2 ^ m * h3 + 2 ^ m * h2

theorem vacP_idem {d : ℕ} {g : ℕ → Op d} {N : ℕ} (h : IsCAR g N) : vacP g N * vacP g N = vacP g N := by
  have : ∀ m, m ≤ N → vacP g m * vacP g N = vacP g N := by
    intro m hm
    induction m with
    | zero => simp [vacP]
    | succ m ih =>
      rw [vacP, mul_assoc, sub_mul, one_mul, mul_assoc, vacP_kill h le_rfl (by omega), mul_zero, sub_zero, ih (by omega)]
  exact this N le_rfl

theorem pure_of_rank {d : ℕ} {Q : Op d} (h1 : Qᴴ = Q) (h2 : Q * Q = Q) (h3 : Q.trace = 1) :
    ∃ ψ, Spec.IsUnitVec ψ ∧ Q = Spec.proj ψ := by
  classical
  obtain ⟨U, l, u1, u2, u3, -⟩ := herm_diag (X := Q) h1
  have hD : diagonal (fun i => (l i : ℂ)) = Uᴴ * Q * U := by
    rw [u3]
    calc _ = (Uᴴ * U) * diagonal (fun i => (l i : ℂ)) * (Uᴴ * U) := by rw [u2, one_mul, mul_one]
      _ = _ := by simp only [Matrix.mul_assoc]
  have hl : ∀ i, l i = 0 ∨ l i = 1 := by
    have : diagonal (fun i => (l i : ℂ)) * diagonal (fun i => (l i : ℂ)) = diagonal (fun i => (l i : ℂ)) := by
      calc _ = Uᴴ * Q * U * (Uᴴ * Q * U) := by rw [hD]
        _ = Uᴴ * Q * (U * Uᴴ) * Q * U := by simp only [Matrix.mul_assoc]
        _ = Uᴴ * (Q * Q) * U := by rw [u1, mul_one, Matrix.mul_assoc Uᴴ]
        _ = _ := by rw [h2, hD]
    intro i
    rw [diagonal_mul_diagonal] at this
    have h4 := congrFun (diagonal_injective this) i
    have h5 : l i * l i = l i := by exact_mod_cast h4
    rcases eq_or_ne (l i) 0 with h | h
    · exact .inl h
    · exact .inr (mul_right_cancel₀ h (by rw [h5, one_mul]))
  have htr : ∑ i, l i = 1 := by
    rw [u3, trace_mul_comm, ← Matrix.mul_assoc, u2, one_mul, trace_diagonal] at h3
    exact_mod_cast h3
  obtain ⟨i0, hi0⟩ : ∃ i, l i = 1 := by
    by_contra hcon
    push Not at hcon
    have : ∑ i, l i = 0 := Finset.sum_eq_zero fun i _ => (hl i).resolve_right (hcon i)
    rw [this] at htr; exact zero_ne_one htr
  have hother : ∀ i, i ≠ i0 → l i = 0 := by
    have h5 : ∑ i ∈ Finset.univ.erase i0, l i = 0 := by
      have := Finset.add_sum_erase Finset.univ l (Finset.mem_univ i0)
      rw [htr, hi0] at this; linarith
    have h6 := (Finset.sum_eq_zero_iff_of_nonneg fun i _ => by rcases hl i with h | h <;> simp [h]).1 h5
    exact fun i hi => h6 i (Finset.mem_erase.2 ⟨hi, Finset.mem_univ i⟩)
  refine ⟨fun x => U x i0, ?_, ?_⟩
  · have := congrFun (congrFun u2 i0) i0
    rw [mul_apply, one_apply_eq] at this
    rw [Spec.IsUnitVec]
    have h5 : ∑ i, ((‖U i i0‖ ^ 2 : ℝ) : ℂ) = 1 := by
      rw [← this]
      refine Finset.sum_congr rfl fun i _ => ?_
      rw [conjTranspose_apply, Complex.star_def, mul_comm, Complex.mul_conj, Complex.normSq_eq_norm_sq]
    exact_mod_cast h5
  · ext x y
    rw [u3, mul_apply, Finset.sum_eq_single i0]
    · rw [mul_diagonal, hi0]
      simp [Spec.proj]
    · intro i _ hi
      rw [mul_diagonal, hother i hi]; simp
    · simp

theorem Killed.pure {ρ : Op (2 ^ n)} {V : Matrix (Fin n) (Fin (n + n)) ℂ} (h : Killed ρ V) (hρ : Spec.IsDensity ρ) :
    Spec.Pure ρ := by
  classical
  set g : ℕ → Op (2 ^ n) := fun j => if hj : j < n then comb (V ⟨j, hj⟩) else 0 with hg
  have hgj : ∀ j (hj : j < n), g j = comb (V ⟨j, hj⟩) := fun j hj => dif_pos hj
  have hcar : IsCAR g n := by
    refine ⟨fun i hi j hj => ?_, fun i hi j hj => ?_⟩
    · rw [hgj i hi, hgj j hj, comb_anticomm, h.anti hρ.trace_one, zero_smul]
    · rw [hgj i hi, hgj j hj, comb_conj, comb_anticomm, dot_swapS]
      have h1 := congrFun (congrFun h.1 ⟨j, hj⟩) ⟨i, hi⟩
      rw [mul_apply] at h1
      have h2 : ∑ l, star (V ⟨i, hi⟩ (fl l)) * V ⟨j, hj⟩ (fl l) = (1 : Matrix (Fin n) (Fin n) ℂ) ⟨j, hj⟩ ⟨i, hi⟩ := by
        rw [← h1]
        refine (Equiv.sum_comp flE fun l => star (V ⟨i, hi⟩ l) * V ⟨j, hj⟩ l).trans ?_
        exact Finset.sum_congr rfl fun l _ => by rw [conjTranspose_apply, mul_comm]
      rw [h2, one_apply]
      simp only [Fin.mk.injEq, eq_comm (a := j)]
      split_ifs <;> simp
  have hfix : ∀ m, m ≤ n → ρ * vacP g m = ρ := by
    intro m hm
    induction m with
    | zero => simp [vacP]
    | succ m ih =>
      rw [vacP, ← mul_assoc, ih (by omega), mul_sub, mul_one, ← mul_assoc, hgj m (by omega), h.2, zero_mul, sub_zero]
  have hQ1 := vacP_herm hcar le_rfl
  have hQ2 := vacP_idem hcar
  have hQ3 : (vacP g n).trace = 1 := by
    have := vacP_trace hcar n le_rfl
    push_cast at this
    exact mul_left_cancel₀ (pow_ne_zero n two_ne_zero) (this.trans (mul_one _).symm)
  obtain ⟨ψ, hψ, hQ⟩ := pure_of_rank hQ1 hQ2 hQ3
  have hr : ρ * Spec.proj ψ = ρ := by rw [← hQ]; exact hfix n le_rfl
  have hl : Spec.proj ψ * ρ = ρ := by
    have := congrArg conjTranspose hr
    rwa [conjTranspose_mul, proj_herm, hρ.psd.isHermitian.eq] at this
  have hc : ρ = (star ψ ⬝ᵥ (ρ *ᵥ ψ)) • Spec.proj ψ := by
    have h2 : Spec.proj ψ = vecMulVec ψ (star ψ) := rfl
    conv_lhs => rw [← hl, ← hr, h2, mul_vecMulVec, vecMulVec_mul_vecMulVec, vecMulVec_smul]
    rw [h2]
  refine ⟨ψ, hψ, ?_⟩
  have h1 := congrArg trace hc
  rw [hρ.trace_one, trace_smul, proj_trace, hψ] at h1
  rw [hc]
  have h2 : (star ψ ⬝ᵥ (ρ *ᵥ ψ)) = 1 := by simpa using h1.symm
  rw [h2, one_smul]

/-! ## Relation to the covariance matrix -/

theorem corr_majorana {g : Fin (n + n) → Op (2 ^ n)} (hg : jordanWignerMajoranas n = List.ofFn g)
    (hH : ∀ i, (g i).IsHermitian) (hA : ∀ i j, g i * g j + g j * g i = if i = j then 1 else 0) {ρ : Op (2 ^ n)}
    (hρ : Spec.IsDensity ρ) :
    buildOmega n * corrP ρ * (buildOmega n)ᴴ = (1 / 2 : ℂ) • (1 + Complex.I • toC (majCov g ρ)) := by
  have hg' : ∀ k, g k = comb (buildOmega n k) := by
    rw [jordanWignerMajoranas_eq] at hg
    intro k
    rw [← List.ofFn_injective hg]
    rfl
  ext i j
  rw [corr_quad, ← hg', ← hg', (hH j).eq, Matrix.smul_apply, Matrix.add_apply, Matrix.smul_apply]
  have h1 : toC (majCov g ρ) i j = ((majCov g ρ i j : ℝ) : ℂ) := rfl
  have h2 : (ρ * (g i * g j)).trace + (ρ * (g j * g i)).trace = (1 : Op (n + n)) i j := by
    rw [← trace_add, ← Matrix.mul_add, hA, one_apply]
    split_ifs
    · rw [mul_one, hρ.trace_one]
    · simp
  rw [h1, majCov_eq hH hρ.psd.isHermitian, ← h2, Matrix.mul_sub, trace_sub, smul_eq_mul, smul_eq_mul]
  linear_combination (1 / 2) * ((ρ * (g i * g j)).trace - (ρ * (g j * g i)).trace) * Complex.I_mul_I

theorem corr_proj_iff {g : Fin (n + n) → Op (2 ^ n)} (hg : jordanWignerMajoranas n = List.ofFn g)
    (hH : ∀ i, (g i).IsHermitian) (hA : ∀ i j, g i * g j + g j * g i = if i = j then 1 else 0) {ρ : Op (2 ^ n)}
    (hρ : Spec.IsDensity ρ) : corrP ρ * corrP ρ = corrP ρ ↔ (majCov g ρ)ᵀ * majCov g ρ = 1 := by
  have h1 := corr_majorana hg hH hA hρ
  set Ω := buildOmega n
  set M := majCov g ρ
  set K : Op (n + n) := (1 / 2 : ℂ) • (1 + Complex.I • toC M) with hK
  have u1 : Ω * Ωᴴ = 1 := omega_unitary' n
  have u2 : Ωᴴ * Ω = 1 := omega_unitary n
  have hP : corrP ρ = Ωᴴ * K * Ω := by
    rw [← h1]
    calc _ = (Ωᴴ * Ω) * corrP ρ * (Ωᴴ * Ω) := by rw [u2, one_mul, mul_one]
      _ = _ := by simp only [Matrix.mul_assoc]
  have e1 : corrP ρ * corrP ρ = corrP ρ ↔ K * K = K := by
    constructor
    · intro h
      rw [← h1]
      calc _ = Ω * corrP ρ * (Ωᴴ * Ω) * corrP ρ * Ωᴴ := by simp only [Matrix.mul_assoc]
        _ = Ω * (corrP ρ * corrP ρ) * Ωᴴ := by rw [u2, mul_one, Matrix.mul_assoc Ω]
        _ = _ := by rw [h]
    · intro h
      rw [hP]
      calc _ = Ωᴴ * K * (Ω * Ωᴴ) * K * Ω := by simp only [Matrix.mul_assoc]
        _ = Ωᴴ * (K * K) * Ω := by rw [u1, mul_one, Matrix.mul_assoc Ωᴴ]
        _ = _ := by rw [h]
  have hKK : K * K - K = (1 / 4 : ℂ) • (toC (Mᵀ * M) - 1) := by
    have hskew : Mᵀ = -M := majCov_skew
    have h2 : toC (Mᵀ * M) = -(toC M * toC M) := by
      rw [hskew, Matrix.neg_mul]
      ext i j
      simp [toC, mul_apply]
    rw [h2, hK]
    simp only [Matrix.smul_mul, Matrix.mul_smul, Matrix.add_mul, Matrix.mul_add, one_mul, mul_one, smul_smul, smul_add]
    have h3 : Complex.I * (1 / 2) * (1 / 2 * Complex.I) = -(1 / 4) := by
      linear_combination (1 / 4) * Complex.I_mul_I
    ext i j
    simp only [Matrix.add_apply, Matrix.sub_apply, Matrix.neg_apply, Matrix.smul_apply, smul_eq_mul]
    linear_combination (1 / 4) * (toC M * toC M) i j * Complex.I_mul_I
  rw [e1, ← sub_eq_zero, hKK, smul_eq_zero, or_iff_right (by norm_num), sub_eq_zero]
  constructor
  · intro h
    ext i j
    apply Complex.ofReal_injective
    have := congrFun (congrFun h i) j
    refine this.trans ?_
    rw [one_apply, one_apply]; split_ifs <;> simp
  · intro h
    rw [h]
    ext i j
    simp only [toC, map_apply, one_apply]
    split_ifs <;> simp

end FF
