import Verif.Proofs.Slater
import Verif.Proofs.Faf

/-! # Helper lemmas: the matchgate identities -/

namespace FF

open Matrix
open scoped ComplexOrder

variable {n : ℕ}

theorem amp_eq (ψ : Fin (2 ^ n) → ℂ) (b : Fin n → Fin 2) : Spec.amp ψ b = ψ (bIdx b) := by
  rw [← inner_fock b ψ, Spec.amp, Spec.inner]
  refine Finset.sum_congr rfl fun x _ => ?_
  rw [Spec.fock]
  split_ifs <;> simp

theorem amp_inner (ψ : Fin (2 ^ n) → ℂ) (b : Fin n → Fin 2) : Spec.amp ψ b = Spec.inner (Spec.fock b) ψ := by
  rw [amp_eq, inner_fock]

theorem sum_occ {β : Type*} [AddCommMonoid β] (F : Fin (2 ^ n) → β) : ∑ b : Fin n → Fin 2, F (bIdx b) = ∑ x, F x := by
  refine Fintype.sum_bijective bIdx ⟨fun b c h => ?_, fun x => ⟨Spec.digit 2 n x, ?_⟩⟩ _ _ fun b => rfl
  · rw [← (eq_bIdx (bIdx b) b).1 rfl, ← (eq_bIdx (bIdx b) c).1 h]
  · exact ((eq_bIdx x _).2 rfl).symm

theorem toggle_zero {b : Fin n → Fin 2} {i : Fin n} (h : b i = 0) : Spec.toggle b i = Function.update b i 1 := by
  rw [Spec.toggle, h]; rfl

theorem toggle_one {b : Fin n → Fin 2} {i : Fin n} (h : b i = 1) : Spec.toggle b i = Function.update b i 0 := by
  rw [Spec.toggle, h]; rfl

/-- Amplitudes after a lowering operator. -/
theorem amp_lower (ψ : Fin (2 ^ n) → ℂ) (b : Fin n → Fin 2) (i : Fin n) :
    Spec.amp (jwLower n i *ᵥ ψ) b = if b i = 0 then (-1) ^ Spec.before b i * Spec.amp ψ (Spec.toggle b i) else 0 := by
  have h := inner_mulVec (jwLower n i)ᴴ (Spec.fock b) ψ
  rw [conjTranspose_conjTranspose] at h
  rw [amp_inner, ← h, jwRaise_fock]
  split_ifs with hb
  · rw [amp_inner, toggle_zero hb]
    simp only [Spec.inner, Pi.smul_apply, smul_eq_mul, star_mul', star_pow, star_neg, star_one, Finset.mul_sum, mul_assoc]
    rfl
  · simp [Spec.inner]

/-- Amplitudes after a raising operator. -/
theorem amp_raise (ψ : Fin (2 ^ n) → ℂ) (b : Fin n → Fin 2) (i : Fin n) :
    Spec.amp ((jwLower n i)ᴴ *ᵥ ψ) b = if b i = 1 then (-1) ^ Spec.before b i * Spec.amp ψ (Spec.toggle b i) else 0 := by
  have h := inner_mulVec (jwLower n i) (Spec.fock b) ψ
  rw [amp_inner, ← h, jwLower_fock]
  split_ifs with hb
  · rw [amp_inner, toggle_one hb]
    simp only [Spec.inner, Pi.smul_apply, smul_eq_mul, star_mul', star_pow, star_neg, star_one, Finset.mul_sum, mul_assoc]
    rfl
  · simp [Spec.inner]

theorem fin2_cases (x : Fin 2) : x = 0 ∨ x = 1 := by
  rcases x with ⟨_ | _ | k, hk⟩
  · exact .inl rfl
  · exact .inr rfl
  · omega

/-- The defect in terms of the operators. -/
theorem defect_ops (ψ : Fin (2 ^ n) → ℂ) (b c : Fin n → Fin 2) : Spec.matchgateDefect ψ b c =
    ∑ i : Fin n, (Spec.amp (jwLower n i *ᵥ ψ) b * Spec.amp ((jwLower n i)ᴴ *ᵥ ψ) c +
      Spec.amp ((jwLower n i)ᴴ *ᵥ ψ) b * Spec.amp (jwLower n i *ᵥ ψ) c) := by
  rw [Spec.matchgateDefect, Finset.sum_filter]
  refine Finset.sum_congr rfl fun i _ => ?_
  rw [amp_lower, amp_raise, amp_raise, amp_lower, pow_add]
  rcases fin2_cases (b i) with hb | hb <;> rcases fin2_cases (c i) with hc | hc <;> simp [hb, hc] <;> ring

/-- The Majorana operators of the code. -/
noncomputable def gmaj (n : ℕ) : Fin (n + n) → Op (2 ^ n) := fun j => ∑ i, buildOmega n j i • al n i

theorem amp_add (x y : Fin (2 ^ n) → ℂ) (b : Fin n → Fin 2) : Spec.amp (x + y) b = Spec.amp x b + Spec.amp y b := by
  simp [amp_eq]

theorem amp_smul (z : ℂ) (x : Fin (2 ^ n) → ℂ) (b : Fin n → Fin 2) : Spec.amp (z • x) b = z * Spec.amp x b := by
  simp [amp_eq]

theorem gmaj_left (i : Fin n) : gmaj n (Fin.castAdd n i) = nu • ((jwLower n i)ᴴ + jwLower n i) := by
  rw [gmaj]
  simp only [Fin.sum_univ_add, al_left, al_right, buildOmega, blk_11, blk_12, Matrix.smul_apply, one_apply,
    smul_eq_mul, mul_ite, mul_one, mul_zero, ite_smul, zero_smul, Finset.sum_ite_eq, Finset.mem_univ, if_true, smul_add]

theorem gmaj_right (i : Fin n) : gmaj n (Fin.natAdd n i) = (Complex.I * nu) • ((jwLower n i)ᴴ - jwLower n i) := by
  rw [gmaj]
  simp only [Fin.sum_univ_add, al_left, al_right, buildOmega, blk_21, blk_22, Matrix.smul_apply, one_apply,
    smul_eq_mul, mul_ite, mul_one, mul_zero, ite_smul, zero_smul, Finset.sum_ite_eq, Finset.mem_univ, if_true, smul_sub]
  rw [neg_mul, neg_smul, sub_eq_add_neg]

theorem defect_maj (ψ : Fin (2 ^ n) → ℂ) (b c : Fin n → Fin 2) : Spec.matchgateDefect ψ b c =
    ∑ k, Spec.amp (gmaj n k *ᵥ ψ) b * Spec.amp (gmaj n k *ᵥ ψ) c := by
  rw [defect_ops, Fin.sum_univ_add, ← Finset.sum_add_distrib]
  refine Finset.sum_congr rfl fun i _ => ?_
  rw [gmaj_left, gmaj_right, smul_mulVec, smul_mulVec, add_mulVec, sub_mulVec, sub_eq_add_neg, ← neg_one_smul ℂ (_ *ᵥ ψ)]
  simp only [amp_add, amp_smul]
  have hI : Complex.I * Complex.I = -1 := Complex.I_mul_I
  have hn := nu_sq
  linear_combination
    (-2 * (Spec.amp (jwLower n i *ᵥ ψ) b * Spec.amp ((jwLower n i)ᴴ *ᵥ ψ) c +
      Spec.amp ((jwLower n i)ᴴ *ᵥ ψ) b * Spec.amp (jwLower n i *ᵥ ψ) c)) * hn
    - nu * nu * (Spec.amp ((jwLower n i)ᴴ *ᵥ ψ) b - Spec.amp (jwLower n i *ᵥ ψ) b) *
      (Spec.amp ((jwLower n i)ᴴ *ᵥ ψ) c - Spec.amp (jwLower n i *ᵥ ψ) c) * hI

theorem inner_amp (x y : Fin (2 ^ n) → ℂ) : Spec.inner x y = ∑ b, star (Spec.amp x b) * Spec.amp y b := by
  simp only [amp_eq]
  exact (sum_occ fun i => star (x i) * y i).symm

/-- The overlaps of the vectors `γ_k ψ`. -/
noncomputable def gram (ψ : Fin (2 ^ n) → ℂ) : Op (n + n) := Matrix.of fun k l => Spec.inner (gmaj n k *ᵥ ψ) (gmaj n l *ᵥ ψ)

theorem defect_sum (ψ : Fin (2 ^ n) → ℂ) : ∑ b, ∑ c, star (Spec.matchgateDefect ψ b c) * Spec.matchgateDefect ψ b c =
    ∑ k, ∑ l, gram ψ k l ^ 2 := by
  have h : ∀ b c, star (Spec.matchgateDefect ψ b c) * Spec.matchgateDefect ψ b c = ∑ k, ∑ l,
      (star (Spec.amp (gmaj n k *ᵥ ψ) b) * Spec.amp (gmaj n l *ᵥ ψ) b) *
      (star (Spec.amp (gmaj n k *ᵥ ψ) c) * Spec.amp (gmaj n l *ᵥ ψ) c) := by
    intro b c
    rw [defect_maj, star_sum, Finset.sum_mul_sum]
    refine Finset.sum_congr rfl fun k _ => Finset.sum_congr rfl fun l _ => ?_
    rw [star_mul']; ring
  simp only [h]
  have h1 : ∀ b, ∑ c, ∑ k, ∑ l,
      (star (Spec.amp (gmaj n k *ᵥ ψ) b) * Spec.amp (gmaj n l *ᵥ ψ) b) *
      (star (Spec.amp (gmaj n k *ᵥ ψ) c) * Spec.amp (gmaj n l *ᵥ ψ) c) = ∑ k, ∑ l,
      (star (Spec.amp (gmaj n k *ᵥ ψ) b) * Spec.amp (gmaj n l *ᵥ ψ) b) * gram ψ k l := by
    intro b
    rw [Finset.sum_comm]
    refine Finset.sum_congr rfl fun k _ => ?_
    rw [Finset.sum_comm]
    refine Finset.sum_congr rfl fun l _ => ?_
    rw [gram, of_apply, inner_amp, Finset.mul_sum]
  simp only [h1]
  rw [Finset.sum_comm]
  refine Finset.sum_congr rfl fun k _ => ?_
  rw [Finset.sum_comm]
  refine Finset.sum_congr rfl fun l _ => ?_
  rw [← Finset.sum_mul, sq]
  congr 1
  rw [gram, of_apply, inner_amp]

/-- Vanishing defect makes the Gram matrix isotropic. -/
theorem gram_isotropic {ψ : Fin (2 ^ n) → ℂ} (h : ∀ b c, Spec.matchgateDefect ψ b c = 0) : gram ψ * (gram ψ)ᵀ = 0 := by
  ext k l
  rw [mul_apply, Matrix.zero_apply]
  have h1 : ∑ b, ∑ c, (star (Spec.amp (gmaj n k *ᵥ ψ) b) * star (Spec.amp (gmaj n l *ᵥ ψ) c)) *
      Spec.matchgateDefect ψ b c = 0 := by simp [h]
  rw [← h1]
  have h2 : ∀ b c, (star (Spec.amp (gmaj n k *ᵥ ψ) b) * star (Spec.amp (gmaj n l *ᵥ ψ) c)) *
      Spec.matchgateDefect ψ b c = ∑ j, (star (Spec.amp (gmaj n k *ᵥ ψ) b) * Spec.amp (gmaj n j *ᵥ ψ) b) *
        (star (Spec.amp (gmaj n l *ᵥ ψ) c) * Spec.amp (gmaj n j *ᵥ ψ) c) := by
    intro b c
    rw [defect_maj, Finset.mul_sum]
    exact Finset.sum_congr rfl fun j _ => by ring
  simp only [h2]
  have h3 : ∀ b, ∑ c, ∑ j, (star (Spec.amp (gmaj n k *ᵥ ψ) b) * Spec.amp (gmaj n j *ᵥ ψ) b) *
        (star (Spec.amp (gmaj n l *ᵥ ψ) c) * Spec.amp (gmaj n j *ᵥ ψ) c) =
      ∑ j, (star (Spec.amp (gmaj n k *ᵥ ψ) b) * Spec.amp (gmaj n j *ᵥ ψ) b) * gram ψ l j := by
    intro b
    rw [Finset.sum_comm]
    refine Finset.sum_congr rfl fun j _ => ?_
    rw [gram, of_apply, inner_amp, Finset.mul_sum]
  simp only [h3]
  rw [Finset.sum_comm]
  refine Finset.sum_congr rfl fun j _ => ?_
  rw [← Finset.sum_mul, transpose_apply]
  congr 1
  rw [gram, of_apply, inner_amp]

/-! ## the covariance matrix -/

theorem inner_trace {d : ℕ} (ψ : Fin d → ℂ) (A : Op d) : Spec.inner ψ (A *ᵥ ψ) = (Spec.proj ψ * A).trace := by
  rw [trace_mul_comm]
  simp only [Spec.inner, trace, diag_apply, mul_apply, mulVec, dotProduct, Spec.proj, of_apply, Finset.mul_sum]
  exact Finset.sum_congr rfl fun i _ => Finset.sum_congr rfl fun j _ => by ring

theorem gram_cov {ψ : Fin (2 ^ n) → ℂ} (hψ : Spec.IsUnitVec ψ) (hH : ∀ i, (gmaj n i).IsHermitian)
    (hA : ∀ i j, gmaj n i * gmaj n j + gmaj n j * gmaj n i = if i = j then 1 else 0) {M : RMat (n + n)}
    (hM : Spec.IsMajoranaCov (gmaj n) (Spec.proj ψ) M) (k l : Fin (n + n)) :
    gram ψ k l = 1 / 2 * ((1 : Op (n + n)) k l + Complex.I * M k l) := by
  have h1 : gram ψ k l = (Spec.proj ψ * (gmaj n k * gmaj n l)).trace := by
    rw [gram, of_apply, inner_mulVec, (hH k).eq, mulVec_mulVec, inner_trace]
  have h2 : (Spec.proj ψ * (gmaj n k * gmaj n l)).trace + (Spec.proj ψ * (gmaj n l * gmaj n k)).trace = (1 : Op (n + n)) k l := by
    rw [← trace_add, ← Matrix.mul_add, hA, one_apply]
    split_ifs
    · rw [Matrix.mul_one, proj_trace, hψ]; simp
    · simp
  have h3 := hM k l
  rw [Matrix.mul_sub, trace_sub] at h3
  rw [h1]
  have hI : Complex.I * Complex.I = -1 := Complex.I_mul_I
  rw [h3]
  linear_combination (1 / 2) * h2 + (1 / 2) * ((Spec.proj ψ * (gmaj n k * gmaj n l)).trace -
    (Spec.proj ψ * (gmaj n l * gmaj n k)).trace) * hI

theorem cov_skew {ψ : Fin (2 ^ n) → ℂ} {g : Fin (n + n) → Op (2 ^ n)} {M : RMat (n + n)}
    (hM : Spec.IsMajoranaCov g (Spec.proj ψ) M) (k l : Fin (n + n)) : M k l = -M l k := by
  apply Complex.ofReal_injective
  push_cast
  rw [hM, hM, ← neg_sub (g l * g k), Matrix.mul_neg, trace_neg]
  ring

/-- The squared defects measure how far the covariance matrix is from an orthogonal one. -/
theorem defect_cov {ψ : Fin (2 ^ n) → ℂ} (hψ : Spec.IsUnitVec ψ) (hH : ∀ i, (gmaj n i).IsHermitian)
    (hA : ∀ i j, gmaj n i * gmaj n j + gmaj n j * gmaj n i = if i = j then 1 else 0) {M : RMat (n + n)}
    (hM : Spec.IsMajoranaCov (gmaj n) (Spec.proj ψ) M) :
    ∑ b, ∑ c, ‖Spec.matchgateDefect ψ b c‖ ^ 2 = 1 / 2 * (n - 1 / 2 * (Mᵀ * M).trace) := by
  have h1 := defect_sum ψ
  have h2 : ∀ b c, star (Spec.matchgateDefect ψ b c) * Spec.matchgateDefect ψ b c =
      ((‖Spec.matchgateDefect ψ b c‖ ^ 2 : ℝ) : ℂ) := by
    intro b c
    rw [mul_comm]
    push_cast
    exact Complex.mul_conj' _
  simp only [h2] at h1
  have h3 : ∀ k l, gram ψ k l ^ 2 = 1 / 4 * ((1 : Op (n + n)) k l - ((M k l ^ 2 : ℝ) : ℂ)) := by
    intro k l
    rw [gram_cov hψ hH hA hM]
    by_cases hkl : k = l
    · subst hkl
      have : M k k = 0 := by have := cov_skew hM k k; linarith
      rw [this, one_apply_eq]; push_cast; ring
    · rw [one_apply_ne hkl]
      push_cast
      have hI : Complex.I ^ 2 = -1 := Complex.I_sq
      linear_combination (1 / 4) * (M k l : ℂ) ^ 2 * hI
  simp only [h3] at h1
  apply Complex.ofReal_injective
  push_cast at h1 ⊢
  rw [h1]
  simp only [← Finset.mul_sum, Finset.sum_sub_distrib]
  have h4 : ∑ k : Fin (n + n), ∑ l, (1 : Op (n + n)) k l = 2 * n := by
    simp [one_apply, two_mul]
  have h5 : (((Mᵀ * M).trace : ℝ) : ℂ) = ∑ k, ∑ l, (M k l : ℂ) ^ 2 := by
    rw [trace, Finset.sum_congr rfl fun i _ => by rw [diag_apply, mul_apply], Finset.sum_comm]
    push_cast
    exact Finset.sum_congr rfl fun k _ => Finset.sum_congr rfl fun l _ => by rw [transpose_apply, sq]
  rw [h4, h5]
  ring

theorem defect_zero {ψ : Fin (2 ^ n) → ℂ} (hψ : Spec.IsUnitVec ψ) (hH : ∀ i, (gmaj n i).IsHermitian)
    (hA : ∀ i j, gmaj n i * gmaj n j + gmaj n j * gmaj n i = if i = j then 1 else 0) {M : RMat (n + n)}
    (hM : Spec.IsMajoranaCov (gmaj n) (Spec.proj ψ) M) :
    (∀ b c, Spec.matchgateDefect ψ b c = 0) ↔ Mᵀ * M = 1 := by
  constructor
  · intro h
    have h1 := gram_isotropic h
    ext k l
    have h2 := congrFun (congrFun h1 k) l
    rw [mul_apply, Matrix.zero_apply] at h2
    simp only [transpose_apply, gram_cov hψ hH hA hM] at h2
    apply Complex.ofReal_injective
    rw [mul_apply]
    push_cast
    have h3 : ∀ j, 1 / 2 * ((1 : Op (n + n)) k j + Complex.I * M k j) * (1 / 2 * ((1 : Op (n + n)) l j + Complex.I * M l j)) =
        1 / 4 * ((1 : Op (n + n)) k j * (1 : Op (n + n)) l j) + 1 / 4 * Complex.I * ((1 : Op (n + n)) k j * M l j) +
        1 / 4 * Complex.I * ((1 : Op (n + n)) l j * M k j) - 1 / 4 * (M k j * M l j) := by
      intro j
      have hI : Complex.I ^ 2 = -1 := Complex.I_sq
      linear_combination (1 / 4) * (M k j : ℂ) * (M l j) * hI
    simp only [h3, Finset.sum_sub_distrib, Finset.sum_add_distrib, ← Finset.mul_sum] at h2
    have h4 : ∀ (i : Fin (n + n)) (v : Fin (n + n) → ℂ), ∑ j, (1 : Op (n + n)) i j * v j = v i := by
      intro i v; simp [one_apply]
    rw [h4, h4, h4, cov_skew hM l k] at h2
    have h5 : ∑ j, (((Mᵀ k j : ℝ) : ℂ) * (M j l : ℝ)) = ∑ j, ((M k j : ℂ) * (M l j : ℂ)) := by
      refine Finset.sum_congr rfl fun j _ => ?_
      rw [transpose_apply, cov_skew hM j k, cov_skew hM j l]; push_cast; ring
    rw [h5]
    have h6 : ((1 : RMat (n + n)) k l : ℂ) = (1 : Op (n + n)) l k := by
      rw [one_apply, one_apply]; by_cases hkl : k = l <;> simp [hkl, eq_comm]
    rw [h6]
    push_cast at h2
    linear_combination -4 * h2
  · intro h b c
    have h1 := defect_cov hψ hH hA hM
    rw [h, trace_one, Fintype.card_fin] at h1
    push_cast at h1
    have h2 : ∑ b, ∑ c, ‖Spec.matchgateDefect ψ b c‖ ^ 2 = 0 := by rw [h1]; ring
    have h3 := (Finset.sum_eq_zero_iff_of_nonneg fun b _ => Finset.sum_nonneg fun c _ => by positivity).1 h2 b (Finset.mem_univ _)
    have h4 := (Finset.sum_eq_zero_iff_of_nonneg fun c _ => by positivity).1 h3 c (Finset.mem_univ _)
    simpa using h4

end FF
