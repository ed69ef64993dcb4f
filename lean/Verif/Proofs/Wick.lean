import Verif.Proofs.PfExpand
import Verif.Proofs.Random
import Verif.Spec.Wick

/-! # Helper lemmas: Wick's theorem -/

namespace FF

open Matrix
open scoped ComplexOrder

section general
variable {N d : ℕ} {f : Fin N → Op d} {s : Op N} {ρ : Op d}

/-- Products of the operators. -/
noncomputable def prodOp (f : Fin N → Op d) {m : ℕ} (L : Fin m → Fin N) : Op d := (List.ofFn fun i => f (L i)).prod

theorem prodOp_succ {m : ℕ} (L : Fin (m + 1) → Fin N) :
    prodOp f L = f (L 0) * prodOp f (fun i => L i.succ) := by
  rw [prodOp, List.ofFn_succ, List.prod_cons]; rfl

theorem prodOp_zero (L : Fin 0 → Fin N) : prodOp f L = 1 := by simp [prodOp]

/-- Moving an operator through a product. -/
theorem car_prod (hf : ∀ i j, f i * f j + f j * f i = s i j • 1) (k : Fin N) : ∀ {m : ℕ} (L : Fin (m + 1) → Fin N),
    f k * prodOp f L = ∑ p : Fin (m + 1), ((-1) ^ (p : ℕ) * s k (L p)) • prodOp f (fun i => L (p.succAbove i)) +
      (-1 : ℂ) ^ (m + 1) • (prodOp f L * f k)
  | 0, L => by
    have h := hf k (L 0)
    rw [prodOp_succ, prodOp_zero, mul_one]
    rw [Fin.sum_univ_one]
    simp only [Fin.val_zero, pow_zero, one_mul, prodOp_zero, zero_add, pow_one]
    rw [← h]
    simp
  | m + 1, L => by
    have h := hf k (L 0)
    have ih := car_prod hf k (fun i => L i.succ)
    have h1 : f k * f (L 0) = s k (L 0) • 1 - f (L 0) * f k := by rw [← h]; abel
    rw [prodOp_succ L, ← mul_assoc, h1, sub_mul, mul_assoc, ih, mul_add, Finset.mul_sum]
    have h2 : ∀ p : Fin (m + 1), f (L 0) * (((-1) ^ (p : ℕ) * s k (L p.succ)) •
        prodOp f (fun i => L (p.succAbove i).succ)) =
        ((-1) ^ (p : ℕ) * s k (L p.succ)) • prodOp f (fun i => L (p.succ.succAbove i)) := by
      intro p
      rw [mul_smul_comm, prodOp_succ (fun i => L (p.succ.succAbove i))]
      simp
    rw [Finset.sum_congr rfl fun p _ => h2 p, Fin.sum_univ_succ (n := m + 1)]
    have h3 : ∑ p : Fin (m + 1), ((-1) ^ ((p.succ : Fin (m + 2)) : ℕ) * s k (L p.succ)) •
        prodOp f (fun i => L (p.succ.succAbove i)) =
        - ∑ p : Fin (m + 1), ((-1) ^ (p : ℕ) * s k (L p.succ)) • prodOp f (fun i => L (p.succ.succAbove i)) := by
      rw [← Finset.sum_neg_distrib]
      refine Finset.sum_congr rfl fun p _ => ?_
      rw [Fin.val_succ, pow_succ, ← neg_smul]
      congr 1; ring
    rw [h3]
    have h4 : prodOp f (fun i => L ((0 : Fin (m + 2)).succAbove i)) = prodOp f (fun i => L i.succ) := by simp
    rw [h4]
    simp only [Fin.val_zero, pow_zero, one_mul, smul_mul_assoc, one_mul, mul_smul_comm, pow_succ, mul_assoc]
    simp only [mul_neg, mul_one, neg_smul]
    abel

/-- What the proof of Wick's theorem needs of a state: the operators can be moved through it linearly, and either the
difference is invertible too or the state is even. -/
def IsGauss (f : Fin N → Op d) (ρ : Op d) : Prop :=
  ∃ A B : Op N, IsUnit (A + B) ∧ (∀ k, ∑ l, A k l • (ρ * f l) = ∑ l, B k l • (f l * ρ)) ∧
    (IsUnit (A - B) ∨ ∃ P : Op d, P * P = 1 ∧ (∀ i, P * f i = -(f i * P)) ∧ P * ρ = ρ * P)

/-- The two-point function. -/
def gam (f : Fin N → Op d) (ρ : Op d) : Op N := Matrix.of fun i j => (ρ * f i * f j).trace

theorem kms_trace {A B : Op N} (h : ∀ k, ∑ l, A k l • (ρ * f l) = ∑ l, B k l • (f l * ρ)) (X : Op d) (k : Fin N) :
    ∑ l, A k l * (ρ * (f l * X)).trace = ∑ l, B k l * (ρ * (X * f l)).trace := by
  have h1 := congrArg (fun M => (M * X).trace) (h k)
  simp only [Finset.sum_mul, Matrix.trace_sum, Matrix.smul_mul, Matrix.trace_smul, smul_eq_mul] at h1
  have e1 : ∀ l, (ρ * (f l * X)).trace = (ρ * f l * X).trace := fun l => by rw [Matrix.mul_assoc]
  have e2 : ∀ l, (ρ * (X * f l)).trace = (f l * ρ * X).trace := fun l => by
    rw [← Matrix.mul_assoc, Matrix.trace_mul_comm, ← Matrix.mul_assoc]
  simp only [e1, e2, h1]

/-- One contraction. -/
theorem wick_step (hf : ∀ i j, f i * f j + f j * f i = s i j • 1) {A B : Op N} (hu : IsUnit (A + B))
    (h : ∀ k, ∑ l, A k l • (ρ * f l) = ∑ l, B k l • (f l * ρ)) (hρ : ρ.trace = 1)
    {m : ℕ} (hm : Even m) (k : Fin N) (L : Fin (m + 1) → Fin N) :
    (ρ * (f k * prodOp f L)).trace =
      ∑ p : Fin (m + 1), (-1) ^ (p : ℕ) * gam f ρ k (L p) * (ρ * prodOp f (fun i => L (p.succAbove i))).trace := by
  obtain ⟨⟨U, V, hUV, hVU⟩, hU⟩ := hu
  simp only at hU
  subst hU
  -- the general equation for odd products
  have key : ∀ {m : ℕ} (_ : Even m) (L : Fin (m + 1) → Fin N) (j : Fin N),
      (ρ * (f j * prodOp f L)).trace = ∑ l, (V * B) j l * ∑ p : Fin (m + 1), (-1) ^ (p : ℕ) * s l (L p) *
        (ρ * prodOp f (fun i => L (p.succAbove i))).trace := by
    intro m hm L j
    set v : Fin N → ℂ := fun l => (ρ * (f l * prodOp f L)).trace with hv
    set u : Fin N → ℂ := fun l => ∑ p : Fin (m + 1), (-1) ^ (p : ℕ) * s l (L p) *
        (ρ * prodOp f (fun i => L (p.succAbove i))).trace with hu
    have h1 : ∀ l, (ρ * (prodOp f L * f l)).trace = u l - v l := by
      intro l
      have e := car_prod hf l L
      rw [pow_succ, hm.neg_one_pow, one_mul, neg_smul, one_smul] at e
      have e' : prodOp f L * f l = ∑ p : Fin (m + 1), ((-1) ^ (p : ℕ) * s l (L p)) •
          prodOp f (fun i => L (p.succAbove i)) - f l * prodOp f L := by rw [e]; abel
      rw [e', Matrix.mul_sub, Matrix.trace_sub, Matrix.mul_sum, Matrix.trace_sum]
      simp only [Matrix.mul_smul, Matrix.trace_smul, smul_eq_mul]
      rfl
    have h2 : (A + B) *ᵥ v = B *ᵥ u := by
      funext i
      have := kms_trace h (prodOp f L) i
      simp only [h1, mul_sub, Finset.sum_sub_distrib] at this
      rw [Matrix.add_mulVec, Pi.add_apply]
      refine (congrArg (· + (B *ᵥ v) i) this).trans ?_
      exact sub_add_cancel _ _
    have h3 : v = (V * B) *ᵥ u := by
      rw [← Matrix.mulVec_mulVec, ← h2, Matrix.mulVec_mulVec, hVU, Matrix.one_mulVec]
    exact congrFun h3 j
  have hg : ∀ q, gam f ρ k q = ∑ l, (V * B) k l * s l q := by
    intro q
    have := key (m := 0) (by simp) (fun _ => q) k
    simp only [prodOp_succ, prodOp_zero, mul_one, Fin.sum_univ_one,
      Fin.val_zero, pow_zero, one_mul, hρ] at this
    have h1 : gam f ρ k q = (ρ * (f k * f q)).trace := by rw [gam, of_apply, Matrix.mul_assoc]
    rw [h1, this]
    refine Finset.sum_congr rfl fun l _ => ?_
    congr 1
    refine (Fin.sum_univ_one _).trans ?_
    simp
  rw [key hm L k]
  simp only [Finset.mul_sum]
  rw [Finset.sum_comm]
  refine Finset.sum_congr rfl fun p _ => ?_
  rw [hg, Finset.mul_sum, Finset.sum_mul]
  refine Finset.sum_congr rfl fun l _ => ?_
  ring

/-- Even states have no odd expectation values. -/
theorem odd_of_parity {P : Op d} (hP : P * P = 1) (hPf : ∀ i, P * f i = -(f i * P)) (hρ : P * ρ = ρ * P) {m : ℕ}
    (L : Fin m → Fin N) (hm : Odd m) : (ρ * prodOp f L).trace = 0 := by
  have hprod : ∀ {m : ℕ} (L : Fin m → Fin N), P * prodOp f L = (-1 : ℂ) ^ m • (prodOp f L * P) := by
    intro m
    induction m with
    | zero => intro L; simp [prodOp_zero]
    | succ m ih =>
      intro L
      rw [prodOp_succ, ← Matrix.mul_assoc, hPf, Matrix.neg_mul, Matrix.mul_assoc, ih, Matrix.mul_smul,
        pow_succ, mul_neg, mul_one, neg_smul, ← Matrix.mul_assoc]
  have h1 : (ρ * prodOp f L).trace = - (ρ * prodOp f L).trace := by
    calc (ρ * prodOp f L).trace = (ρ * prodOp f L * (P * P)).trace := by rw [hP, Matrix.mul_one]
      _ = (P * ρ * prodOp f L * P).trace := by
          rw [← Matrix.mul_assoc, Matrix.trace_mul_comm]
          simp only [Matrix.mul_assoc]
      _ = (ρ * (P * prodOp f L) * P).trace := by
          rw [hρ]; simp only [Matrix.mul_assoc]
      _ = - (ρ * prodOp f L).trace := by
          rw [hprod, hm.neg_one_pow, neg_smul, one_smul, Matrix.mul_neg, Matrix.neg_mul, Matrix.trace_neg]
          rw [Matrix.mul_assoc, Matrix.mul_assoc, hP, Matrix.mul_one]
  have h2 : 2 * (ρ * prodOp f L).trace = 0 := by linear_combination h1
  simpa using h2

theorem odd_aux {A B : Op N} (hu : IsUnit (A - B)) (h : ∀ k, ∑ l, A k l • (ρ * f l) = ∑ l, B k l • (f l * ρ))
    {X : Op d} (hX : ∀ k, (ρ * (f k * X)).trace = (ρ * (X * f k)).trace) (k : Fin N) :
    (ρ * (f k * X)).trace = 0 := by
  obtain ⟨⟨U, V, hUV, hVU⟩, hU⟩ := hu
  simp only at hU
  subst hU
  set v : Fin N → ℂ := fun l => (ρ * (f l * X)).trace with hv
  have h2 : (A - B) *ᵥ v = 0 := by
    funext i
    have := kms_trace h X i
    simp only [← hX] at this
    rw [Matrix.sub_mulVec, Pi.sub_apply, Pi.zero_apply, sub_eq_zero]
    exact this
  have h3 : v = 0 := by
    rw [← Matrix.one_mulVec v, ← hVU, ← Matrix.mulVec_mulVec, h2, Matrix.mulVec_zero]
  exact congrFun h3 k

/-- Neither have states for which the operators can be moved through with an invertible difference. -/
theorem odd_of_units (hf : ∀ i j, f i * f j + f j * f i = s i j • 1) {A B : Op N} (hu : IsUnit (A - B))
    (h : ∀ k, ∑ l, A k l • (ρ * f l) = ∑ l, B k l • (f l * ρ)) :
    ∀ {m : ℕ} (L : Fin m → Fin N), Odd m → (ρ * prodOp f L).trace = 0
  | 0, L, hm => by simp at hm
  | 1, L, _ => by
    rw [prodOp_succ, prodOp_zero]
    have := odd_aux hu h (X := 1) (fun k => by rw [Matrix.one_mul, Matrix.mul_one]) (L 0)
    exact this
  | m + 2, L, hm => by
    have hm' : Odd m := by rcases hm with ⟨r, hr⟩; exact ⟨r - 1, by omega⟩
    rw [prodOp_succ]
    refine odd_aux hu h (fun k => ?_) (L 0)
    rw [car_prod hf, Matrix.mul_add, Matrix.trace_add, Matrix.mul_sum, Matrix.trace_sum]
    have : ∑ p : Fin (m + 1), (ρ * (((-1 : ℂ) ^ (p : ℕ) * s k (L p.succ)) •
        prodOp f (fun i => L (p.succAbove i).succ))).trace = 0 := by
      apply Finset.sum_eq_zero
      intro p _
      rw [Matrix.mul_smul, Matrix.trace_smul, odd_of_units hf hu h _ hm', smul_zero]
    rw [this, zero_add, (hm'.add_odd odd_one).neg_one_pow, one_smul]

theorem IsGauss.odd (hf : ∀ i j, f i * f j + f j * f i = s i j • 1) (hg : IsGauss f ρ) {m : ℕ} (L : Fin m → Fin N)
    (hm : Odd m) : (ρ * prodOp f L).trace = 0 := by
  obtain ⟨A, B, -, h, hu | ⟨P, h1, h2, h3⟩⟩ := hg
  · exact odd_of_units hf hu h L hm
  · exact odd_of_parity h1 h2 h3 L hm

/-- Wick's theorem. -/
theorem IsGauss.wick (hf : ∀ i j, f i * f j + f j * f i = s i j • 1) (hg : IsGauss f ρ) (hρ : ρ.trace = 1) :
    Spec.ObeysWick f ρ
  | 0, L => by
    have h : (List.ofFn fun i => f (L i)).prod = 1 := by simp
    rw [h, Matrix.mul_one, hρ, Spec.contract]
  | 1, L => hg.odd hf L (by simp)
  | m + 2, L => by
    rw [Spec.contract]
    rcases Nat.even_or_odd m with hm | hm
    · obtain ⟨A, B, hu, h, -⟩ := id hg
      have h1 : (List.ofFn fun i => f (L i)).prod = f (L 0) * prodOp f (fun i => L i.succ) := prodOp_succ L
      rw [h1, wick_step hf hu h hρ hm]
      refine Finset.sum_congr rfl fun p _ => ?_
      rw [← IsGauss.wick hf hg hρ m]
      rfl
    · refine (hg.odd hf L (by rcases hm with ⟨r, rfl⟩; exact ⟨r + 1, by ring⟩)).trans ?_
      symm
      apply Finset.sum_eq_zero
      intro p _
      have := IsGauss.wick hf hg hρ m fun i => L (p.succAbove i).succ
      rw [← this]
      rw [show (ρ * (List.ofFn fun i => f (L (p.succAbove i).succ)).prod).trace = 0 from
        hg.odd hf (fun i => L (p.succAbove i).succ) hm, mul_zero]

/-- A change of the operators. -/
theorem IsGauss.change (hg : IsGauss f ρ) {M : ℕ} {g : Fin M → Op d} {T : Matrix (Fin M) (Fin N) ℂ}
    {T' : Matrix (Fin N) (Fin M) ℂ} (h : T' * T = 1) (h' : T * T' = 1) (hgf : ∀ k, g k = ∑ l, T k l • f l) :
    IsGauss g ρ := by
  obtain ⟨A, B, hu, hk, ho⟩ := hg
  have hfg : ∀ k, f k = ∑ l, T' k l • g l := by
    intro k
    simp only [hgf, Finset.smul_sum, smul_smul]
    rw [Finset.sum_comm]
    simp only [← Finset.sum_smul]
    have : ∀ j, ∑ i, T' k i * T i j = (1 : Op N) k j := fun j => by rw [← h]; rfl
    simp only [this, one_apply, ite_smul, one_smul, zero_smul, Finset.sum_ite_eq, Finset.mem_univ, if_true]
  have hunit : ∀ X : Op N, IsUnit X → IsUnit (T * X * T') := by
    rintro _ ⟨⟨U, V, hUV, hVU⟩, rfl⟩
    refine ⟨⟨T * U * T', T * V * T', ?_, ?_⟩, rfl⟩
    · calc T * U * T' * (T * V * T') = T * (U * (T' * T) * V) * T' := by simp only [Matrix.mul_assoc]
        _ = 1 := by rw [h, Matrix.mul_one, hUV, Matrix.mul_one, h']
    · calc T * V * T' * (T * U * T') = T * (V * (T' * T) * U) * T' := by simp only [Matrix.mul_assoc]
        _ = 1 := by rw [h, Matrix.mul_one, hVU, Matrix.mul_one, h']
  refine ⟨T * A * T', T * B * T', ?_, fun k => ?_, ?_⟩
  · rw [← Matrix.add_mul, ← Matrix.mul_add]; exact hunit _ hu
  · have e : ∀ (C : Op N) (F : Op d → Op d) (hF : ∀ (c : ℂ) x, F (c • x) = c • F x)
        (hF' : ∀ x : Fin M → Op d, F (∑ i, x i) = ∑ i, F (x i)),
        ∑ l, (T * C * T') k l • F (g l) = ∑ j, T k j • ∑ l, C j l • F (f l) := by
      intro C F hF hF'
      simp only [hfg, hF', hF, Finset.smul_sum, smul_smul, mul_apply, Finset.sum_smul, Finset.sum_mul]
      rw [Finset.sum_comm]
      conv_rhs => rw [Finset.sum_comm]
      refine Finset.sum_congr rfl fun a _ => ?_
      rw [Finset.sum_comm]
      simp only [mul_assoc]
    rw [e A (fun x => ρ * x) (fun c x => Matrix.mul_smul _ _ _) (fun x => Matrix.mul_sum _ _ _),
      e B (fun x => x * ρ) (fun c x => Matrix.smul_mul _ _ _) (fun x => Matrix.sum_mul _ _ _)]
    simp only [hk]
  · rcases ho with ho | ⟨P, h1, h2, h3⟩
    · left
      rw [← Matrix.sub_mul, ← Matrix.mul_sub]; exact hunit _ ho
    · refine .inr ⟨P, h1, fun i => ?_, h3⟩
      simp only [hgf, Matrix.mul_sum, Matrix.mul_smul, h2, Matrix.sum_mul, Matrix.smul_mul, smul_neg,
        Finset.sum_neg_distrib]

end general

/-! ### the Pfaffian of the contractions -/

theorem contraction_skew {k m : ℕ} (G : Op k) (L : Fin m → Fin k) (i j) :
    Spec.contraction G L i j = - Spec.contraction G L j i := by
  simp only [Spec.contraction, of_apply]
  rcases lt_trichotomy i j with h | h | h
  · rw [if_pos h, if_neg h.not_gt, if_pos h, neg_neg]
  · subst h; simp
  · rw [if_neg h.not_gt, if_pos h, if_pos h]

theorem contraction_submatrix {k m r : ℕ} (G : Op k) (L : Fin m → Fin k) {g : Fin r → Fin m} (hg : StrictMono g) :
    (Spec.contraction G L).submatrix g g = Spec.contraction G (fun i => L (g i)) := by
  ext a b
  simp only [Spec.contraction, submatrix_apply, of_apply, hg.lt_iff_lt]

theorem contract_two {k m : ℕ} (G : Op k) (L : Fin (m + 2) → Fin k) : Spec.contract G (m + 2) L =
    ∑ p : Fin (m + 1), (-1) ^ (p : ℕ) * G (L 0) (L p.succ) * Spec.contract G m fun i => L (p.succAbove i).succ := rfl

theorem contract_even {k : ℕ} (G : Op k) : ∀ {m : ℕ} (L : Fin (2 * m) → Fin k),
    pfVal (Spec.contraction G L) = Spec.contract G (2 * m) L
  | 0, L => by simp [pfVal, Spec.contract]
  | m + 1, L => by
    rw [pfVal_row (contraction_skew _ L)]
    refine Eq.trans ?_ (contract_two (m := 2 * m) G L).symm
    refine Finset.sum_congr rfl fun p _ => ?_
    have h2 : Spec.contraction G L (ev (0 : Fin (m + 1))) p.succ = G (L (ev (0 : Fin (m + 1)))) (L p.succ) := by
      simp only [Spec.contraction, of_apply]
      exact if_pos (Fin.succ_pos p)
    have h3 : (Spec.contraction G L).submatrix (fun x : Fin (2 * m) => (p.succAbove x).succ)
        (fun x => (p.succAbove x).succ) = Spec.contraction G (fun x => L (p.succAbove x).succ) :=
      contraction_submatrix G L (g := fun x : Fin (2 * m) => (p.succAbove x).succ)
        (fun a b hab => Fin.succ_lt_succ_iff.2 (Fin.strictMono_succAbove p hab))
    rw [h2, h3, contract_even]
    rfl

theorem contract_odd {k : ℕ} (G : Op k) : ∀ {m : ℕ} (L : Fin (2 * m + 1) → Fin k), Spec.contract G (2 * m + 1) L = 0
  | 0, L => rfl
  | m + 1, L => by
    refine (contract_two (m := 2 * m + 1) G L).trans ?_
    apply Finset.sum_eq_zero
    intro p _
    rw [contract_odd, mul_zero]

theorem pf_contraction {k m : ℕ} (G : Op k) (L : Fin m → Fin k) :
    pf (Spec.contraction G L) = .ok (Spec.contract G m L) := by
  rcases Nat.even_or_odd' m with ⟨r, rfl | rfl⟩
  · rw [pf_ok, contract_even]
  · rw [contract_odd]
    unfold pf
    rw [if_pos (by omega)]

end FF
