import Verif.Spec.Plot
import Verif.Spec.Spin
import Verif.Proofs.SreProduct
import Verif.Proofs.Spin

/-! # Lemmas for C148: Clifford unitaries and stabilizer states -/

namespace FF

open Matrix

variable {n d : ℕ}

/-! ## products of Pauli strings -/

/-- The sign with which two Pauli matrices commute. -/
def letterSign (a b : Fin 4) : ℂ := if a = 0 ∨ b = 0 ∨ a = b then 1 else -1

theorem pauli_comm_sign (a b : Fin 4) : Spec.pauli a * Spec.pauli b = letterSign a b • (Spec.pauli b * Spec.pauli a) := by
  fin_cases a <;> fin_cases b <;> ext i j <;> fin_cases i <;> fin_cases j <;> simp [Spec.pauli, letterSign]

theorem pauli_mul_ex (a b : Fin 4) : ∃ (c : Fin 4) (k : ℕ), Spec.pauli a * Spec.pauli b = Complex.I ^ k • Spec.pauli c := by
  have h : ∀ a b : Fin 4, ∃ (c : Fin 4) (k : ℕ), k < 4 ∧ Spec.pauli a * Spec.pauli b = Complex.I ^ k • Spec.pauli c := by
    intro a b
    have hI := Complex.I_sq
    have hI3 : Complex.I ^ 3 = -Complex.I := by rw [pow_succ, Complex.I_sq]; ring
    refine ⟨(![![0, 1, 2, 3], ![1, 0, 3, 2], ![2, 3, 0, 1], ![3, 2, 1, 0]] : Fin 4 → Fin 4 → Fin 4) a b,
      (![![0, 0, 0, 0], ![0, 0, 1, 3], ![0, 3, 0, 1], ![0, 1, 3, 0]] : Fin 4 → Fin 4 → ℕ) a b, ?_, ?_⟩
    · fin_cases a <;> fin_cases b <;> simp
    · fin_cases a <;> fin_cases b <;> ext i j <;> fin_cases i <;> fin_cases j <;> simp [Spec.pauli, hI3]
  obtain ⟨c, k, -, h⟩ := h a b
  exact ⟨c, k, h⟩

theorem kronAll_smul (c : Fin n → ℂ) (f : Fin n → Op 2) : kronAll n (fun i => c i • f i) = (∏ i, c i) • kronAll n f := by
  ext x y
  rw [Matrix.smul_apply, kronAll_apply, kronAll_apply, smul_eq_mul, ← Finset.prod_mul_distrib]
  rfl

/-- The sign with which two Pauli strings commute. -/
def wordSign (w w' : Fin n → Fin 4) : ℂ := ∏ i, letterSign (w i) (w' i)

theorem pauliString_comm (w w' : Fin n → Fin 4) :
    Spec.pauliString w * Spec.pauliString w' = wordSign w w' • (Spec.pauliString w' * Spec.pauliString w) := by
  rw [pauliString_eq, pauliString_eq, kronAll_mul, kronAll_mul, wordSign, ← kronAll_smul]
  congr 1
  funext i
  exact pauli_comm_sign _ _

theorem letterSign_eq (a b : Fin 4) : letterSign a b = 1 ∨ letterSign a b = -1 := by
  rw [letterSign]; split_ifs <;> simp

theorem wordSign_eq (w w' : Fin n → Fin 4) : wordSign w w' = 1 ∨ wordSign w w' = -1 := by
  rw [wordSign]
  refine Finset.prod_induction _ (fun z : ℂ => z = 1 ∨ z = -1) (fun a b ha hb => ?_) (.inl rfl) fun i _ => letterSign_eq _ _
  rcases ha with rfl | rfl <;> rcases hb with rfl | rfl <;> simp

theorem pauliString_mul_ex (w w' : Fin n → Fin 4) :
    ∃ (v : Fin n → Fin 4) (k : ℕ), Spec.pauliString w * Spec.pauliString w' = Complex.I ^ k • Spec.pauliString v := by
  choose c k h using pauli_mul_ex
  refine ⟨fun i => c (w i) (w' i), ∑ i, k (w i) (w' i), ?_⟩
  rw [pauliString_eq, pauliString_eq, pauliString_eq, kronAll_mul, ← Finset.prod_pow_eq_pow_sum, ← kronAll_smul]
  congr 1
  funext i
  exact h _ _

theorem pauliString_ne_zero (w : Fin n → Fin 4) : Spec.pauliString w ≠ 0 := fun h => by
  have := pauliString_sq w
  rw [h, zero_mul] at this
  have := congrFun (congrFun this ⟨0, by positivity⟩) ⟨0, by positivity⟩
  simp at this

/-- A Pauli string up to sign. -/
def SP (A : Op (2 ^ n)) : Prop := ∃ w, A = Spec.pauliString w ∨ A = -Spec.pauliString w

theorem SP.neg {A : Op (2 ^ n)} (h : SP A) : SP (-A) := by
  obtain ⟨w, rfl | rfl⟩ := h
  · exact ⟨w, .inr rfl⟩
  · exact ⟨w, .inl (neg_neg _)⟩

theorem sp_word (w : Fin n → Fin 4) : SP (Spec.pauliString w) := ⟨w, .inl rfl⟩

theorem sp_of_phase {A : Op (2 ^ n)} {w : Fin n → Fin 4} {k : ℕ} (hA : Aᴴ = A) (h : A = Complex.I ^ k • Spec.pauliString w) : SP A := by
  have h1 : (star (Complex.I ^ k) - Complex.I ^ k) • Spec.pauliString w = 0 := by
    have := hA
    rw [h, conjTranspose_smul, pauliString_herm] at this
    rw [sub_smul, this, sub_self]
  have h2 := (smul_eq_zero.1 h1).resolve_right (pauliString_ne_zero w)
  have h3 : (Complex.I ^ k) * (Complex.I ^ k) = 1 ∨ (Complex.I ^ k) * (Complex.I ^ k) = -1 := by
    rw [← mul_pow, Complex.I_mul_I]
    exact neg_one_pow_eq_or ℂ k
  have h4 : (Complex.I ^ k) * star (Complex.I ^ k) = 1 := by
    rw [star_pow, ← mul_pow]; simp
  rw [sub_eq_zero.1 h2] at h4
  rcases mul_self_eq_one_iff.1 h4 with e | e
  · exact ⟨w, .inl (by rw [h, e, one_smul])⟩
  · exact ⟨w, .inr (by rw [h, e, neg_smul, one_smul])⟩

/-! ## Clifford unitaries -/

theorem clifford_iff {V : Op (2 ^ n)} : Spec.IsClifford V ↔ V * Vᴴ = 1 ∧ ∀ w, SP (Vᴴ * Spec.pauliString w * V) := Iff.rfl

theorem clifford_sp {V : Op (2 ^ n)} (hV : Spec.IsClifford V) {A : Op (2 ^ n)} (hA : SP A) : SP (Vᴴ * A * V) := by
  obtain ⟨w, rfl | rfl⟩ := hA
  · exact hV.2 w
  · rw [mul_neg, neg_mul]; exact SP.neg (hV.2 w)

theorem clifford_mul {V W : Op (2 ^ n)} (hV : Spec.IsClifford V) (hW : Spec.IsClifford W) : Spec.IsClifford (V * W) := by
  refine ⟨?_, fun w => ?_⟩
  · rw [conjTranspose_mul, ← mul_assoc, mul_assoc V, hW.1, mul_one, hV.1]
  · have := clifford_sp hW (hV.2 w)
    rw [conjTranspose_mul]
    change SP _
    simpa only [mul_assoc] using this

theorem pauliString_inj {w w' : Fin n → Fin 4} (h : Spec.pauliString w = Spec.pauliString w' ∨ Spec.pauliString w = -Spec.pauliString w') : w = w' := by
  by_contra hne
  have h1 := pauliString_trace_mul w w'
  have h2 := pauliString_trace_mul w' w'
  rw [if_neg hne] at h1
  rw [if_pos rfl] at h2
  rcases h with h | h
  · rw [h, h2] at h1; simp at h1
  · rw [h, neg_mul, trace_neg, h2] at h1; simp at h1

theorem clifford_inv {V : Op (2 ^ n)} (hV : Spec.IsClifford V) : Spec.IsClifford Vᴴ := by
  have h2 : Vᴴ * V = 1 := mul_eq_one_comm.1 hV.1
  refine ⟨by rw [conjTranspose_conjTranspose]; exact h2, fun w => ?_⟩
  rw [conjTranspose_conjTranspose]
  choose f hf using hV.2
  have back : ∀ A : Op (2 ^ n), V * (Vᴴ * A * V) * Vᴴ = A := fun A => by
    rw [mul_assoc, mul_assoc (Vᴴ * A), hV.1, mul_one, ← mul_assoc, hV.1, one_mul]
  have hinj : Function.Injective f := fun a b hab => by
    have h : Vᴴ * Spec.pauliString a * V = Vᴴ * Spec.pauliString b * V ∨ Vᴴ * Spec.pauliString a * V = -(Vᴴ * Spec.pauliString b * V) := by
      rcases hf a with e | e <;> rcases hf b with e' | e' <;> rw [e, e', hab] <;> simp
    refine pauliString_inj ?_
    rcases h with h | h
    · left; rw [← back (Spec.pauliString a), h, back]
    · right; rw [← back (Spec.pauliString a), h, mul_neg, neg_mul, back]
  obtain ⟨v, rfl⟩ := (Finite.injective_iff_surjective.1 hinj) w
  refine ⟨v, ?_⟩
  rcases hf v with e | e
  · left; rw [← e, back]
  · right; rw [← neg_eq_iff_eq_neg.2 e, mul_neg, neg_mul, back]

/-! ## the exchange of two anticommuting operators -/

/-- `1 / √2`. -/
noncomputable def rtInv : ℂ := ((Real.sqrt 2 : ℝ) : ℂ)⁻¹

/-- `(P + Q) / √2`. -/
noncomputable def swapPQ (P Q : Op d) : Op d := rtInv • (P + Q)

theorem sqrt_two_inv : rtInv * rtInv * 2 = 1 := by
  have : (Real.sqrt 2 : ℂ) * Real.sqrt 2 = 2 := by
    rw [← Complex.ofReal_mul, Real.mul_self_sqrt (by norm_num)]; simp
  rw [rtInv, ← mul_inv, this]; norm_num

section
variable {P Q : Op d} (hP : P * P = 1) (hQ : Q * Q = 1) (hPh : Pᴴ = P) (hQh : Qᴴ = Q) (hPQ : P * Q = -(Q * P))
include hPh hQh in
theorem swapPQ_herm : (swapPQ P Q)ᴴ = swapPQ P Q := by
  rw [swapPQ, conjTranspose_smul, conjTranspose_add, hPh, hQh]
  congr 1
  simp [rtInv]

theorem swapPQ_conj (R : Op d) : swapPQ P Q * R * swapPQ P Q = (rtInv * rtInv) • ((P + Q) * R * (P + Q)) := by
  rw [swapPQ, Matrix.smul_mul, Matrix.smul_mul, Matrix.mul_smul, smul_smul]

theorem half_two (M : Op d) : (rtInv * rtInv) • ((2 : ℂ) • M) = M := by
  rw [smul_smul, sqrt_two_inv, one_smul]

include hP hQ hPQ in
theorem sum_sq : (P + Q) * (P + Q) = (2 : ℂ) • (1 : Op d) := by
  rw [add_mul, mul_add, mul_add, hP, hQ, hPQ, two_smul]
  abel

include hP hQ hPQ in
theorem swapPQ_sq : swapPQ P Q * swapPQ P Q = 1 := by
  have := swapPQ_conj (P := P) (Q := Q) 1
  rw [mul_one, mul_one, sum_sq hP hQ hPQ, half_two] at this
  exact this

include hP hQ hPQ in
theorem swapPQ_swap : swapPQ P Q * P * swapPQ P Q = Q := by
  have e : (P + Q) * P = Q * (P + Q) + (1 - 1) := by
    rw [sub_self, add_zero, add_mul, mul_add, hP, hQ, add_comm]
  rw [swapPQ_conj, e, sub_self, add_zero, mul_assoc, sum_sq hP hQ hPQ, Matrix.mul_smul, half_two, mul_one]

include hP hQ hPQ in
theorem swapPQ_same {R : Op d} {c : ℂ} (h1 : P * R = c • (R * P)) (h2 : Q * R = c • (R * Q)) : swapPQ P Q * R * swapPQ P Q = c • R := by
  have e : (P + Q) * R = c • (R * (P + Q)) := by rw [add_mul, h1, h2, mul_add, smul_add]
  rw [swapPQ_conj, e, Matrix.smul_mul, mul_assoc, sum_sq hP hQ hPQ, Matrix.mul_smul, smul_comm, half_two, mul_one]

include hP hQ hPQ in
theorem swapPQ_diff {R : Op d} {c : ℂ} (h1 : P * R = c • (R * P)) (h2 : Q * R = -c • (R * Q)) : swapPQ P Q * R * swapPQ P Q = c • (R * P * Q) := by
  have e : (P + Q) * R = c • (R * (P - Q)) := by rw [add_mul, h1, h2, mul_sub, smul_sub, neg_smul, sub_eq_add_neg]
  have e2 : (P - Q) * (P + Q) = (2 : ℂ) • (P * Q) := by
    rw [sub_mul, mul_add, mul_add, hP, hQ, two_smul, hPQ]
    abel
  rw [swapPQ_conj, e, Matrix.smul_mul, mul_assoc, e2, Matrix.mul_smul, smul_comm, half_two, mul_assoc]
end

/-- For anticommuting strings the exchange is a Clifford unitary. -/
theorem swapPQ_clifford {p q : Fin n → Fin 4} (h : wordSign p q = -1) : Spec.IsClifford (swapPQ (Spec.pauliString p) (Spec.pauliString q)) := by
  have hPQ : Spec.pauliString p * Spec.pauliString q = -(Spec.pauliString q * Spec.pauliString p) := by
    rw [pauliString_comm, h, neg_smul, one_smul]
  have hh := swapPQ_herm (pauliString_herm p) (pauliString_herm q)
  refine ⟨by rw [hh, swapPQ_sq (pauliString_sq p) (pauliString_sq q) hPQ], fun w => ?_⟩
  change SP _
  rw [hh]
  have hherm : (swapPQ (Spec.pauliString p) (Spec.pauliString q) * Spec.pauliString w * swapPQ (Spec.pauliString p) (Spec.pauliString q))ᴴ =
      swapPQ (Spec.pauliString p) (Spec.pauliString q) * Spec.pauliString w * swapPQ (Spec.pauliString p) (Spec.pauliString q) := by
    rw [conjTranspose_mul, conjTranspose_mul, hh, pauliString_herm, mul_assoc]
  have sgn : ∀ {c : ℂ} {A : Op (2 ^ n)}, c = 1 ∨ c = -1 → SP A → SP (c • A) := fun {c A} hc hA => by
    rcases hc with rfl | rfl
    · rwa [one_smul]
    · rw [neg_smul, one_smul]; exact hA.neg
  by_cases hs : wordSign q w = wordSign p w
  · rw [swapPQ_same (pauliString_sq p) (pauliString_sq q) hPQ (pauliString_comm p w) (by rw [← hs]; exact pauliString_comm q w)]
    exact sgn (wordSign_eq p w) (sp_word w)
  · have hs' : wordSign q w = -wordSign p w := by
      rcases wordSign_eq p w with e | e <;> rcases wordSign_eq q w with e' | e' <;> rw [e, e'] at hs ⊢ <;> simp at hs ⊢
    have e := swapPQ_diff (pauliString_sq p) (pauliString_sq q) hPQ (pauliString_comm p w) (by rw [← hs']; exact pauliString_comm q w)
    rw [e] at hherm ⊢
    obtain ⟨v, k, hv⟩ := pauliString_mul_ex w p
    obtain ⟨v', k', hv'⟩ := pauliString_mul_ex v q
    have e3 : Spec.pauliString w * Spec.pauliString p * Spec.pauliString q = Complex.I ^ (k + k') • Spec.pauliString v' := by
      rw [hv, Matrix.smul_mul, hv', smul_smul, pow_add]
    have hs1 := wordSign_eq p w
    refine sgn hs1 (sp_of_phase ?_ e3)
    rw [conjTranspose_smul] at hherm
    rcases hs1 with e1 | e1 <;> rw [e1] at hherm
    · simpa using hherm
    · simpa using hherm

theorem pauli_clifford (w : Fin n → Fin 4) : Spec.IsClifford (Spec.pauliString w) := by
  refine ⟨by rw [pauliString_herm, pauliString_sq], fun v => ?_⟩
  change SP _
  rw [pauliString_herm, pauliString_comm w v, Matrix.smul_mul, mul_assoc, pauliString_sq, mul_one]
  rcases wordSign_eq w v with e | e <;> rw [e]
  · rw [one_smul]; exact sp_word v
  · rw [neg_smul, one_smul]; exact (sp_word v).neg

/-! ## all strings but the identity look alike -/

theorem anti_word {w z : Fin n → Fin 4} (hw : w ≠ 0) (hz : z ≠ 0) : ∃ r : Fin n → Fin 4, wordSign w r = -1 ∧ wordSign r z = -1 := by
  classical
  have hlet : ∀ a : Fin 4, a ≠ 0 → ∃ b, letterSign a b = -1 ∧ letterSign b a = -1 := by
    intro a ha
    refine ⟨if a = 1 then 2 else 1, ?_⟩
    fin_cases a <;> simp [letterSign] at ha ⊢
  have hlet2 : ∀ a c : Fin 4, a ≠ 0 → c ≠ 0 → ∃ b, letterSign a b = -1 ∧ letterSign b c = -1 := by
    intro a c ha hc
    refine ⟨if a = 1 ∨ c = 1 then (if a = 2 ∨ c = 2 then 3 else 2) else 1, ?_⟩
    fin_cases a <;> fin_cases c <;> simp [letterSign] at ha hc ⊢
  have h0 : ∀ a : Fin 4, letterSign a 0 = 1 ∧ letterSign 0 a = 1 := fun a => by simp [letterSign]
  obtain ⟨i, hi⟩ := Function.ne_iff.1 hw
  obtain ⟨j, hj⟩ := Function.ne_iff.1 hz
  simp only [Pi.zero_apply] at hi hj
  have one : ∀ (v : Fin n → Fin 4) (i : Fin n) (b : Fin 4), wordSign v (Spec.oneSite i b) = letterSign (v i) b ∧
      wordSign (Spec.oneSite i b) v = letterSign b (v i) := fun v i b => by
    refine ⟨(Finset.prod_eq_single i (fun k _ hk => ?_) (by simp)).trans ?_, (Finset.prod_eq_single i (fun k _ hk => ?_) (by simp)).trans ?_⟩ <;>
      simp [Spec.oneSite, h0, *]
  by_cases h1 : z i = 0
  · by_cases h2 : w j = 0
    · have hij : i ≠ j := fun e => hj (e ▸ h1)
      obtain ⟨b, hb, -⟩ := hlet (w i) hi
      obtain ⟨c, -, hc⟩ := hlet (z j) hj
      refine ⟨fun k => if k = i then b else if k = j then c else 0, ?_, ?_⟩
      · rw [wordSign, Finset.prod_eq_single i (fun k _ hk => ?_) (by simp)]
        · simpa using hb
        · rw [if_neg hk]
          split_ifs with h
          · rw [h, h2]; exact (h0 _).2
          · exact (h0 _).1
      · rw [wordSign, Finset.prod_eq_single j (fun k _ hk => ?_) (by simp)]
        · rw [if_neg hij.symm, if_pos rfl]; exact hc
        · rw [if_neg hk]
          split_ifs with h
          · rw [h, h1]; exact (h0 _).1
          · exact (h0 _).2
    · obtain ⟨b, hb, hb'⟩ := hlet2 (w j) (z j) h2 hj
      exact ⟨Spec.oneSite j b, by rw [(one _ _ _).1, hb], by rw [(one _ _ _).2, hb']⟩
  · obtain ⟨b, hb, hb'⟩ := hlet2 (w i) (z i) hi h1
    exact ⟨Spec.oneSite i b, by rw [(one _ _ _).1, hb], by rw [(one _ _ _).2, hb']⟩

theorem clifford_step {p q : Fin n → Fin 4} (h : wordSign p q = -1) : ∃ C : Op (2 ^ n), Spec.IsClifford C ∧ Cᴴ * Spec.pauliString p * C = Spec.pauliString q := by
  refine ⟨_, swapPQ_clifford h, ?_⟩
  rw [swapPQ_herm (pauliString_herm p) (pauliString_herm q)]
  exact swapPQ_swap (pauliString_sq p) (pauliString_sq q) (by rw [pauliString_comm, h, neg_smul, one_smul])

/-- Every string but the identity is turned into every other by a Clifford unitary, with either sign. -/
theorem clifford_transitive {w z : Fin n → Fin 4} (hw : w ≠ 0) (hz : z ≠ 0) :
    ∃ C : Op (2 ^ n), Spec.IsClifford C ∧ Cᴴ * Spec.pauliString w * C = Spec.pauliString z := by
  obtain ⟨r, h1, h2⟩ := anti_word hw hz
  obtain ⟨C, hC, e⟩ := clifford_step h1
  obtain ⟨D, hD, e'⟩ := clifford_step h2
  refine ⟨C * D, clifford_mul hC hD, ?_⟩
  rw [conjTranspose_mul, ← e', ← e]
  simp only [mul_assoc]

theorem clifford_flip {w : Fin n → Fin 4} (hw : w ≠ 0) : ∃ C : Op (2 ^ n), Spec.IsClifford C ∧ Cᴴ * Spec.pauliString w * C = -Spec.pauliString w := by
  obtain ⟨r, h1, -⟩ := anti_word hw hw
  refine ⟨_, pauli_clifford r, ?_⟩
  rw [pauliString_herm, mul_assoc, pauliString_comm w r, h1, neg_smul, one_smul, mul_neg, ← mul_assoc, pauliString_sq, one_mul]

end FF
