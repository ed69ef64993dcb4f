import Verif.Proofs.Operators
import Mathlib.LinearAlgebra.Matrix.Permutation

/-! # Helper lemmas: permutation matrices, enumeration of Pauli strings, Fock vectors -/

namespace FF

open Matrix
open scoped ComplexConjugate

theorem ptm_fold {n : ℕ} (p : Fin n → ℤ) (h : ∀ i, 0 ≤ p i ∧ p i < n) (l : List (Fin n))
    (M : Matrix (Fin n) (Fin n) ℤ) :
    ∃ P, l.foldlM (fun matrix i =>
      if h : 0 ≤ p i ∧ p i < n then
        some (set2 matrix ⟨(p i).toNat, by omega⟩ i 1)
      else none) M = some P ∧
      ∀ x y, P x y = if y ∈ l ∧ (x : ℤ) = p y then 1 else M x y := by
  induction l generalizing M with
  | nil => exact ⟨M, rfl, by simp⟩
  | cons a l ih =>
    rw [List.foldlM_cons, dif_pos (h a)]
    obtain ⟨P, hP, e⟩ := ih (set2 M ⟨(p a).toNat, by have := h a; omega⟩ a 1)
    refine ⟨P, hP, fun x y => ?_⟩
    rw [e]
    have hx : x = (⟨(p a).toNat, by have := h a; omega⟩ : Fin n) ↔ (x : ℤ) = p a := by
      rw [Fin.ext_iff]; have := h a; simp only; omega
    simp only [set2, of_apply, List.mem_cons, hx]
    by_cases hy : y = a
    · subst hy; by_cases h1 : (x : ℤ) = p y <;> simp [h1]
    · simp [hy]

theorem ptm_some {n : ℕ} (p : Fin n → ℤ) (h : ∀ i, 0 ≤ p i ∧ p i < n) :
    permutationToMatrix p = some (Matrix.of fun (x y : Fin n) => if ((x : ℕ) : ℤ) = p y then (1 : ℤ) else 0) := by
  obtain ⟨P, hP, e⟩ := ptm_fold p h (List.finRange n) 0
  rw [permutationToMatrix, hP]
  congr 1
  ext x y; rw [e]; simp

theorem ptm_fold_none {n : ℕ} (p : Fin n → ℤ) (l : List (Fin n)) (i : Fin n) (hi : i ∈ l)
    (h : ¬ (0 ≤ p i ∧ p i < n)) (M : Matrix (Fin n) (Fin n) ℤ) :
    l.foldlM (fun matrix i =>
      if h : 0 ≤ p i ∧ p i < n then
        some (set2 matrix ⟨(p i).toNat, by omega⟩ i 1)
      else none) M = none := by
  induction l generalizing M with
  | nil => simp at hi
  | cons a l ih =>
    rw [List.foldlM_cons]
    by_cases ha : 0 ≤ p a ∧ p a < n
    · rw [dif_pos ha]
      rcases List.mem_cons.1 hi with e | e
      · exact absurd (e ▸ ha) h
      · exact ih e _
    · rw [dif_neg ha]; rfl

theorem ptm_none {n : ℕ} (p : Fin n → ℤ) (i : Fin n) (h : ¬ (0 ≤ p i ∧ p i < n)) :
    permutationToMatrix p = none :=
  ptm_fold_none p _ i (List.mem_finRange i) h 0

/-! ## enumeration of products -/

theorem range_mul_flatMap (a b : ℕ) :
    (List.range a).flatMap (fun x => (List.range b).map fun y => x * b + y) = List.range (a * b) := by
  induction a with
  | zero => simp
  | succ a ih =>
    rw [List.range_succ, List.flatMap_append, ih, Nat.succ_mul, List.range_add]
    simp

theorem list_eq_map_range {α : Type} (l : List α) (f : ℕ → α)
    (h : ∀ i (hi : i < l.length), l[i] = f i) : l = (List.range l.length).map f := by
  apply List.ext_getElem
  · simp
  · intro i h1 h2; simp [h i h1]

theorem productRepeat_eq {α : Type} (b : ℕ) [NeZero b] (g : Fin b → α) (n : ℕ) :
    productRepeat (List.ofFn g) n =
      (List.range (b ^ n)).map fun k => fun i => g (Spec.digit b n k i) := by
  induction n with
  | zero => simp [productRepeat]; ext i; exact i.elim0
  | succ n ih =>
    have hpool : List.ofFn g = (List.range b).map fun y => g (Fin.ofNat b y) := by
      apply List.ext_getElem
      · simp
      · intro i h1 h2
        simp at h1
        simp [Fin.ofNat, Nat.mod_eq_of_lt h1]
    rw [productRepeat, ih, pow_succ, ← range_mul_flatMap, List.flatMap_map, List.map_flatMap]
    congr 1; funext x
    rw [hpool, List.map_map, List.map_map]
    apply List.map_congr_left
    intro y hy
    have hy : y < b := List.mem_range.1 hy
    funext i
    simp only [Function.comp]
    refine Fin.lastCases ?_ (fun i => ?_) i
    · rw [Fin.snoc_last]
      congr 1
      apply Fin.ext
      simp [Spec.digit, Fin.ofNat, Nat.mul_add_mod_self_right]
    · rw [Fin.snoc_castSucc]
      congr 1
      apply Fin.ext
      change x / b ^ (n - 1 - (i : ℕ)) % b = (x * b + y) / b ^ (n + 1 - 1 - (i : ℕ)) % b
      have h : n + 1 - 1 - (i : ℕ) = (n - 1 - i) + 1 := by omega
      rw [h, pow_succ', ← Nat.div_div_eq_div_mul]
      congr 2
      rw [mul_comm, Nat.mul_add_div (Nat.pos_of_ne_zero (NeZero.ne b)), Nat.div_eq_of_lt hy, add_zero]

theorem foldl_pair {α β γ : Type} (l : List α) (f : α → β) (g : α → γ) (v : Bool)
    (a : List β) (c : List γ) :
    l.foldl (fun acc x => (acc.1 ++ [f x], if v then acc.2 ++ [g x] else acc.2)) (a, c) =
      (a ++ l.map f, if v then c ++ l.map g else c) := by
  induction l generalizing a c with
  | nil => cases v <;> simp
  | cons x l ih => rw [List.foldl_cons, ih]; cases v <;> simp

theorem pauli_zero : Spec.pauli 0 = 1 := by
  ext i j; fin_cases i <;> fin_cases j <;> simp [Spec.pauli]

theorem paulis_eq : paulis = List.ofFn Spec.pauli := by
  simp only [paulis, List.ofFn_succ, List.ofFn_zero]
  rw [pauli_zero]; rfl

theorem pauli_inj : Function.Injective Spec.pauli := by
  intro a b h
  have h00 := congrFun (congrFun h 0) 0
  have h01 := congrFun (congrFun h 0) 1
  have h11 := congrFun (congrFun h 1) 1
  fin_cases a <;> fin_cases b <;> simp [Spec.pauli, Complex.ext_iff] at * <;> norm_num at *

theorem pauliName_pauli (a : Fin 4) : pauliName (Spec.pauli a) = some (Spec.pauliLetter a) := by
  have hz : paulis.zip pauliNames = List.ofFn fun a => (Spec.pauli a, Spec.pauliLetter a) := by
    rw [paulis_eq]; simp [pauliNames, List.ofFn_succ, Spec.pauliLetter]
  have h (b : Fin 4) : Spec.pauli a = Spec.pauli b ↔ a = b := pauli_inj.eq_iff
  rw [pauliName, hz]
  simp only [List.ofFn_succ, List.ofFn_zero, List.find?, h]
  fin_cases a <;> simp [Spec.pauliLetter]

theorem pauliLoop_eq (n : ℕ) (v : Bool) :
    pauliLoop n v = ((List.range (4 ^ n)).map (fun k => Spec.pauliString (Spec.digit 4 n k)),
      if v then (List.range (4 ^ n)).map
        (fun k => List.ofFn fun i => Spec.pauliLetter (Spec.digit 4 n k i)) else []) := by
  rw [pauliLoop, foldl_pair, paulis_eq, productRepeat_eq, List.map_map, List.map_map]
  simp only [List.nil_append]
  refine congrArg₂ _ ?_ ?_
  · apply List.map_congr_left
    intro k _
    ext x y
    simp [Spec.pauliString, kronAll_apply]
  · congr 1
    apply List.map_congr_left
    intro k _
    simp only [Function.comp]
    have : List.ofFn (fun i : Fin n => Spec.pauli (Spec.digit 4 n k i)) =
        (List.ofFn (Spec.digit 4 n k)).map Spec.pauli := by
      rw [List.map_ofFn]; rfl
    rw [this, List.filterMap_map]
    have h2 : pauliName ∘ Spec.pauli = fun a => some (Spec.pauliLetter a) := by
      funext a; exact pauliName_pauli a
    rw [h2, List.filterMap_eq_map', List.map_ofFn]; rfl

theorem generatePauliGroup_ok (n : ℕ) (hn : 1 ≤ n) (v : Bool) :
    generatePauliGroup (.int n) v = .ok ⟨n, (pauliLoop n v).1, (pauliLoop n v).2⟩ := by
  have : ¬ ((n : ℤ) ≤ 0) := by omega
  rw [generatePauliGroup, if_neg this]; rfl

theorem pauliString_eq {n : ℕ} (w : Fin n → Fin 4) :
    Spec.pauliString w = kronAll n fun i => Spec.pauli (w i) := by
  ext x y; simp [Spec.pauliString, kronAll_apply]

theorem pauli_herm (a : Fin 4) : (Spec.pauli a)ᴴ = Spec.pauli a := by
  ext i j; fin_cases a <;> fin_cases i <;> fin_cases j <;> simp [Spec.pauli]

theorem pauli_sq (a : Fin 4) : Spec.pauli a * Spec.pauli a = 1 := by
  ext i j; fin_cases a <;> fin_cases i <;> fin_cases j <;> simp [Spec.pauli]

theorem pauli_trace_mul (a b : Fin 4) :
    (Spec.pauli a * Spec.pauli b).trace = if a = b then 2 else 0 := by
  fin_cases a <;> fin_cases b <;>
    simp [Spec.pauli, Matrix.trace, Fin.sum_univ_two, Matrix.mul_apply] <;> norm_num

theorem pauliString_trace_mul {n : ℕ} (w w' : Fin n → Fin 4) :
    (Spec.pauliString w * Spec.pauliString w').trace = if w = w' then 2 ^ n else 0 := by
  rw [pauliString_eq, pauliString_eq, kronAll_mul, kronAll_trace]
  simp only [pauli_trace_mul]
  split_ifs with h
  · subst h; simp
  · obtain ⟨i, hi⟩ := Function.ne_iff.1 h
    exact Finset.prod_eq_zero (Finset.mem_univ i) (if_neg hi)

/-- Numbers below `b^n` are determined by their digits. -/
theorem digit_inj {b n : ℕ} [NeZero b] {x y : ℕ} (hx : x < b ^ n) (hy : y < b ^ n)
    (h : Spec.digit b n x = Spec.digit b n y) : x = y := by
  induction n generalizing x y with
  | zero => simp at hx hy; omega
  | succ n ih =>
    have hb : 0 < b := Nat.pos_of_ne_zero (NeZero.ne b)
    have hl : x % b = y % b := by
      have := congrArg Fin.val (congrFun h (Fin.last n))
      simpa [Spec.digit, Fin.ofNat] using this
    have hd : x / b = y / b := by
      apply ih
      · apply Nat.div_lt_of_lt_mul; rw [← pow_succ']; exact hx
      · apply Nat.div_lt_of_lt_mul; rw [← pow_succ']; exact hy
      · funext i
        have := congrArg Fin.val (congrFun h i.castSucc)
        apply Fin.ext
        have e : n + 1 - 1 - (i : ℕ) = (n - 1 - i) + 1 := by omega
        simp only [Spec.digit, Fin.ofNat, Fin.val_castSucc, e, pow_succ'] at this
        simpa only [Spec.digit, Fin.ofNat, Nat.div_div_eq_div_mul] using this
    rw [← Nat.div_add_mod x b, ← Nat.div_add_mod y b, hl, hd]

/-! ## Fock vectors -/

theorem basisIndex_succ {n : ℕ} (b : Fin (n + 1) → Fin 2) :
    Spec.basisIndex b = 2 * Spec.basisIndex (b ∘ Fin.castSucc) + b (Fin.last n) := by
  simp only [Spec.basisIndex, Fin.sum_univ_castSucc, Function.comp]
  rw [Finset.mul_sum]
  simp only [Fin.val_castSucc, Fin.val_last]
  congr 1
  · apply Finset.sum_congr rfl
    intro i _
    have e : n + 1 - 1 - (i : ℕ) = (n - 1 - i) + 1 := by omega
    rw [e, pow_succ]; ring
  · simp

theorem basisIndex_lt {n : ℕ} (b : Fin n → Fin 2) : Spec.basisIndex b < 2 ^ n := by
  induction n with
  | zero => simp [Spec.basisIndex]
  | succ n ih =>
    rw [basisIndex_succ, pow_succ]
    have := ih (b ∘ Fin.castSucc)
    have := (b (Fin.last n)).2
    omega

theorem digit_basisIndex {n : ℕ} (b : Fin n → Fin 2) : Spec.digit 2 n (Spec.basisIndex b) = b := by
  induction n with
  | zero => funext i; exact i.elim0
  | succ n ih =>
    funext i
    rw [basisIndex_succ]
    have hl := (b (Fin.last n)).2
    refine Fin.lastCases ?_ (fun i => ?_) i
    · apply Fin.ext; simp [Spec.digit, Fin.ofNat, Nat.mul_add_mod]; omega
    · have := congrFun (ih (b ∘ Fin.castSucc)) i
      rw [← show (b ∘ Fin.castSucc) i = b i.castSucc from rfl, ← this]
      apply Fin.ext
      have e : n + 1 - 1 - (i : ℕ) = (n - 1 - i) + 1 := by omega
      simp only [Spec.digit, Fin.ofNat, Fin.val_castSucc, e, pow_succ']
      rw [← Nat.div_div_eq_div_mul, Nat.mul_add_div (by norm_num), Nat.div_eq_of_lt hl, add_zero]

/-- The basis index as an element of `Fin (2^n)`. -/
def bIdx {n : ℕ} (b : Fin n → Fin 2) : Fin (2 ^ n) := ⟨Spec.basisIndex b, basisIndex_lt b⟩

theorem eq_bIdx {n : ℕ} (x : Fin (2 ^ n)) (b : Fin n → Fin 2) :
    x = bIdx b ↔ Spec.digit 2 n x = b := by
  constructor
  · rintro rfl; exact digit_basisIndex b
  · intro h
    apply Fin.ext
    apply digit_inj x.2 (basisIndex_lt b)
    rw [h, digit_basisIndex]

theorem fock_eq {n : ℕ} (b : Fin n → Fin 2) : Spec.fock b = Pi.single (bIdx b) 1 := by
  funext x
  simp [Spec.fock, Pi.single_apply, Fin.ext_iff, bIdx]

theorem jwLower_fock {n : ℕ} (i : Fin n) (b : Fin n → Fin 2) :
    jwLower n i *ᵥ Spec.fock b =
      if b i = 1 then
        ((-1 : ℂ) ^ (∑ k : Fin n, if k < i then (b k : ℕ) else 0)) •
          Spec.fock (Function.update b i 0)
      else 0 := by
  rw [fock_eq, mulVec_single_one]
  funext x
  rw [col_apply, jwLower, kronAll_apply, show ((bIdx b : Fin (2 ^ n)) : ℕ) = Spec.basisIndex b from rfl,
    digit_basisIndex]
  set w := Spec.digit 2 n x with hw
  have hZ (p q : Fin 2) : sigmaZ p q = if p = q then (-1 : ℂ) ^ (q : ℕ) else 0 := by
    fin_cases p <;> fin_cases q <;> simp [sigmaZ]
  have hM (p q : Fin 2) : sMinus p q = if q = 1 ∧ p = 0 then 1 else 0 := by
    rw [sMinus_eq]; fin_cases p <;> fin_cases q <;> simp
  by_cases hb : b i = 1
  · rw [if_pos hb, Pi.smul_apply, fock_eq, Pi.single_apply]
    by_cases hx : w = Function.update b i 0
    · rw [if_pos ((eq_bIdx x _).2 hx), hx, smul_eq_mul, mul_one, ← Finset.prod_pow_eq_pow_sum]
      apply Finset.prod_congr rfl
      intro k _
      by_cases hk : k = i
      · subst hk; simp [hM, hb]
      · have hk' : (k : ℕ) ≠ i := fun h => hk (Fin.ext h)
        rw [Function.update_of_ne hk]
        by_cases h1 : k < i
        · have h1' : (k : ℕ) < i := h1
          simp [h1, hZ]
        · have h1' : ¬ (k : ℕ) < i := h1
          simp [h1, hk']
    · rw [if_neg (fun h => hx ((eq_bIdx x _).1 h)), smul_zero]
      obtain ⟨k, hk⟩ := Function.ne_iff.1 hx
      apply Finset.prod_eq_zero (Finset.mem_univ k)
      by_cases hki : k = i
      · subst hki
        rw [Function.update_self] at hk
        simp [hM, hk]
      · have hk' : (k : ℕ) ≠ i := fun h => hki (Fin.ext h)
        rw [Function.update_of_ne hki] at hk
        by_cases h1 : (k : ℕ) < i
        · simp [h1, hZ, hk]
        · simp [h1, hk', hk]
  · rw [if_neg hb]
    apply Finset.prod_eq_zero (Finset.mem_univ i)
    simp [hM, hb]

theorem jwRaise_fock {n : ℕ} (i : Fin n) (b : Fin n → Fin 2) :
    (jwLower n i)ᴴ *ᵥ Spec.fock b =
      if b i = 0 then
        ((-1 : ℂ) ^ (∑ k : Fin n, if k < i then (b k : ℕ) else 0)) •
          Spec.fock (Function.update b i 1)
      else 0 := by
  rw [fock_eq, mulVec_single_one]
  funext x
  rw [col_apply, jwLower_eq, jwString_conjTranspose, jwString, kronAll_apply,
    show ((bIdx b : Fin (2 ^ n)) : ℕ) = Spec.basisIndex b from rfl, digit_basisIndex]
  set w := Spec.digit 2 n x with hw
  have hZ (p q : Fin 2) : sigmaZ p q = if p = q then (-1 : ℂ) ^ (q : ℕ) else 0 := by
    fin_cases p <;> fin_cases q <;> simp [sigmaZ]
  have hM (p q : Fin 2) : sMinusᴴ p q = if q = 0 ∧ p = 1 then 1 else 0 := by
    rw [sMinus_conjTranspose]; fin_cases p <;> fin_cases q <;> simp
  by_cases hb : b i = 0
  · rw [if_pos hb, Pi.smul_apply, fock_eq, Pi.single_apply]
    by_cases hx : w = Function.update b i 1
    · rw [if_pos ((eq_bIdx x _).2 hx), hx, smul_eq_mul, mul_one, ← Finset.prod_pow_eq_pow_sum]
      apply Finset.prod_congr rfl
      intro k _
      by_cases hk : k = i
      · subst hk
        rw [if_neg (lt_irrefl _), if_pos rfl, hM, Function.update_self, hb]; simp
      · have hk' : (k : ℕ) ≠ i := fun h => hk (Fin.ext h)
        rw [Function.update_of_ne hk]
        by_cases h1 : k < i
        · have h1' : (k : ℕ) < i := h1
          simp [h1, hZ]
        · have h1' : ¬ (k : ℕ) < i := h1
          simp [h1, hk']
    · rw [if_neg (fun h => hx ((eq_bIdx x _).1 h)), smul_zero]
      obtain ⟨k, hk⟩ := Function.ne_iff.1 hx
      apply Finset.prod_eq_zero (Finset.mem_univ k)
      by_cases hki : k = i
      · subst hki
        rw [Function.update_self] at hk
        rw [if_neg (lt_irrefl _), if_pos rfl, hM, if_neg (fun h => hk h.2)]
      · have hk' : (k : ℕ) ≠ i := fun h => hki (Fin.ext h)
        rw [Function.update_of_ne hki] at hk
        by_cases h1 : (k : ℕ) < i
        · simp [h1, hZ, hk]
        · simp [h1, hk', hk]
  · rw [if_neg hb]
    apply Finset.prod_eq_zero (Finset.mem_univ i)
    rw [if_neg (lt_irrefl _), if_pos rfl, hM, if_neg (fun h => hb h.1)]

end FF
