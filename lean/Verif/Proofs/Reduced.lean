import Verif.Proofs.Utils
import Verif.Proofs.Operators
import Verif.Spec.Wick
import Verif.Spec.Reduced

/-! # Helper lemmas: reduced states of the first and of the last sites -/

namespace FF

open Matrix
open scoped Kronecker

variable {a b : ℕ}

/-- The index of a product basis state. -/
def sIdx (a b : ℕ) : Fin (2 ^ a) × Fin (2 ^ b) ≃ Fin (2 ^ (a + b)) :=
  finProdFinEquiv.trans (finCongr (pow_add 2 a b).symm)

theorem sIdx_val (x : Fin (2 ^ a)) (y : Fin (2 ^ b)) : ((sIdx a b (x, y) : Fin _) : ℕ) = y + 2 ^ b * x := by
  simp [sIdx, finProdFinEquiv]

/-- The tensor product of an operator on the first sites with one on the last sites. -/
def kr (A : Op (2 ^ a)) (B : Op (2 ^ b)) : Op (2 ^ (a + b)) := (A ⊗ₖ B).submatrix (sIdx a b).symm (sIdx a b).symm

theorem kr_apply (A : Op (2 ^ a)) (B : Op (2 ^ b)) (x x' y y') :
    kr A B (sIdx a b (x, y)) (sIdx a b (x', y')) = A x x' * B y y' := by
  simp [kr, kroneckerMap_apply]

theorem kr_mul (A C : Op (2 ^ a)) (B D : Op (2 ^ b)) : kr A B * kr C D = kr (A * C) (B * D) := by
  simp only [kr]
  rw [submatrix_mul_equiv, mul_kronecker_mul]

theorem kr_one : kr (1 : Op (2 ^ a)) (1 : Op (2 ^ b)) = 1 := by
  rw [kr, one_kronecker_one, submatrix_one_equiv]

theorem kr_conjTranspose (A : Op (2 ^ a)) (B : Op (2 ^ b)) : (kr A B)ᴴ = kr Aᴴ Bᴴ := by
  simp only [kr]
  rw [conjTranspose_submatrix, conjTranspose_kronecker]

/-- The state of the last sites. -/
def rd1 (ρ : Op (2 ^ (a + b))) : Op (2 ^ b) := Matrix.of fun x y => ∑ j, ρ (sIdx a b (j, x)) (sIdx a b (j, y))

/-- The state of the first sites. -/
def rd2 (ρ : Op (2 ^ (a + b))) : Op (2 ^ a) := Matrix.of fun x y => ∑ k, ρ (sIdx a b (x, k)) (sIdx a b (y, k))

theorem over1_gen {D e d : ℕ} (h : D = e * d) (hd : d ≠ 0) (ρ : Op D) :
    partialTraceOver1 ρ d = .ok (pt1 (ρ.submatrix (finCongr h.symm) (finCongr h.symm))) := by
  subst h
  exact partialTraceOver1_ok hd ρ

open Classical in
theorem over2_gen {D e d : ℕ} (h : D = d * e) (hd : d ≠ 0) (ρ : Op D) (S : Op d)
    (hS : S = pt2 (ρ.submatrix (finCongr h.symm) (finCongr h.symm))) :
    partialTraceOver2 ρ d = .ok (if ∀ i j, |(S i j).im| ≤ 1e-8 then reMat S else S) := by
  subst h
  subst hS
  exact partialTraceOver2_ok hd ρ

theorem over1_sites (ρ : Op (2 ^ (a + b))) : partialTraceOver1 ρ (2 ^ b) = .ok (rd1 ρ) := by
  rw [over1_gen (pow_add 2 a b) (by positivity)]
  congr 1
  ext x y
  rw [pt1, sum_apply2]
  rfl

open Classical in
theorem over2_sites (ρ : Op (2 ^ (a + b))) : partialTraceOver2 ρ (2 ^ a) =
    .ok (if ∀ i j, |(rd2 ρ i j).im| ≤ 1e-8 then reMat (rd2 ρ) else rd2 ρ) := by
  refine over2_gen (pow_add 2 a b) (by positivity) ρ (rd2 ρ) ?_
  ext x y
  rw [pt2, sum_apply2]
  rfl

theorem trace_sites (M : Op (2 ^ (a + b))) : M.trace = ∑ j, ∑ x, M (sIdx a b (j, x)) (sIdx a b (j, x)) := by
  rw [Matrix.trace, ← (sIdx a b).sum_comp, Fintype.sum_prod_type]
  rfl

theorem mul_sites (M N : Op (2 ^ (a + b))) (x z) :
    (M * N) x z = ∑ j, ∑ y, M x (sIdx a b (j, y)) * N (sIdx a b (j, y)) z := by
  rw [Matrix.mul_apply, ← (sIdx a b).sum_comp, Fintype.sum_prod_type]

theorem mul_kr_last (ρ : Op (2 ^ (a + b))) (B : Op (2 ^ b)) (u) (j : Fin (2 ^ a)) (x : Fin (2 ^ b)) :
    (ρ * kr 1 B : Op (2 ^ (a + b))) u (sIdx a b (j, x)) = ∑ y, ρ u (sIdx a b (j, y)) * B y x := by
  rw [mul_sites, Finset.sum_eq_single j]
  · exact Finset.sum_congr rfl fun y _ => by rw [kr_apply, one_apply_eq, one_mul]
  · intro k _ hk
    exact Finset.sum_eq_zero fun y _ => by rw [kr_apply, one_apply_ne hk, zero_mul, mul_zero]
  · intro h; exact absurd (Finset.mem_univ _) h

theorem mul_kr_first (ρ : Op (2 ^ (a + b))) (A : Op (2 ^ a)) (u) (j : Fin (2 ^ a)) (x : Fin (2 ^ b)) :
    (ρ * kr A 1 : Op (2 ^ (a + b))) u (sIdx a b (j, x)) = ∑ y, ρ u (sIdx a b (y, x)) * A y j := by
  rw [mul_sites]
  refine Finset.sum_congr rfl fun y _ => ?_
  rw [Finset.sum_eq_single x]
  · rw [kr_apply, one_apply_eq, mul_one]
  · intro k _ hk
    rw [kr_apply, one_apply_ne hk, mul_zero, mul_zero]
  · intro h; exact absurd (Finset.mem_univ _) h

theorem rd1_trace (ρ : Op (2 ^ (a + b))) (B : Op (2 ^ b)) : (rd1 ρ * B).trace = (ρ * kr 1 B).trace := by
  rw [trace_sites, Finset.sum_comm, Matrix.trace]
  refine Finset.sum_congr rfl fun x _ => ?_
  rw [diag_apply, Matrix.mul_apply]
  rw [Finset.sum_congr rfl fun j _ => mul_kr_last ρ B (sIdx a b (j, x)) j x, Finset.sum_comm]
  exact Finset.sum_congr rfl fun y _ => by rw [rd1, of_apply, Finset.sum_mul]

theorem rd2_trace (ρ : Op (2 ^ (a + b))) (A : Op (2 ^ a)) : (rd2 ρ * A).trace = (ρ * kr A 1).trace := by
  rw [trace_sites, Matrix.trace]
  refine Finset.sum_congr rfl fun j _ => ?_
  rw [diag_apply, Matrix.mul_apply]
  rw [Finset.sum_congr rfl fun x _ => mul_kr_first ρ A (sIdx a b (j, x)) j x, Finset.sum_comm]
  exact Finset.sum_congr rfl fun y _ => by rw [rd2, of_apply, Finset.sum_mul]

/-! ## The Jordan-Wigner operators of the two parts -/

theorem digit_first (x : Fin (2 ^ a)) (y : Fin (2 ^ b)) (i : Fin a) :
    Spec.digit 2 (a + b) (sIdx a b (x, y) : Fin _) (Fin.castAdd b i) = Spec.digit 2 a x i := by
  apply Fin.ext
  rw [sIdx_val]
  have h : a + b - 1 - ((Fin.castAdd b i : Fin _) : ℕ) = b + (a - 1 - i) := by
    rw [Fin.val_castAdd]; omega
  change _ / 2 ^ (a + b - 1 - ((Fin.castAdd b i : Fin _) : ℕ)) % 2 = (x : ℕ) / 2 ^ (a - 1 - (i : ℕ)) % 2
  rw [h, pow_add, ← Nat.div_div_eq_div_mul, Nat.add_mul_div_left _ _ (by positivity), Nat.div_eq_of_lt y.2, zero_add]

theorem digit_final (x : Fin (2 ^ a)) (y : Fin (2 ^ b)) (i : Fin b) :
    Spec.digit 2 (a + b) (sIdx a b (x, y) : Fin _) (Fin.natAdd a i) = Spec.digit 2 b y i := by
  apply Fin.ext
  rw [sIdx_val]
  have h : a + b - 1 - ((Fin.natAdd a i : Fin _) : ℕ) = b - 1 - i := by
    rw [Fin.val_natAdd]; omega
  change _ / 2 ^ (a + b - 1 - ((Fin.natAdd a i : Fin _) : ℕ)) % 2 = (y : ℕ) / 2 ^ (b - 1 - (i : ℕ)) % 2
  have hb : 2 ^ b = 2 ^ (b - 1 - (i : ℕ)) * (2 * 2 ^ (i : ℕ)) := by
    rw [← pow_succ', ← pow_add]; congr 1; omega
  obtain ⟨y, hy⟩ := y
  simp only
  rw [h, hb, mul_assoc, Nat.add_mul_div_left _ _ (by positivity), mul_assoc, Nat.add_mul_mod_self_left]

theorem kronAll_split (f : Fin (a + b) → Op 2) : kronAll (a + b) f =
    kr (kronAll a fun i => f (Fin.castAdd b i)) (kronAll b fun i => f (Fin.natAdd a i)) := by
  ext u v
  obtain ⟨⟨x, y⟩, rfl⟩ := (sIdx a b).surjective u
  obtain ⟨⟨x', y'⟩, rfl⟩ := (sIdx a b).surjective v
  rw [kr_apply, kronAll_apply, kronAll_apply, kronAll_apply, Fin.prod_univ_add]
  simp only [digit_first, digit_final]

/-- The parity string over the first sites. -/
def zAll (a : ℕ) : Op (2 ^ a) := kronAll a fun _ => sigmaZ

theorem jwString_first (i : Fin a) (M : Op 2) : jwString (a + b) i M = kr (jwString a i M) 1 := by
  rw [jwString, kronAll_split, jwString]
  congr 1
  rw [← kronAll_one b]
  congr 1
  funext j
  rw [if_neg (by rw [Fin.val_natAdd]; omega), if_neg (by rw [Fin.val_natAdd]; omega)]

theorem jwString_last (i : Fin b) (M : Op 2) : jwString (a + b) (a + i) M = kr (zAll a) (jwString b i M) := by
  rw [jwString, kronAll_split, jwString]
  congr 1
  · rw [zAll]
    congr 1
    funext j
    rw [if_pos (by rw [Fin.val_castAdd]; omega)]
  · congr 1
    funext j
    simp only [Fin.val_natAdd, add_lt_add_iff_left, add_right_inj]

theorem zAll_sq : zAll a * zAll a = 1 := by
  rw [zAll, kronAll_mul, ← kronAll_one a]
  congr 1
  funext j
  exact sigmaZ_sq

/-! ## Wick's theorem for the parts -/

theorem contract_odd' {k : ℕ} (G : Op k) : ∀ (m : ℕ), Odd m → ∀ L : Fin m → Fin k, Spec.contract G m L = 0
  | 0, h, _ => by simp at h
  | 1, _, _ => rfl
  | m + 2, h, L => by
    rw [Spec.contract]
    refine Finset.sum_eq_zero fun p _ => ?_
    rw [contract_odd' G m (by obtain ⟨r, hr⟩ := h; exact ⟨r - 1, by omega⟩), mul_zero]

theorem contract_sub {k l : ℕ} {G : Op k} {G' : Op l} {e : Fin l → Fin k} (h : ∀ x y, G' x y = G (e x) (e y)) :
    ∀ (m : ℕ) (L : Fin m → Fin l), Spec.contract G' m L = Spec.contract G m fun i => e (L i)
  | 0, _ => rfl
  | 1, _ => rfl
  | m + 2, L => by
    rw [Spec.contract, Spec.contract]
    refine Finset.sum_congr rfl fun p _ => ?_
    rw [h, contract_sub h m]

theorem al_first (x : Fin (a + a)) : al (a + b) (Spec.firstSites a b x) = kr (al a x) 1 := by
  have h : ∀ i : Fin a, jwLower (a + b) i = kr (jwLower a i) 1 := fun i => jwString_first i _
  refine Fin.addCases (fun i => ?_) (fun i => ?_) x
  · rw [Spec.firstSites, Fin.addCases_left, al_left, al_left, Fin.val_castAdd, h, kr_conjTranspose, conjTranspose_one]
  · rw [Spec.firstSites, Fin.addCases_right, al_right, al_right, Fin.val_castAdd, h]

theorem zAll_conjTranspose : (zAll a)ᴴ = zAll a := by
  rw [zAll, kronAll_conjTranspose, sigmaZ_conjTranspose]

theorem al_last (x : Fin (b + b)) : al (a + b) (Spec.lastSites a b x) = kr (zAll a) (al b x) := by
  have h : ∀ i : Fin b, jwLower (a + b) (a + i) = kr (zAll a) (jwLower b i) := fun i => jwString_last i _
  refine Fin.addCases (fun i => ?_) (fun i => ?_) x
  · rw [Spec.lastSites, Fin.addCases_left, al_left, al_left, Fin.val_natAdd, h, kr_conjTranspose, zAll_conjTranspose]
  · rw [Spec.lastSites, Fin.addCases_right, al_right, al_right, Fin.val_natAdd, h]

theorem corr_last (ρ : Op (2 ^ (a + b))) (x y : Fin (b + b)) :
    (rd1 ρ * al b x * al b y).trace = (ρ * al (a + b) (Spec.lastSites a b x) * al (a + b) (Spec.lastSites a b y)).trace := by
  rw [Matrix.mul_assoc, rd1_trace, Matrix.mul_assoc ρ, al_last, al_last, kr_mul, zAll_sq]

theorem corr_first (ρ : Op (2 ^ (a + b))) (x y : Fin (a + a)) :
    (rd2 ρ * al a x * al a y).trace = (ρ * al (a + b) (Spec.firstSites a b x) * al (a + b) (Spec.firstSites a b y)).trace := by
  rw [Matrix.mul_assoc, rd2_trace, Matrix.mul_assoc ρ, al_first, al_first, kr_mul, Matrix.one_mul]

theorem prod_first (L : List (Fin (a + a))) :
    (L.map fun x => al (a + b) (Spec.firstSites a b x)).prod = kr (L.map (al a)).prod 1 := by
  induction L with
  | nil => exact kr_one.symm
  | cons x L ih => rw [List.map_cons, List.prod_cons, ih, al_first, kr_mul, List.map_cons, List.prod_cons, Matrix.one_mul]

theorem prod_last (L : List (Fin (b + b))) :
    (L.map fun x => al (a + b) (Spec.lastSites a b x)).prod = kr (zAll a ^ L.length) (L.map (al b)).prod := by
  induction L with
  | nil => exact kr_one.symm
  | cons x L ih => rw [List.map_cons, List.prod_cons, ih, al_last, kr_mul, List.map_cons, List.prod_cons,
      List.length_cons, pow_succ']

theorem ofFn_comp {α β : Type} (g : α → β) {m : ℕ} (L : Fin m → α) : (List.ofFn fun i => g (L i)) = (List.ofFn L).map g := by
  rw [List.map_ofFn]; rfl

theorem wick_first_sites {ρ : Op (2 ^ (a + b))} (h : Spec.ObeysWick (al (a + b)) ρ) : Spec.ObeysWick (al a) (rd2 ρ) := by
  intro m L
  rw [contract_sub (G := Matrix.of fun i j => (ρ * al (a + b) i * al (a + b) j).trace) (e := Spec.firstSites a b)
    (G' := Matrix.of fun i j => (rd2 ρ * al a i * al a j).trace)
    (fun x y => corr_first ρ x y), ← h, rd2_trace, ofFn_comp (al a) L,
    ofFn_comp (fun x => al (a + b) (Spec.firstSites a b x)) L, prod_first]

/-- Parity of the first sites is a combination of words of even length. -/
theorem odd_zero {ρ : Op (2 ^ (a + b))} (h : Spec.ObeysWick (al (a + b)) ρ) (r : ℕ) (hr : r ≤ a) :
    ∀ L : List (Fin ((a + b) + (a + b))), Odd L.length →
      (ρ * (kr (kronAll a fun j => if (j : ℕ) < r then sigmaZ else 1) 1 * (L.map (al (a + b))).prod)).trace = 0 := by
  induction r with
  | zero =>
    intro L hL
    simp only [not_lt_zero, if_false]
    rw [kronAll_one, kr_one, Matrix.one_mul]
    have := h L.length L.get
    rw [ofFn_comp (al (a + b)), List.ofFn_get, contract_odd' _ _ hL] at this
    exact this
  | succ r ih =>
    intro L hL
    set i : Fin a := ⟨r, hr⟩ with hi
    have hz : (kr (kronAll a fun j => if (j : ℕ) < r + 1 then sigmaZ else 1) 1 : Op (2 ^ (a + b))) =
        kr (kronAll a fun j => if (j : ℕ) < r then sigmaZ else 1) 1 *
          (al (a + b) (Spec.firstSites a b (Fin.natAdd a i)) * al (a + b) (Spec.firstSites a b (Fin.castAdd a i)) -
            al (a + b) (Spec.firstSites a b (Fin.castAdd a i)) * al (a + b) (Spec.firstSites a b (Fin.natAdd a i))) := by
      have e1 : sMinus * sMinusᴴ - sMinusᴴ * sMinus = sigmaZ := by
        rw [sMinus_conjTranspose, sMinus_eq]
        ext x y; fin_cases x <;> fin_cases y <;> simp [sigmaZ]
      simp only [al_first, kr_mul, Matrix.mul_sub, Matrix.mul_one, al_left, al_right]
      have hs : ∀ (A B : Op (2 ^ a)), (kr A 1 - kr B 1 : Op (2 ^ (a + b))) = kr (A - B) 1 := by
        intro A B
        ext u v
        simp only [kr, Matrix.sub_apply, submatrix_apply, kroneckerMap_apply, sub_mul]
      rw [hs, ← Matrix.mul_sub]
      congr 1
      rw [show jwLower a (i : ℕ) = jwString a i sMinus from rfl, jwString_conjTranspose, jwString_mul_same,
        jwString_mul_same, Matrix.mul_sub, kronAll_mul, kronAll_mul]
      rw [kronAll_lin i (fun j : Fin a => if (j : ℕ) < r + 1 then sigmaZ else 1)
        (fun j => (if (j : ℕ) < r then sigmaZ else 1) * if (j : ℕ) = i then sMinus * sMinusᴴ else 1)
        (fun j => (if (j : ℕ) < r then sigmaZ else 1) * if (j : ℕ) = i then sMinusᴴ * sMinus else 1) 1 (-1)]
      · rw [one_smul, neg_one_smul, sub_eq_add_neg]
      · intro j hj
        have : (j : ℕ) ≠ r := fun e => hj (Fin.ext e)
        rw [if_neg (show ¬ (j : ℕ) = (i : ℕ) from this), mul_one]
        by_cases hjr : (j : ℕ) < r
        · rw [if_pos hjr, if_pos (by omega)]
        · rw [if_neg hjr, if_neg (by omega)]
      · intro j hj
        have : (j : ℕ) ≠ r := fun e => hj (Fin.ext e)
        rw [if_neg (show ¬ (j : ℕ) = (i : ℕ) from this), mul_one]
        by_cases hjr : (j : ℕ) < r
        · rw [if_pos hjr, if_pos (by omega)]
        · rw [if_neg hjr, if_neg (by omega)]
      · simp only [hi, lt_self_iff_false, if_true, if_false, one_mul, Nat.lt_succ_self]
        rw [← e1, one_smul, neg_one_smul, sub_eq_add_neg]
    have h1 := ih (by omega) (Spec.firstSites a b (Fin.natAdd a i) :: Spec.firstSites a b (Fin.castAdd a i) :: L) (by
      obtain ⟨q, hq⟩ := hL; exact ⟨q + 1, by simp only [List.length_cons]; omega⟩)
    have h2 := ih (by omega) (Spec.firstSites a b (Fin.castAdd a i) :: Spec.firstSites a b (Fin.natAdd a i) :: L) (by
      obtain ⟨q, hq⟩ := hL; exact ⟨q + 1, by simp only [List.length_cons]; omega⟩)
    rw [hz]
    simp only [List.map_cons, List.prod_cons] at h1 h2
    have h3 := sub_eq_zero.2 (h1.trans h2.symm)
    rw [← h3]
    simp only [Matrix.mul_sub, Matrix.sub_mul, Matrix.mul_assoc, trace_sub]

theorem wick_last_sites {ρ : Op (2 ^ (a + b))} (h : Spec.ObeysWick (al (a + b)) ρ) : Spec.ObeysWick (al b) (rd1 ρ) := by
  intro m L
  by_cases hm : Even m
  · rw [contract_sub (G := Matrix.of fun i j => (ρ * al (a + b) i * al (a + b) j).trace) (e := Spec.lastSites a b)
      (G' := Matrix.of fun i j => (rd1 ρ * al b i * al b j).trace)
      (fun x y => corr_last ρ x y), ← h, rd1_trace, ofFn_comp (al b) L,
      ofFn_comp (fun x => al (a + b) (Spec.lastSites a b x)) L, prod_last]
    have hz : zAll a ^ m = 1 := by
      obtain ⟨r, hr⟩ := hm
      rw [hr, pow_add, ← (Commute.refl (zAll a)).mul_pow, zAll_sq, one_pow]
    rw [List.length_ofFn, hz]
  · rw [Nat.not_even_iff_odd] at hm
    rw [contract_odd' _ _ hm, rd1_trace, ofFn_comp (al b) L]
    have := odd_zero h a le_rfl ((List.ofFn L).map (Spec.lastSites a b)) (by simpa using hm)
    rw [List.map_map] at this
    have e : (List.map (al (a + b) ∘ Spec.lastSites a b) (List.ofFn L)).prod = _ := prod_last (List.ofFn L)
    rw [e, kr_mul, Matrix.one_mul, List.length_ofFn] at this
    have e2 : (kronAll a fun j => if (j : ℕ) < a then sigmaZ else 1) * zAll a ^ m = 1 := by
      have : (kronAll a fun j => if (j : ℕ) < a then sigmaZ else 1) = zAll a := by
        rw [zAll]; congr 1; funext j; rw [if_pos j.2]
      obtain ⟨r, hr⟩ := hm
      rw [this, ← pow_succ', hr, show 2 * r + 1 + 1 = (r + 1) + (r + 1) by ring, pow_add,
        ← (Commute.refl (zAll a)).mul_pow, zAll_sq, one_pow]
    rw [e2] at this
    exact this

/-! ## Dropping imaginary parts -/

theorem kronAll_rows {n : ℕ} (f : Fin n → Op 2) (h : ∀ i x, ∑ y, ‖f i x y‖ ≤ 1) (x : Fin (2 ^ n)) :
    ∑ y, ‖kronAll n f x y‖ ≤ 1 := by
  induction n with
  | zero =>
    simp only [kronAll, one_apply]
    refine (Fin.sum_univ_one _).le.trans ?_
    split_ifs <;> simp
  | succ k ih =>
    have h1 : ∀ (z : Fin (2 ^ k * 2)), ∑ y : Fin (2 ^ k * 2),
        ‖npKron (kronAll k (f ∘ Fin.castSucc)) (f (Fin.last k)) z y‖ ≤ 1 := by
      intro z
      obtain ⟨⟨u, v⟩, rfl⟩ := finProdFinEquiv.surjective z
      rw [← finProdFinEquiv.sum_comp, Fintype.sum_prod_type]
      simp only [npKron_prod, norm_mul, ← Finset.mul_sum]
      rw [← Finset.sum_mul]
      exact mul_le_one₀ (ih _ (fun i x => h _ x) u) (Finset.sum_nonneg fun _ _ => norm_nonneg _) (h _ v)
    exact h1 x

theorem al_rows {n : ℕ} (k : Fin (n + n)) (x : Fin (2 ^ n)) : ∑ y, ‖al n k x y‖ ≤ 1 := by
  have key : ∀ (M : Op 2) (i : ℕ), (∀ x, ∑ y, ‖M x y‖ ≤ 1) → ∑ y, ‖jwString n i M x y‖ ≤ 1 := by
    intro M i hM
    refine kronAll_rows _ (fun j u => ?_) x
    split_ifs
    · fin_cases u <;> simp [sigmaZ]
    · exact hM u
    · fin_cases u <;> simp [one_apply]
  have h1 : ∀ x, ∑ y, ‖sMinus x y‖ ≤ 1 := fun x => by rw [sMinus_eq]; fin_cases x <;> simp
  have h2 : ∀ x, ∑ y, ‖sMinusᴴ x y‖ ≤ 1 := fun x => by rw [sMinus_conjTranspose]; fin_cases x <;> simp
  refine Fin.addCases (fun i => ?_) (fun i => ?_) k
  · rw [al_left, jwLower_eq, jwString_conjTranspose]; exact key _ _ h2
  · rw [al_right, jwLower_eq]; exact key _ _ h1

theorem al_real {n : ℕ} (k : Fin (n + n)) (x y : Fin (2 ^ n)) : (al n k x y).im = 0 := by
  have hp : ∀ (s : Finset (Fin n)) (g : Fin n → ℂ), (∀ i, (g i).im = 0) → (∏ i ∈ s, g i).im = 0 := by
    intro s g hg
    induction s using Finset.cons_induction with
    | empty => simp
    | cons i s hi ih => rw [Finset.prod_cons, Complex.mul_im, ih, hg]; simp
  have key : ∀ (M : Op 2) (i : ℕ), (∀ x y, (M x y).im = 0) → (jwString n i M x y).im = 0 := by
    intro M i hM
    rw [jwString, kronAll_apply]
    refine hp _ _ fun j => ?_
    generalize Spec.digit 2 n x j = u
    generalize Spec.digit 2 n y j = v
    split_ifs
    · fin_cases u <;> fin_cases v <;> simp [sigmaZ]
    · exact hM _ _
    · fin_cases u <;> fin_cases v <;> simp [one_apply]
  have h1 : ∀ x y, (sMinus x y).im = 0 := fun x y => by rw [sMinus_eq]; fin_cases x <;> fin_cases y <;> simp
  have h2 : ∀ x y, (sMinusᴴ x y).im = 0 := fun x y => by rw [sMinus_conjTranspose]; fin_cases x <;> fin_cases y <;> simp
  refine Fin.addCases (fun i => ?_) (fun i => ?_) k
  · rw [al_left, jwLower_eq, jwString_conjTranspose]; exact key _ _ h2
  · rw [al_right, jwLower_eq]; exact key _ _ h1

theorem rows_mul {d : ℕ} {A B : Op d} (hA : ∀ x, ∑ y, ‖A x y‖ ≤ 1) (hB : ∀ x, ∑ y, ‖B x y‖ ≤ 1) (x : Fin d) :
    ∑ y, ‖(A * B) x y‖ ≤ 1 := by
  calc ∑ y, ‖(A * B) x y‖ ≤ ∑ y, ∑ z, ‖A x z‖ * ‖B z y‖ := Finset.sum_le_sum fun y _ => by
        rw [Matrix.mul_apply]
        exact (norm_sum_le _ _).trans (Finset.sum_le_sum fun z _ => (norm_mul _ _).le)
    _ = ∑ z, ‖A x z‖ * ∑ y, ‖B z y‖ := by rw [Finset.sum_comm]; simp only [Finset.mul_sum]
    _ ≤ ∑ z, ‖A x z‖ * 1 := Finset.sum_le_sum fun z _ => mul_le_mul_of_nonneg_left (hB z) (norm_nonneg _)
    _ ≤ 1 := by simpa using hA x

theorem real_mul {d : ℕ} {A B : Op d} (hA : ∀ x y, (A x y).im = 0) (hB : ∀ x y, (B x y).im = 0) (x y : Fin d) :
    ((A * B) x y).im = 0 := by
  rw [Matrix.mul_apply, Complex.im_sum]
  exact Finset.sum_eq_zero fun z _ => by rw [Complex.mul_im, hA, hB]; simp

theorem reMat_corr {n : ℕ} (S : Op (2 ^ n)) (x y : Fin (n + n)) :
    (reMat S * al n x * al n y).trace = (((S * al n x * al n y).trace.re : ℝ) : ℂ) := by
  have hW : ∀ u v, ((al n x * al n y) u v).im = 0 := real_mul (al_real x) (al_real y)
  rw [Matrix.mul_assoc, Matrix.mul_assoc]
  generalize al n x * al n y = W at hW
  simp only [Matrix.trace, diag_apply, Matrix.mul_apply, reMat, of_apply]
  push_cast [Complex.re_sum]
  refine Finset.sum_congr rfl fun u _ => Finset.sum_congr rfl fun v _ => ?_
  apply Complex.ext <;> simp [hW]

theorem small_corr {n : ℕ} {S : Op (2 ^ n)} {ε : ℝ} (hS : ∀ i j, |(S i j).im| ≤ ε) (x y : Fin (n + n)) :
    |(S * al n x * al n y).trace.im| ≤ 2 ^ n * ε := by
  have hW : ∀ u v, ((al n x * al n y) u v).im = 0 := real_mul (al_real x) (al_real y)
  have hr : ∀ u, ∑ v, ‖(al n x * al n y) u v‖ ≤ 1 := rows_mul (al_rows x) (al_rows y)
  rw [Matrix.mul_assoc]
  generalize al n x * al n y = W at hW hr
  have hε : 0 ≤ ε := (abs_nonneg _).trans (hS ⟨0, by positivity⟩ ⟨0, by positivity⟩)
  rw [Matrix.trace_mul_comm, Matrix.trace, Complex.im_sum]
  calc |∑ u, (diag (W * S) u).im| ≤ ∑ u : Fin (2 ^ n), ε := by
        refine (Finset.abs_sum_le_sum_abs _ _).trans (Finset.sum_le_sum fun u _ => ?_)
        rw [diag_apply, Matrix.mul_apply, Complex.im_sum]
        calc |∑ v, (W u v * S v u).im| ≤ ∑ v, ‖W u v‖ * ε := by
              refine (Finset.abs_sum_le_sum_abs _ _).trans (Finset.sum_le_sum fun v _ => ?_)
              rw [Complex.mul_im, hW, zero_mul, add_zero, abs_mul]
              exact mul_le_mul (Complex.abs_re_le_norm _) (hS v u) (abs_nonneg _) (norm_nonneg _)
          _ = (∑ v, ‖W u v‖) * ε := by rw [Finset.sum_mul]
          _ ≤ 1 * ε := mul_le_mul_of_nonneg_right (hr u) hε
          _ = ε := one_mul _
    _ = 2 ^ n * ε := by simp

end FF
