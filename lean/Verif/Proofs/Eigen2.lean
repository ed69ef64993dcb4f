import Verif.Proofs.Eigen

/-! # Helper lemmas for the eigensolvers, part 2 -/

namespace FF

open Matrix
open scoped ComplexConjugate

/-! ## the sorted Schur form of a skew-symmetric array -/

theorem schur_skew {m : ℕ} {M T Z : RMat m} (h : Spec.IsRealSchur M T Z) (hM : Mᵀ = -M) : Tᵀ = -T := by
  have h1 : Zᵀ * Z = 1 := mul_eq_one_comm.1 h.orth
  have hT : T = Zᵀ * M * Z := by
    rw [← h.decomp]
    calc T = (Zᵀ * Z) * T * (Zᵀ * Z) := by rw [h1, one_mul, mul_one]
      _ = _ := by simp only [mul_assoc]
  rw [hT]
  simp only [transpose_mul, transpose_transpose, hM, Matrix.neg_mul, Matrix.mul_neg, mul_assoc]

theorem skew_apply {m : ℕ} {T : RMat m} (h : Tᵀ = -T) (x y : Fin m) : T x y = - T y x := by
  have := congrFun (congrFun h y) x
  simpa using this

/-- Entries of a skew-symmetric Schur form away from the two off-diagonals vanish. -/
theorem schur_tri {m : ℕ} {M T Z : RMat m} (h : Spec.IsRealSchur M T Z) (hs : Tᵀ = -T) (x y : Fin m)
    (hxy : (x : ℕ) + 1 ≠ y) (hyx : (y : ℕ) + 1 ≠ x) : T x y = 0 := by
  rcases lt_trichotomy (x : ℕ) y with h1 | h1 | h1
  · rw [skew_apply hs, h.quasi y x (by omega), neg_zero]
  · have : x = y := Fin.ext h1
    subst this
    have := skew_apply hs x x
    linarith
  · exact h.quasi x y (by omega)

/-- In the sorted Schur form of a skew-symmetric array everything outside the aligned 2 x 2 blocks is
small. -/
theorem schur_aligned {m : ℕ} {ε : ℝ} (hε : 0 ≤ ε) {M T Z : RMat m}
    (h : Spec.IsSortedSchur ε M T Z) (hM : Mᵀ = -M) (x y : Fin m) (hxy : (x : ℕ) / 2 ≠ (y : ℕ) / 2) :
    |T x y| ≤ ε := by
  have hs := schur_skew h.toIsRealSchur hM
  -- entries just above the diagonal, starting in an odd row
  have key : ∀ i j : Fin m, (i : ℕ) % 2 = 1 → (j : ℕ) = i + 1 → |T i j| ≤ ε := by
    intro i j hi hj
    by_contra hbig
    push Not at hbig
    have hrow : ∀ k : Fin m, k ≤ i → ∃ l, ε < |T k l| := by
      intro k hk
      by_contra hno
      push Not at hno
      exact absurd (h.sorted k i hk hno j) (not_le.2 hbig)
    have hnz : ∀ k l : Fin m, ε < |T k l| → T k l ≠ 0 := by
      intro k l hkl h0
      rw [h0, abs_zero] at hkl
      linarith
    have hind : ∀ q : ℕ, ∀ (hq : 2 * q + 1 ≤ (i : ℕ)), T ⟨2 * q, by omega⟩ ⟨2 * q + 1, by omega⟩ ≠ 0 := by
      intro q
      induction q with
      | zero =>
        intro hq
        obtain ⟨l, hl⟩ := hrow ⟨0, by omega⟩ (Fin.mk_le_of_le_val (by omega))
        have hl0 := hnz _ _ hl
        have : (l : ℕ) = 1 := by
          by_contra hl1
          refine hl0 (schur_tri h.toIsRealSchur hs _ _ ?_ ?_) <;> simp only <;> omega
        have hle : l = ⟨1, by omega⟩ := Fin.ext this
        rw [hle] at hl0
        exact hl0
      | succ q ih =>
        intro hq
        have hprev := ih (by omega)
        obtain ⟨l, hl⟩ := hrow ⟨2 * (q + 1), by omega⟩ (by rw [Fin.le_def]; simp only; omega)
        have hl0 := hnz _ _ hl
        have hb := h.blocks ⟨2 * q, by omega⟩ ⟨2 * q + 1, by omega⟩ ⟨2 * (q + 1), by omega⟩ rfl
          (by simp only; omega)
        rcases hb with hb | hb
        · rw [skew_apply hs, hb, neg_zero] at hprev
          exact absurd rfl hprev
        · have : (l : ℕ) = 2 * (q + 1) + 1 := by
            by_contra hl1
            by_cases hl2 : (l : ℕ) = 2 * q + 1
            · have hle : l = ⟨2 * q + 1, by omega⟩ := Fin.ext hl2
              rw [hle, hb] at hl0
              exact hl0 rfl
            · refine hl0 (schur_tri h.toIsRealSchur hs _ _ ?_ ?_) <;> simp only <;> omega
          have hle : l = ⟨2 * (q + 1) + 1, by omega⟩ := Fin.ext this
          rw [hle] at hl0
          exact hl0
    have hlast := hind ((i : ℕ) / 2) (by omega)
    have e1 : (⟨2 * ((i : ℕ) / 2) + 1, by omega⟩ : Fin m) = i := Fin.ext (by simp only; omega)
    rcases h.blocks ⟨2 * ((i : ℕ) / 2), by omega⟩ i j (by simp only; omega) hj with hb | hb
    · rw [e1, skew_apply hs, hb, neg_zero] at hlast
      exact hlast rfl
    · rw [skew_apply hs, hb, neg_zero, abs_zero] at hbig
      linarith
  by_cases h1 : (x : ℕ) + 1 = y
  · exact key x y (by omega) h1.symm
  · by_cases h2 : (y : ℕ) + 1 = x
    · rw [skew_apply hs, abs_neg]
      exact key y x (by omega) h2.symm
    · rw [schur_tri h.toIsRealSchur hs x y h1 h2, abs_zero]
      exact hε

/-- A non-zero entry of a skew-symmetric Schur form is an eigenvalue of `-i M` (up to sign). -/
theorem schur_eigen {m : ℕ} {M T Z : RMat m} (h : Spec.IsRealSchur M T Z) (hM : Mᵀ = -M) (x y : Fin m)
    (hxy : T x y ≠ 0) : ∃ v : Fin m → ℂ, v ≠ 0 ∧
      (toC M).mulVec v = (Complex.I * (T x y : ℂ)) • v := by
  have hs := schur_skew h hM
  have hne : x ≠ y := by
    rintro rfl
    have := skew_apply hs x x
    exact hxy (by linarith)
  -- the rows x and y have a single non-zero entry each
  have honly : ∀ x y : Fin m, T x y ≠ 0 → ∀ z, z ≠ y → T x z = 0 := by
    intro x y hxy z hzy
    by_contra hxz
    have hx : ∀ w, T x w ≠ 0 → (x : ℕ) + 1 = w ∨ (w : ℕ) + 1 = x := by
      intro w hw
      by_contra hno
      push Not at hno
      exact hw (schur_tri h hs x w hno.1 hno.2)
    have hzy' : (z : ℕ) ≠ y := fun e => hzy (Fin.ext e)
    rcases hx y hxy with h1 | h1 <;> rcases hx z hxz with h2 | h2
    · omega
    · rcases h.blocks z x y h2.symm h1.symm with hb | hb
      · exact hxz hb
      · rw [skew_apply hs, hb, neg_zero] at hxy; exact hxy rfl
    · rcases h.blocks y x z h1.symm h2.symm with hb | hb
      · exact hxy hb
      · rw [skew_apply hs, hb, neg_zero] at hxz; exact hxz rfl
    · omega
  have hx1 := honly x y hxy
  have hyx : T y x ≠ 0 := by rw [skew_apply hs]; exact neg_ne_zero.2 hxy
  have hy1 := honly y x hyx
  have hcol : ∀ z, z ≠ x → z ≠ y → T z x = 0 ∧ T z y = 0 := fun z hzx hzy => by
    constructor
    · rw [skew_apply hs, hx1 z hzy, neg_zero]
    · rw [skew_apply hs, hy1 z hzx, neg_zero]
  set w : Fin m → ℂ := fun z => if z = x then 1 else if z = y then Complex.I else 0 with hw
  have hTw : (toC T).mulVec w = (Complex.I * (T x y : ℂ)) • w := by
    funext z
    have hsum : (toC T).mulVec w z = (T z x : ℂ) + (T z y : ℂ) * Complex.I := by
      rw [mulVec, dotProduct, ← Finset.add_sum_erase _ _ (Finset.mem_univ x),
        ← Finset.add_sum_erase _ _ (Finset.mem_erase.2 ⟨hne.symm, Finset.mem_univ y⟩), Finset.sum_eq_zero]
      · simp [hw, toC_apply, hne.symm]
      · intro u hu
        simp only [Finset.mem_erase] at hu
        simp [hw, hu.1, hu.2.1]
    rw [hsum, Pi.smul_apply, smul_eq_mul]
    by_cases hzx : z = x
    · subst hzx
      have h0 : T z z = 0 := by have := skew_apply hs z z; linarith
      simp [hw, h0, mul_comm]
    · by_cases hzy : z = y
      · subst hzy
        have h0 : T z z = 0 := by have := skew_apply hs z z; linarith
        simp only [hw, hzx, if_false, if_true, h0]
        rw [skew_apply hs z x]
        push_cast
        linear_combination (-(T x z : ℂ)) * Complex.I_sq
      · obtain ⟨h1, h2⟩ := hcol z hzx hzy
        simp [hw, hzx, hzy, h1, h2]
  refine ⟨(toC Z).mulVec w, ?_, ?_⟩
  · intro h0
    have h1 : (toC Zᵀ).mulVec ((toC Z).mulVec w) = w := by
      rw [mulVec_mulVec, ← toC_mul, mul_eq_one_comm.1 h.orth, toC_one, one_mulVec]
    rw [h0, mulVec_zero] at h1
    have := congrFun h1 x
    simp [hw] at this
  · have e : toC M * toC Z = toC Z * toC T := by
      rw [← toC_mul, ← toC_mul, ← h.decomp, mul_assoc, mul_eq_one_comm.1 h.orth, mul_one]
    rw [mulVec_mulVec, e, ← mulVec_mulVec, hTw, mulVec_smul]

/-! ## the assertions -/

theorem allclose_of_eq {m k : ℕ} {A B : Matrix (Fin m) (Fin k) ℂ} (h : A = B) : allclose A B := by
  subst h; exact allclose_self _

theorem pyAssert_ok {c : Prop} (h : c) : pyAssert c = .ok () := by
  classical
  rw [pyAssert, if_pos h]

theorem checkCanonical_ok {n : ℕ} {T : RMat (n + n)} (hs : Tᵀ = -T)
    (hε : ∀ x y : Fin (n + n), (x : ℕ) / 2 ≠ (y : ℕ) / 2 → |T x y| ≤ 1e-8) :
    checkCanonicalForm (toC T) = true := by
  classical
  have hcopy : allclose (canonicalCopy (toC T) ((n + n) / 2)) (toC T) := by
    intro x y
    rw [canonicalCopy_apply _ _ (by omega)]
    split_ifs with hxy
    · exact isclose_self _
    · have hT : |T x y| ≤ 1e-8 := by
        by_cases h1 : x = y
        · subst h1
          have := skew_apply hs x x
          rw [show T x x = 0 by linarith, abs_zero]; norm_num
        · exact hε x y fun h => hxy ⟨h, h1⟩
      rw [isclose, zero_sub, norm_neg, toC_apply, Complex.norm_real, Real.norm_eq_abs]
      have := abs_nonneg (T x y)
      linarith
  have h1 : allclose (toC T) (cj (toC T)) := allclose_of_eq (cj_toC T).symm
  have h2 : allclose (toC T) (-(toC T)ᵀ) := allclose_of_eq (by
    rw [toC_transpose, hs, toC_neg, neg_neg])
  rw [checkCanonicalForm, if_neg (by omega), dif_neg (by simp)]
  change (if ¬ allclose (toC T) (cj (toC T)) ∨ ¬ allclose (toC T) (-(toC T)ᵀ) then false
    else if ¬ allclose (canonicalCopy (toC T) ((n + n) / 2)) (toC T) then false else true) = true
  rw [if_neg (by simp [h1, h2]), if_neg (by simp [hcopy])]

/-! ## the sorting matrix -/

theorem isclose_sign (s t : ℝ) : isclose (npSign s : ℂ) (npSign t : ℂ) ↔ npSign s = npSign t := by
  constructor
  · intro h
    by_contra hne
    rw [isclose, ← Complex.ofReal_sub, Complex.norm_real, Complex.norm_real] at h
    unfold npSign at h hne
    split_ifs at h hne <;> norm_num at h <;> exact hne rfl
  · intro h; rw [h]; exact isclose_self _

theorem flipStep_apply {n : ℕ} (a b : Fin n → ℝ) (F : RMat (n + n)) (i : Fin n) (x y : Fin (n + n)) :
    flipStep a b F i x y = open Classical in
      if npSign (a i) = npSign (b i) ∧ (x : ℕ) / 2 = i ∧ (y : ℕ) / 2 = i then
        (if x = y then 0 else 1) else F x y := by
  classical
  rw [flipStep]
  by_cases hi : npSign (a i) = npSign (b i)
  · rw [if_pos ((isclose_sign _ _).2 hi)]
    simp only [set2, of_apply, Fin.ext_iff]
    by_cases hc : (x : ℕ) / 2 = i ∧ (y : ℕ) / 2 = i
    · rw [if_pos (c := npSign (a i) = npSign (b i) ∧ _) ⟨hi, hc⟩]
      split_ifs <;> first | rfl | omega
    · rw [if_neg (c := npSign (a i) = npSign (b i) ∧ _) (fun h => hc h.2), if_neg, if_neg, if_neg, if_neg] <;>
        omega
  · rw [if_neg (fun h => hi ((isclose_sign _ _).1 h)), if_neg (fun h => hi h.1)]

theorem flips_apply {n : ℕ} (a b : Fin n → ℝ) (x y : Fin (n + n)) (i : Fin n) (hy : (y : ℕ) / 2 = i) :
    flips a b x y = open Classical in
      if npSign (a i) = npSign (b i) then
        (if (x : ℕ) / 2 = (y : ℕ) / 2 ∧ x ≠ y then 1 else 0)
      else if x = y then 1 else 0 := by
  classical
  have key : ∀ (l : List (Fin n)) (F : RMat (n + n)),
      l.foldl (flipStep a b) F x y =
        if i ∈ l ∧ (x : ℕ) / 2 = (y : ℕ) / 2 ∧ npSign (a i) = npSign (b i) then
          (if x = y then 0 else 1)
        else F x y := by
    intro l
    induction l with
    | nil => intro F; simp
    | cons k l ih =>
      intro F
      rw [List.foldl_cons, ih, flipStep_apply]
      by_cases hki : k = i
      · subst hki
        by_cases hc : (x : ℕ) / 2 = (y : ℕ) / 2 ∧ npSign (a k) = npSign (b k)
        · rw [if_pos (c := k ∈ k :: l ∧ _) ⟨List.mem_cons_self, hc⟩,
            if_pos (c := npSign (a k) = npSign (b k) ∧ _) ⟨hc.2, hc.1.trans hy, hy⟩, ite_self]
        · rw [if_neg (c := k ∈ l ∧ _) (fun h => hc h.2), if_neg (c := k ∈ k :: l ∧ _) (fun h => hc h.2),
            if_neg (fun h => hc ⟨h.2.1.trans hy.symm, h.1⟩)]
      · rw [if_neg (c := npSign (a k) = npSign (b k) ∧ _) (fun h => hki (Fin.ext (by rw [← h.2.2, hy])))]
        have hki' : i ≠ k := fun h => hki h.symm
        simp only [List.mem_cons, hki', false_or]
  rw [flips, key]
  simp only [List.mem_finRange, true_and, Matrix.one_apply]
  by_cases h1 : npSign (a i) = npSign (b i)
  · by_cases h2 : (x : ℕ) / 2 = (y : ℕ) / 2
    · rw [if_pos ⟨h2, h1⟩, if_pos h1]
      by_cases h3 : x = y
      · rw [if_pos h3, if_neg (fun h => h.2 h3)]
      · rw [if_neg h3, if_pos ⟨h2, h3⟩]
    · rw [if_neg (fun h => h2 h.1), if_pos h1, if_neg (c := _ ∧ _) (fun h => h2 h.1), if_neg]
      intro h; exact h2 (by rw [h])
  · rw [if_neg (fun h => h1 h.2), if_neg h1]

/-- Where the sorting step moves index `y`: to block `p (y / 2)`, with the two members of the block swapped
if the signs agree. -/
noncomputable def sortIdx {n : ℕ} (p : Fin n → Fin n) (f : Fin n → Prop) (y : Fin (n + n)) : Fin (n + n) :=
  open Classical in
  ⟨2 * p ⟨(y : ℕ) / 2, by omega⟩ + (if f ⟨(y : ℕ) / 2, by omega⟩ then 1 - (y : ℕ) % 2 else (y : ℕ) % 2), by
    have := (p ⟨(y : ℕ) / 2, by omega⟩).2
    split_ifs <;> omega⟩

theorem sortIdx_val {n : ℕ} (p : Fin n → Fin n) (f : Fin n → Prop) (y : Fin (n + n)) (i : Fin n)
    (hi : (y : ℕ) / 2 = i) : (sortIdx p f y : ℕ) = 2 * p i + (open Classical in if f i then 1 - (y : ℕ) % 2 else (y : ℕ) % 2) := by
  obtain ⟨i, hi'⟩ := i
  simp only at hi
  subst hi
  rfl

theorem sortIdx_div {n : ℕ} (p : Fin n → Fin n) (f : Fin n → Prop) (y : Fin (n + n)) (i : Fin n)
    (hi : (y : ℕ) / 2 = i) : (sortIdx p f y : ℕ) / 2 = p i := by
  rw [sortIdx_val p f y i hi]
  split_ifs <;> omega

theorem sortIdx_injective {n : ℕ} {p : Fin n → Fin n} (hp : Function.Injective p) (f : Fin n → Prop) :
    Function.Injective (sortIdx p f) := by
  intro x y h
  have hx := sortIdx_div p f x ⟨(x : ℕ) / 2, by omega⟩ rfl
  have hy := sortIdx_div p f y ⟨(y : ℕ) / 2, by omega⟩ rfl
  rw [h, hy] at hx
  have h2 : (⟨(y : ℕ) / 2, by omega⟩ : Fin n) = ⟨(x : ℕ) / 2, by omega⟩ := hp (Fin.ext hx)
  have h3 : (y : ℕ) / 2 = (x : ℕ) / 2 := by simpa using h2
  have h1 : (sortIdx p f x : ℕ) = sortIdx p f y := by rw [h]
  rw [sortIdx_val p f x ⟨(x : ℕ) / 2, by omega⟩ rfl, sortIdx_val p f y ⟨(x : ℕ) / 2, by omega⟩ h3] at h1
  apply Fin.ext
  split_ifs at h1 <;> omega

theorem sortMatrix_ok {n : ℕ} (argsort : (Fin n → ℝ) → Fin n → ℕ) (L : RMat (n + n)) (A : Op n)
    (hA : Spec.IsArgsort (fun i => |eigvalsh A i|) (argsort fun i => |eigvalsh A i|))
    (hL : Spec.IsArgsort (fun i : Fin n => |L ⟨2 * i, by omega⟩ ⟨2 * i + 1, by omega⟩|)
      (argsort fun i => |L ⟨2 * i, by omega⟩ ⟨2 * i + 1, by omega⟩|)) :
    ∃ (pA pL : Fin n → Fin n), Function.Injective pA ∧ Function.Injective pL ∧
      (∀ i, (pA i : ℕ) = argsort (fun i => |eigvalsh A i|) i) ∧
      (∀ i, (pL i : ℕ) = argsort (fun i => |L ⟨2 * i, by omega⟩ ⟨2 * i + 1, by omega⟩|) i) ∧
      sortMatrix argsort L A = .ok (Matrix.of fun x y => open Classical in
        if x = sortIdx (fun i => pL (pA i)) (fun i =>
          npSign (L ⟨2 * (pL (pA i)), by omega⟩ ⟨2 * (pL (pA i)) + 1, by omega⟩) =
            npSign (eigvalsh A i)) y then 1 else 0) := by
  classical
  set pA : Fin n → Fin n := fun i => ⟨argsort (fun i => |eigvalsh A i|) i, hA.lt i⟩ with hpA
  set pL : Fin n → Fin n := fun i =>
    ⟨argsort (fun i => |L ⟨2 * i, by omega⟩ ⟨2 * i + 1, by omega⟩|) i, hL.lt i⟩ with hpL
  refine ⟨pA, pL, ?_, ?_, fun i => rfl, fun i => rfl, ?_⟩
  · intro i j h
    exact hA.inj (by simpa [hpA] using h)
  · intro i j h
    exact hL.inj (by simpa [hpL] using h)
  set evsL : Fin n → ℝ := fun i => L ⟨2 * i, by omega⟩ ⟨2 * i + 1, by omega⟩ with hevsL
  have h1 : (List.finRange n).mapM (fun i => listGet (List.ofFn (argsort fun i => |evsL i|))
      (argsort (fun i => |eigvalsh A i|) i)) =
      .ok ((List.finRange n).map fun i => ((pL (pA i) : Fin n) : ℕ)) := by
    refine mapM_ok fun i _ => ?_
    rw [listGet_ofFn _ _ (hA.lt i)]
  have h2 : ((List.finRange n).map fun i => ((pL (pA i) : Fin n) : ℕ)).mapM
      (fun k => listGet (List.ofFn evsL) k) =
      .ok ((List.finRange n).map fun i => evsL (pL (pA i))) := by
    rw [mapM_ok (g := fun k => if h : k < n then evsL ⟨k, h⟩ else 0)]
    · rw [List.map_map]
      congr 1
      refine List.map_congr_left fun i _ => ?_
      simp
    · intro k hk
      obtain ⟨i, -, rfl⟩ := List.mem_map.1 hk
      rw [listGet_ofFn _ _ (pL (pA i)).2, dif_pos (pL (pA i)).2]
  have hg1 : (fun i : Fin n => ((((List.finRange n).map fun i => ((pL (pA i) : Fin n) : ℕ)).getD i 0 : ℕ) : ℤ))
      = fun i => (((pL (pA i) : Fin n) : ℕ) : ℤ) := by
    funext i; simp
  have hg2 : (fun i : Fin n => ((List.finRange n).map fun i => evsL (pL (pA i))).getD i 0) =
      fun i => evsL (pL (pA i)) := by
    funext i; simp
  have hptm := ptm_some (fun i : Fin n => (((pL (pA i) : Fin n) : ℕ) : ℤ)) (fun i => ⟨by omega, by
    have := (pL (pA i)).2; omega⟩)
  rw [sortMatrix]
  simp only [bind, Except.bind]
  simp only [hevsL] at h1 h2 hg1 hg2
  rw [h1]
  simp only
  rw [h2]
  simp only
  rw [hg1, hg2, hptm]
  simp only [Except.ok.injEq]
  ext x y
  rw [mul_apply]
  set i : Fin n := ⟨(y : ℕ) / 2, by omega⟩ with hi
  have hiy : (y : ℕ) / 2 = i := rfl
  set f : Fin n → Prop := fun i => npSign (L ⟨2 * (pL (pA i)), by omega⟩ ⟨2 * (pL (pA i)) + 1, by omega⟩) =
            npSign (eigvalsh A i) with hf
  set z : Fin (n + n) := ⟨2 * i + (if f i then 1 - (y : ℕ) % 2 else (y : ℕ) % 2), by
    have := i.2
    split_ifs <;> omega⟩ with hz
  have hF : ∀ u, flips (fun i => evsL (pL (pA i))) (eigvalsh A) u y = if u = z then 1 else 0 := by
    intro u
    rw [flips_apply _ _ u y i hiy]
    by_cases hfi : f i
    · rw [if_pos hfi]
      refine if_congr ?_ rfl rfl
      simp only [hz, if_pos hfi, Fin.ext_iff, ne_eq]
      omega
    · rw [if_neg hfi]
      refine if_congr ?_ rfl rfl
      simp only [hz, if_neg hfi, Fin.ext_iff]
      omega
  simp only [hevsL] at hF
  simp only [hF, mul_ite, mul_one, mul_zero, Finset.sum_ite_eq', Finset.mem_univ, if_true]
  simp only [submatrix_apply, npKron, of_apply, map_apply, Matrix.one_apply]
  have hzi : (z : ℕ) / 2 = i := by
    simp only [hz]; split_ifs <;> omega
  have hdz : (Fin.cast (Nat.mul_two n).symm z).divNat = i := Fin.ext hzi
  rw [hdz]
  have hmod : ((Fin.cast (Nat.mul_two n).symm x).modNat = (Fin.cast (Nat.mul_two n).symm z).modNat) ↔
      (x : ℕ) % 2 = (z : ℕ) % 2 := by
    rw [Fin.ext_iff]; rfl
  have hdiv : (((Fin.cast (Nat.mul_two n).symm x).divNat : ℕ) : ℤ) = (((pL (pA i) : Fin n) : ℕ) : ℤ) ↔
      (x : ℕ) / 2 = (pL (pA i) : Fin n) := by
    rw [Nat.cast_inj]; rfl
  have hzm : (z : ℕ) % 2 = (if f i then 1 - (y : ℕ) % 2 else (y : ℕ) % 2) := by
    simp only [hz]; split_ifs <;> omega
  have hx : x = sortIdx (fun i => pL (pA i)) f y ↔ (x : ℕ) / 2 = (pL (pA i) : Fin n) ∧ (x : ℕ) % 2 = (z : ℕ) % 2 := by
    rw [Fin.ext_iff, sortIdx_val _ _ y i hiy, hzm]
    split_ifs <;> omega
  simp only [hdiv, hmod]
  by_cases hc1 : (x : ℕ) / 2 = (pL (pA i) : Fin n)
  · by_cases hc2 : (x : ℕ) % 2 = (z : ℕ) % 2
    · rw [if_pos hc1, if_pos hc2, if_pos (hx.2 ⟨hc1, hc2⟩)]; simp
    · rw [if_neg hc2, if_neg (fun h => hc2 (hx.1 h).2)]; simp
  · rw [if_neg hc1, if_neg (fun h => hc1 (hx.1 h).1)]; simp

theorem sortPerm_orth {m : ℕ} {σ : Fin m → Fin m} (hσ : Function.Injective σ) :
    (Matrix.of fun x y => (open Classical in if x = σ y then (1 : ℝ) else 0)) *
      (Matrix.of fun x y => (open Classical in if x = σ y then (1 : ℝ) else 0) : RMat m)ᵀ = 1 := by
  classical
  rw [mul_eq_one_comm]
  ext x y
  rw [mul_apply]
  simp only [transpose_apply, of_apply, ite_mul, one_mul, zero_mul, Finset.sum_ite_eq', Finset.mem_univ, if_true]
  rw [Matrix.one_apply]
  exact if_congr hσ.eq_iff rfl rfl

theorem sortPerm_conj {m : ℕ} (σ : Fin m → Fin m) (T : RMat m) (x y : Fin m) :
    ((Matrix.of fun x y => (open Classical in if x = σ y then (1 : ℝ) else 0) : RMat m)ᵀ * T *
      (Matrix.of fun x y => (open Classical in if x = σ y then (1 : ℝ) else 0))) x y = T (σ x) (σ y) := by
  classical
  rw [mul_apply]
  simp only [mul_apply, transpose_apply, of_apply, ite_mul, one_mul, zero_mul, mul_ite, mul_one, mul_zero,
    Finset.sum_ite_eq', Finset.mem_univ, if_true]

end FF
