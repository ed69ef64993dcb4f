import Verif.Proofs.MachineOps

/-! # Lemmas for C145: `build_op` with complex floats -/

namespace FF

open Matrix Finset

variable {n : ℕ}

/-! ## which entries of the operators vanish -/

/-- The site an alpha acts on. -/
def alSite (a : Fin (n + n)) : Fin n := Fin.addCases id id a

/-- The occupation an alpha leaves behind. -/
def alBit (a : Fin (n + n)) : Fin 2 := Fin.addCases (fun _ => 1) (fun _ => 0) a

theorem al_ext {a b : Fin (n + n)} (h1 : alSite a = alSite b) (h2 : alBit a = alBit b) : a = b := by
  induction a using Fin.addCases with
  | left i =>
    induction b using Fin.addCases with
    | left j => simp [alSite] at h1; rw [h1]
    | right j => rw [alBit, alBit, Fin.addCases_left, Fin.addCases_right] at h2; exact absurd h2 (by decide)
  | right i =>
    induction b using Fin.addCases with
    | left j => rw [alBit, alBit, Fin.addCases_left, Fin.addCases_right] at h2; exact absurd h2 (by decide)
    | right j => rw [alSite, alSite, Fin.addCases_right, Fin.addCases_right] at h1; exact congrArg _ h1

theorem alSite_fl (a : Fin (n + n)) : alSite (fl a) = alSite a := by
  induction a using Fin.addCases with
  | left i => rw [fl_left, alSite, alSite, Fin.addCases_left, Fin.addCases_right]
  | right i => rw [fl_right, alSite, alSite, Fin.addCases_left, Fin.addCases_right]

theorem alBit_fl (a : Fin (n + n)) : alBit (fl a) ≠ alBit a := by
  induction a using Fin.addCases with
  | left i => rw [fl_left, alBit, alBit, Fin.addCases_left, Fin.addCases_right]; decide
  | right i => rw [fl_right, alBit, alBit, Fin.addCases_left, Fin.addCases_right]; decide

theorem lower_support {i : Fin n} {x y : Fin (2 ^ n)} (h : jwLower n i x y ≠ 0) :
    (∀ k, k ≠ i → Spec.digit 2 n x k = Spec.digit 2 n y k) ∧ Spec.digit 2 n x i = 0 ∧ Spec.digit 2 n y i = 1 := by
  rw [jwLower, kronAll_apply, prod_ne_zero_iff] at h
  constructor
  · intro k hk
    have h1 := h k (mem_univ k)
    have hk' : (k : ℕ) ≠ i := fun e => hk (Fin.ext e)
    rw [if_neg hk'] at h1
    revert h1
    generalize Spec.digit 2 n x k = u
    generalize Spec.digit 2 n y k = v
    intro h1
    by_contra hne
    apply h1
    split_ifs
    · revert hne; fin_cases u <;> fin_cases v <;> simp [sigmaZ]
    · exact one_apply_ne hne
  · have h1 := h i (mem_univ i)
    rw [if_neg (lt_irrefl _), if_pos rfl, sMinus_eq] at h1
    revert h1
    generalize Spec.digit 2 n x i = u
    generalize Spec.digit 2 n y i = v
    fin_cases u <;> fin_cases v <;> simp

theorem al_support {a : Fin (n + n)} {x y : Fin (2 ^ n)} (h : al n a x y ≠ 0) :
    (∀ k, k ≠ alSite a → Spec.digit 2 n x k = Spec.digit 2 n y k) ∧ Spec.digit 2 n x (alSite a) = alBit a ∧
      Spec.digit 2 n y (alSite a) ≠ alBit a := by
  induction a using Fin.addCases with
  | left i =>
    rw [al_left, conjTranspose_apply, star_ne_zero] at h
    obtain ⟨h1, h2, h3⟩ := lower_support h
    rw [alSite, alBit, Fin.addCases_left, Fin.addCases_left]
    exact ⟨fun k hk => (h1 k hk).symm, h3, by rw [id, h2]; decide⟩
  | right i =>
    rw [al_right] at h
    obtain ⟨h1, h2, h3⟩ := lower_support h
    rw [alSite, alBit, Fin.addCases_right, Fin.addCases_right]
    exact ⟨h1, h2, by rw [id, h3]; decide⟩

theorem fin2_eq {p q r : Fin 2} (h1 : p ≠ r) (h2 : q ≠ r) : p = q := by omega

/-- An off-diagonal entry of a product of two alphas. -/
theorem alPair_support {a b : Fin (n + n)} {x y : Fin (2 ^ n)} (hxy : x ≠ y) (h : (al n a * al n b) x y ≠ 0) :
    alSite a ≠ alSite b ∧ (∀ k, k ≠ alSite a → k ≠ alSite b → Spec.digit 2 n x k = Spec.digit 2 n y k) ∧
      (Spec.digit 2 n x (alSite a) = alBit a ∧ Spec.digit 2 n y (alSite a) ≠ alBit a) ∧
      (Spec.digit 2 n x (alSite b) = alBit b ∧ Spec.digit 2 n y (alSite b) ≠ alBit b) := by
  rw [mul_apply] at h
  obtain ⟨z, -, hz⟩ := exists_ne_zero_of_sum_ne_zero h
  obtain ⟨ha, hb⟩ := mul_ne_zero_iff.1 hz
  obtain ⟨a1, a2, a3⟩ := al_support ha
  obtain ⟨b1, b2, b3⟩ := al_support hb
  have hs : alSite a ≠ alSite b := by
    intro hs
    apply hxy
    apply Fin.ext
    apply digit_inj x.2 y.2
    funext k
    by_cases hk : k = alSite a
    · subst hk
      rw [a2]
      rw [hs] at a3 ⊢
      rw [b2] at a3
      exact fin2_eq (Ne.symm a3) b3
    · rw [a1 k hk, b1 k (by rw [← hs]; exact hk)]
  refine ⟨hs, fun k h1 h2 => by rw [a1 k h1, b1 k h2], ⟨a2, ?_⟩, ?_, b3⟩
  · rwa [← b1 _ hs]
  · rw [a1 _ hs.symm, b2]

theorem alPair_unique {a b c e : Fin (n + n)} {x y : Fin (2 ^ n)} (hxy : x ≠ y) (h : (al n a * al n b) x y ≠ 0)
    (h' : (al n c * al n e) x y ≠ 0) : (c = a ∧ e = b) ∨ (c = b ∧ e = a) := by
  obtain ⟨p1, p2, ⟨p3, p4⟩, p5, p6⟩ := alPair_support hxy h
  obtain ⟨q1, q2, ⟨q3, q4⟩, q5, q6⟩ := alPair_support hxy h'
  have hc : alSite c = alSite a ∨ alSite c = alSite b := by
    by_contra hn
    rw [not_or] at hn
    exact q4 (by rw [← p2 _ hn.1 hn.2, q3])
  have he : alSite e = alSite a ∨ alSite e = alSite b := by
    by_contra hn
    rw [not_or] at hn
    exact q6 (by rw [← p2 _ hn.1 hn.2, q5])
  rcases hc with hc | hc <;> rcases he with he | he
  · exact absurd (hc.trans he.symm) q1
  · exact .inl ⟨al_ext hc (by rw [← q3, hc, p3]), al_ext he (by rw [← q5, he, p5])⟩
  · exact .inr ⟨al_ext hc (by rw [← q3, hc, p5]), al_ext he (by rw [← q5, he, p3])⟩
  · exact absurd (hc.trans he.symm) q1

/-- A diagonal entry. -/
theorem alPair_diag {a b : Fin (n + n)} {x : Fin (2 ^ n)} (h : (al n a * al n b) x x ≠ 0) : a = fl b ∧ Spec.digit 2 n x (alSite b) ≠ alBit b := by
  rw [mul_apply] at h
  obtain ⟨z, -, hz⟩ := exists_ne_zero_of_sum_ne_zero h
  obtain ⟨ha, hb⟩ := mul_ne_zero_iff.1 hz
  obtain ⟨a1, a2, a3⟩ := al_support ha
  obtain ⟨b1, b2, b3⟩ := al_support hb
  have hs : alSite a = alSite b := by
    by_contra hs
    exact b3 (by rw [a1 _ (Ne.symm hs), b2])
  refine ⟨al_ext (by rw [alSite_fl, hs]) ?_, b3⟩
  rw [← a2, hs]
  exact fin2_eq b3 (alBit_fl b)

theorem quat_lower (i : Fin n) (x y : Fin (2 ^ n)) : Quat (jwLower n i x y) := by
  rw [jwLower]
  exact (kronAllF_eq _ (quat_sites i)).2 x y

theorem quat_al (a : Fin (n + n)) (x y : Fin (2 ^ n)) : Quat (al n a x y) := by
  induction a using Fin.addCases with
  | left i =>
    rw [al_left, conjTranspose_apply]
    rcases quat_lower i y x with h | h | h | h | h <;> rw [h] <;> simp [Quat]
  | right i => rw [al_right]; exact quat_lower i x y

/-- The entry is 0, 1 or -1. -/
def Tern (z : ℂ) : Prop := z = 0 ∨ z = 1 ∨ z = -1

theorem tern_al (a : Fin (n + n)) (x y : Fin (2 ^ n)) : Tern (al n a x y) := by
  have := al_real a x y
  rcases quat_al a x y with h | h | h | h | h <;> rw [h] at this ⊢ <;> simp [Tern] at this ⊢

theorem tern_mul {z w : ℂ} (hz : Tern z) (hw : Tern w) : Tern (z * w) := by
  rcases hz with rfl | rfl | rfl <;> rcases hw with rfl | rfl | rfl <;> simp [Tern]

theorem tern_pair (a b : Fin (n + n)) (x y : Fin (2 ^ n)) : Tern ((al n a * al n b) x y) := by
  rw [mul_apply]
  by_cases h : ∃ z, al n b z y ≠ 0
  · obtain ⟨z, hz⟩ := h
    rw [sum_eq_single z]
    · exact tern_mul (tern_al _ _ _) (tern_al _ _ _)
    · intro w _ hw
      by_cases h0 : al n b w y = 0
      · rw [h0, mul_zero]
      · exfalso
        obtain ⟨a1, a2, -⟩ := al_support hz
        obtain ⟨b1, b2, -⟩ := al_support h0
        apply hw
        apply Fin.ext
        apply digit_inj w.2 z.2
        funext k
        by_cases hk : k = alSite b
        · rw [hk, a2, b2]
        · rw [a1 k hk, b1 k hk]
    · intro h; exact absurd (mem_univ z) h
  · push Not at h
    rw [sum_eq_zero fun z _ => by rw [h z, mul_zero]]
    exact .inl rfl

theorem tern_gint {z : ℂ} (h : Tern z) : GInt z := by
  rcases h with rfl | rfl | rfl
  · exact ⟨⟨0, by simp⟩, 0, by simp⟩
  · exact ⟨⟨1, by simp⟩, 0, by simp⟩
  · exact ⟨⟨-1, by simp⟩, 0, by simp⟩

theorem tern_abs {z : ℂ} (h : Tern z) : |z.re| + |z.im| = ‖z‖ ∧ ‖z‖ ≤ 1 := by
  rcases h with rfl | rfl | rfl <;> simp

/-- Products of two alphas are exact. -/
theorem matmulF_al {p : MatmulPlan (2 ^ n)} (hp : Spec.IsPlan p) (a b : Fin (n + n)) : matmulF p (al n a) (al n b) = al n a * al n b := by
  refine matmulF_exact hp (fun i j => tern_gint (tern_al _ _ _)) (fun i j => tern_gint (tern_al _ _ _)) fun i j => ?_
  have h1 : ∑ k, (|(al n a i k).re| + |(al n a i k).im|) * (|(al n b k j).re| + |(al n b k j).im|) ≤ ∑ k, ‖al n a i k‖ :=
    sum_le_sum fun k _ => by
      rw [(tern_abs (tern_al a i k)).1, (tern_abs (tern_al b k j)).1]
      exact mul_le_of_le_one_right (norm_nonneg _) (tern_abs (tern_al b k j)).2
  exact h1.trans ((al_rows a i).trans (by norm_num))

theorem mulC_tern {z w : ℂ} (hz : Spec.IsFloat z) (hw : Tern w) : mulC z w = z * w ∧ Spec.IsFloat (z * w) := by
  have h1 := rnd_float hz.1
  have h2 := rnd_float hz.2
  rcases hw with rfl | rfl | rfl
  · exact ⟨by apply Complex.ext <;> simp [mulC, rnd_zero], by rw [mul_zero]; exact isFloat_zero⟩
  · exact ⟨by apply Complex.ext <;> simp [mulC, rnd_zero, h1, h2], by rwa [mul_one]⟩
  · refine ⟨by apply Complex.ext <;> simp [mulC, rnd_zero, rnd_odd, h1, h2], ?_⟩
    obtain ⟨⟨a, e, ha, hr⟩, b, f, hb, hi⟩ := hz
    exact ⟨⟨-a, e, by rwa [abs_neg], by simp [hr]⟩, -b, f, by rwa [abs_neg], by simp [hi]⟩

/-! ## the loop -/

/-- The computed sum of the numbers `T`, in the order of the list. -/
noncomputable def sumF {ι : Type} (T : ι → ℂ) (l : List ι) (s : ℂ) : ℂ := l.foldl (fun s p => addC s (T p)) s

theorem isFloat_sumF {ι : Type} (T : ι → ℂ) (l : List ι) {s : ℂ} (hs : Spec.IsFloat s) : Spec.IsFloat (sumF T l s) := by
  induction l generalizing s with
  | nil => exact hs
  | cons a l ih => exact ih (s := addC s (T a)) (isFloat_rndC (s + T a))

theorem sumF_filter {ι : Type} (T : ι → ℂ) (P : ι → Bool) (l : List ι) (hP : ∀ i ∈ l, P i = false → T i = 0) {s : ℂ} (hs : Spec.IsFloat s) :
    sumF T l s = sumF T (l.filter P) s := by
  induction l generalizing s with
  | nil => rfl
  | cons a l ih =>
    have hl := fun i hi => hP i (List.mem_cons_of_mem a hi)
    by_cases h : P a
    · rw [List.filter_cons_of_pos h]
      exact ih hl (s := addC s (T a)) (isFloat_rndC (s + T a))
    · rw [List.filter_cons_of_neg h, ← ih hl hs]
      have : addC s (T a) = s := by
        rw [hP a List.mem_cons_self (by simpa using h), addC_eq, add_zero, rndC_float hs]
      rw [sumF, List.foldl_cons, this]
      rfl

/-- At most two numbers: the result is correctly rounded. -/
theorem sumF_two {ι : Type} (T : ι → ℂ) (l : List ι) (hl : l.length ≤ 2) (hT : ∀ i ∈ l, Spec.IsFloat (T i)) :
    sumF T l 0 = rndC (l.map T).sum := by
  match l, hl with
  | [], _ => simp [sumF, rndC, rnd_zero]; rfl
  | [a], _ => simp [sumF, addC_eq]
  | [a, b], _ =>
    simp only [sumF, List.foldl_cons, List.foldl_nil, addC_eq, zero_add, List.map_cons, List.map_nil, List.sum_cons, List.sum_nil, add_zero]
    rw [rndC_float (hT a (by simp))]

theorem sumF_near {ι : Type} (T : ι → ℂ) (l : List ι) :
    |(sumF T l 0).re - (l.map fun i => (T i).re).sum| ≤ ((1 + ulp) ^ l.length - 1) * (l.map fun i => |(T i).re|).sum ∧
      |(sumF T l 0).im - (l.map fun i => (T i).im).sum| ≤ ((1 + ulp) ^ l.length - 1) * (l.map fun i => |(T i).im|).sum := by
  have e : ∀ s, sumF T l s = ⟨(l.map fun i => (T i).re).foldl float64.add s.re, (l.map fun i => (T i).im).foldl float64.add s.im⟩ := by
    induction l with
    | nil => intro s; rfl
    | cons a l ih => intro s; rw [sumF, List.foldl_cons]; exact ih _
  have key : ∀ f : ι → ℝ, |(l.map f).foldl float64.add 0 - (l.map f).sum| ≤ ((1 + ulp) ^ l.length - 1) * (l.map fun j => |f j|).sum := fun f => by
    have := (sumOn_near l f f (fun j => |f j|) 1 le_rfl fun a _ => near_one _).err
    have e : float64.ofInt 0 = 0 := by simp [float64, rnd_zero]
    rw [mul_one, sumOn, e] at this
    exact this
  rw [e]
  exact ⟨key _, key _⟩

/-- All pairs of indices in the order of the loops. -/
def pairs (N : ℕ) : List (Fin N × Fin N) := (List.finRange N).flatMap fun i => (List.finRange N).map fun j => (i, j)

theorem pairs_nodup (N : ℕ) : (pairs N).Nodup := (List.nodup_finRange N).product (List.nodup_finRange N)

theorem mem_pairs {N : ℕ} (p : Fin N × Fin N) : p ∈ pairs N := by simp [pairs]

theorem pairs_sum {N : ℕ} {M : Type} [AddCommMonoid M] (f : Fin N × Fin N → M) : ((pairs N).map f).sum = ∑ i, ∑ j, f (i, j) := by
  classical
  rw [← List.sum_toFinset f (pairs_nodup N), ← Fintype.sum_prod_type]
  congr 1
  ext p
  simp [mem_pairs]

theorem foldlM_range_fin {β : Type} {M N : ℕ} (hM : M = N) {F : β → ℕ → Except PyErr β} {G : β → Fin N → β}
    (h : ∀ (i : Fin N) b, F b i = .ok (G b i)) (b : β) : (List.range M).foldlM F b = .ok ((List.finRange N).foldl G b) := by
  subst hM
  have e : List.range M = (List.finRange M).map Fin.val := by simp
  rw [e, List.foldlM_map]
  generalize List.finRange M = l
  induction l generalizing b with
  | nil => rfl
  | cons a l ih => rw [List.foldlM_cons, h]; exact ih _

theorem foldl_pairs {β : Type} {N : ℕ} (G : β → Fin N × Fin N → β) (b : β) :
    (pairs N).foldl G b = (List.finRange N).foldl (fun b i => (List.finRange N).foldl (fun b j => G b (i, j)) b) b := by
  rw [pairs, List.foldl_flatMap]
  congr 1
  funext b i
  rw [List.foldl_map]

theorem foldl_entry {ι : Type} {d : ℕ} (F : ι → Op d) (l : List ι) (A : Op d) (x y : Fin d) :
    (l.foldl (fun (A : Op d) p => of fun x y => addC (A x y) (F p x y)) A) x y = sumF (fun p => F p x y) l (A x y) := by
  induction l generalizing A with
  | nil => rfl
  | cons a l ih => rw [List.foldl_cons, ih]; rfl

/-- The left factor of a product in `build_op`. -/
def leftIdx (direct : Bool) (i : Fin (n + n)) : Fin (n + n) := if direct then i else fl i

theorem leftIdx_al (direct : Bool) (i : Fin (n + n)) : al n (leftIdx direct i) = if direct then al n i else (al n i)ᴴ := by
  cases direct
  · simp [leftIdx, al_conjTranspose]
  · simp [leftIdx]

theorem leftIdx_inj {direct : Bool} {i j : Fin (n + n)} (h : leftIdx direct i = leftIdx direct j) : i = j := by
  cases direct
  · have := congrArg fl h
    simpa [leftIdx] using this
  · simpa [leftIdx] using h

/-- The number added to the entry `x, y` in step `p`. -/
noncomputable def stepT (R : Op (n + n)) (direct : Bool) (x y : Fin (2 ^ n)) (p : Fin (n + n) × Fin (n + n)) : ℂ :=
  Spec.dropSmall 1e-10 R p.1 p.2 * (al n (leftIdx direct p.1) * al n p.2) x y

/-- Every entry of the result of `build_op` is the computed sum of exact products. -/
theorem buildOpF_eq {plan : ℕ → ℕ → MatmulPlan (2 ^ n)} (hp : ∀ i j, Spec.IsPlan (plan i j)) (hn : 1 ≤ n) (R : Op (n + n))
    (hR : ∀ i j, Spec.IsFloat (R i j)) (direct : Bool) :
    buildOpF plan n R (jordanWignerAlphas n) direct = .ok (of fun x y => sumF (stepT R direct x y) (pairs (n + n)) 0) := by
  classical
  rw [jordanWignerAlphas_eq, buildOpF, listGet_ofFn (al n) 0 (by omega)]
  change (List.range (2 * n)).foldlM _ _ = _
  set P : Fin (n + n) × Fin (n + n) → Bool := fun p => decide (¬ ‖R p.1 p.2‖ < 1e-10) with hP
  set G : Op (2 ^ n) → Fin (n + n) × Fin (n + n) → Op (2 ^ n) := fun acc p => if P p then
    of fun x y => addC (acc x y) (R p.1 p.2 * (al n (leftIdx direct p.1) * al n p.2) x y) else acc with hG
  rw [foldlM_range_fin (two_mul n) (G := fun b i => (List.finRange (n + n)).foldl (fun b j => G b (i, j)) b)]
  · rw [← foldl_pairs G]
    congr 1
    ext x y
    have h1 : ∀ (l : List (Fin (n + n) × Fin (n + n))) (A : Op (2 ^ n)), l.foldl G A = (l.filter P).foldl (fun (A : Op (2 ^ n)) p => of fun x y =>
        addC (A x y) (R p.1 p.2 * (al n (leftIdx direct p.1) * al n p.2) x y)) A := by
      intro l
      induction l with
      | nil => intro A; rfl
      | cons a l ih =>
        intro A
        by_cases h : P a
        · rw [List.filter_cons_of_pos h, List.foldl_cons, List.foldl_cons, ih]
          simp only [hG, h, if_true]
        · rw [List.filter_cons_of_neg h, List.foldl_cons, ih]
          simp only [hG, h, if_false]
          rfl
    rw [h1]
    refine (foldl_entry (fun p : Fin (n + n) × Fin (n + n) => (of fun x y => R p.1 p.2 * (al n (leftIdx direct p.1) * al n p.2) x y : Op (2 ^ n)))
      _ 0 x y).trans ?_
    rw [of_apply]
    rw [sumF_filter (stepT R direct x y) P (pairs (n + n)) (fun p _ h => ?_) isFloat_zero]
    · rw [sumF, sumF]
      refine List.foldl_ext _ _ _ fun s p hp => ?_
      have hp' : ¬ ‖R p.1 p.2‖ < 1e-10 := by simpa [hP] using (List.mem_filter.1 hp).2
      rw [stepT, Spec.dropSmall, of_apply, of_apply, if_neg hp']
    · have hp' : ‖R p.1 p.2‖ < 1e-10 := by simpa [hP] using h
      rw [stepT, Spec.dropSmall, of_apply, if_pos hp', zero_mul]
  · intro i b
    rw [foldlM_range_fin (two_mul n) (G := fun b j => G b (i, j))]
    intro j b
    rw [get2_lt R i.2 j.2, listGet_ofFn (al n) i i.2, listGet_ofFn (al n) j j.2]
    have hm : (if direct then matmulF (plan i j) (al n i) (al n j) else matmulF (plan i j) (al n i)ᴴ (al n j)) =
        al n (leftIdx direct i) * al n j := by
      rw [leftIdx_al]
      cases direct
      · simp only [Bool.false_eq_true, if_false]
        rw [al_conjTranspose, matmulF_al (hp _ _)]
      · simp only [if_true]
        rw [matmulF_al (hp _ _)]
    have hf : ∀ x y, mulC (R i j) ((al n (leftIdx direct i) * al n j) x y) = R i j * (al n (leftIdx direct i) * al n j) x y := fun x y =>
      (mulC_tern (hR i j) (tern_pair _ _ _ _)).1
    change (if ‖R i j‖ < 1e-10 then (pure b : Except PyErr (Op (2 ^ n))) else pure (of fun x y => addC (b x y) (mulC (R i j)
      ((if direct then matmulF (plan i j) (al n i) (al n j) else matmulF (plan i j) (al n i)ᴴ (al n j)) x y)))) = _
    rw [hm]
    simp only [hf, hG, hP]
    by_cases h : ‖R i j‖ < 1e-10
    · simp [h]; rfl
    · simp [h]; rfl

theorem isFloat_drop {R : Op (n + n)} (hR : ∀ i j, Spec.IsFloat (R i j)) (i j : Fin (n + n)) : Spec.IsFloat (Spec.dropSmall 1e-10 R i j) := by
  rw [Spec.dropSmall, of_apply]
  split_ifs
  · exact isFloat_zero
  · exact hR i j

theorem isFloat_step {R : Op (n + n)} (hR : ∀ i j, Spec.IsFloat (R i j)) (direct : Bool) (x y : Fin (2 ^ n)) (p : Fin (n + n) × Fin (n + n)) :
    Spec.IsFloat (stepT R direct x y p) := (mulC_tern (isFloat_drop hR _ _) (tern_pair _ _ _ _)).2

theorem step_sum {R : Op (n + n)} (direct : Bool) (x y : Fin (2 ^ n)) :
    ((pairs (n + n)).map (stepT R direct x y)).sum =
      (if direct then Spec.quadDirect (Spec.dropSmall 1e-10 R) (al n) else Spec.quad (Spec.dropSmall 1e-10 R) (al n)) x y := by
  rw [pairs_sum]
  cases direct
  · simp only [Bool.false_eq_true, if_false, Spec.quad]
    rw [Matrix.sum_apply]
    refine sum_congr rfl fun i _ => ?_
    rw [Matrix.sum_apply]
    refine sum_congr rfl fun j _ => ?_
    rw [stepT, leftIdx_al, Matrix.smul_apply, smul_eq_mul]
    rfl
  · simp only [if_true, Spec.quadDirect]
    rw [Matrix.sum_apply]
    refine sum_congr rfl fun i _ => ?_
    rw [Matrix.sum_apply]
    refine sum_congr rfl fun j _ => ?_
    rw [stepT, leftIdx_al, Matrix.smul_apply, smul_eq_mul]
    rfl

theorem list_sum_filter {ι M : Type} [AddCommMonoid M] (f : ι → M) (P : ι → Bool) (l : List ι) (h : ∀ i ∈ l, P i = false → f i = 0) :
    (l.map f).sum = ((l.filter P).map f).sum := by
  induction l with
  | nil => rfl
  | cons a l ih =>
    have hl := ih fun i hi => h i (List.mem_cons_of_mem a hi)
    by_cases hp : P a
    · rw [List.filter_cons_of_pos hp, List.map_cons, List.map_cons, List.sum_cons, List.sum_cons, hl]
    · rw [List.filter_cons_of_neg hp, List.map_cons, List.sum_cons, hl, h a List.mem_cons_self (by simpa using hp), zero_add]

theorem length_le_two {ι : Type} {l : List ι} (hl : l.Nodup) {a b : ι} (h : ∀ c ∈ l, c = a ∨ c = b) : l.length ≤ 2 := by
  classical
  rw [← List.toFinset_card_of_nodup hl]
  refine (card_le_card (t := {a, b}) fun c hc => ?_).trans card_le_two
  simpa using h c (List.mem_toFinset.1 hc)

/-- Off the diagonal the computed entry is the exact one, correctly rounded. -/
theorem step_offdiag {R : Op (n + n)} (hR : ∀ i j, Spec.IsFloat (R i j)) (direct : Bool) {x y : Fin (2 ^ n)} (hxy : x ≠ y) :
    sumF (stepT R direct x y) (pairs (n + n)) 0 = rndC ((pairs (n + n)).map (stepT R direct x y)).sum := by
  classical
  set P : Fin (n + n) × Fin (n + n) → Bool := fun p => decide (stepT R direct x y p ≠ 0) with hP
  have h0 : ∀ p ∈ pairs (n + n), P p = false → stepT R direct x y p = 0 := fun p _ h => by simpa [hP] using h
  rw [sumF_filter _ P _ h0 isFloat_zero, list_sum_filter _ P _ h0]
  refine sumF_two _ _ ?_ fun p _ => isFloat_step hR direct x y p
  rcases h : (pairs (n + n)).filter P with _ | ⟨p, l⟩
  · simp
  · rw [← h]
    have hne : ∀ q ∈ (pairs (n + n)).filter P, (al n (leftIdx direct q.1) * al n q.2) x y ≠ 0 := fun q hq => by
      have : stepT R direct x y q ≠ 0 := by simpa [hP] using (List.mem_filter.1 hq).2
      exact right_ne_zero_of_mul this
    have hp := hne p (by rw [h]; exact List.mem_cons_self)
    set c : Fin (n + n) × Fin (n + n) := (leftIdx direct p.2, leftIdx direct p.1) with hc
    refine length_le_two ((pairs_nodup _).filter _) (a := p) (b := c) fun q hq => ?_
    rcases alPair_unique hxy hp (hne q hq) with ⟨h1, h2⟩ | ⟨h1, h2⟩
    · exact .inl (Prod.ext (leftIdx_inj h1) h2)
    · refine .inr (Prod.ext (leftIdx_inj (direct := direct) ?_) h2)
      rw [h1, hc]
      cases direct <;> simp [leftIdx]

theorem diag_length {R : Op (n + n)} (direct : Bool) (x : Fin (2 ^ n)) (l : List (Fin (n + n) × Fin (n + n))) (hl : l.Nodup)
    (h : ∀ p ∈ l, stepT R direct x x p ≠ 0) : l.length ≤ n := by
  classical
  have hd : ∀ p ∈ l, leftIdx direct p.1 = fl p.2 ∧ Spec.digit 2 n x (alSite p.2) ≠ alBit p.2 := fun p hp => alPair_diag (right_ne_zero_of_mul (h p hp))
  have : (l.map fun p => alSite p.2).Nodup := by
    refine hl.map_on fun p hp q hq hpq => ?_
    obtain ⟨p1, p2⟩ := hd p hp
    obtain ⟨q1, q2⟩ := hd q hq
    have e : p.2 = q.2 := al_ext hpq (by rw [hpq] at p2; exact fin2_eq (Ne.symm p2) (Ne.symm q2))
    exact Prod.ext (leftIdx_inj (direct := direct) (by rw [p1, q1, e])) e
  have := List.Nodup.length_le_card this
  simpa using this

/-- The row paired with the column `j` on the diagonal. -/
def partner (direct : Bool) (j : Fin (n + n)) : Fin (n + n) := if direct then fl j else j

theorem diag_partner {direct : Bool} {x : Fin (2 ^ n)} {i j : Fin (n + n)} (h : (al n (leftIdx direct i) * al n j) x x ≠ 0) : i = partner direct j := by
  have h1 := (alPair_diag h).1
  cases direct
  · exact leftIdx_inj (direct := false) (by rw [h1]; rfl)
  · exact leftIdx_inj (direct := true) (by rw [h1]; rfl)

theorem drop_part {R : Op (n + n)} (i j : Fin (n + n)) : |(Spec.dropSmall 1e-10 R i j).re| ≤ |(R i j).re| ∧
    |(Spec.dropSmall 1e-10 R i j).im| ≤ |(R i j).im| := by
  rw [Spec.dropSmall, of_apply]
  split_ifs <;> simp

theorem tern_part {z w : ℂ} (hw : Tern w) : |(z * w).re| ≤ |z.re| ∧ |(z * w).im| ≤ |z.im| := by
  rcases hw with rfl | rfl | rfl <;> simp

theorem step_part {R : Op (n + n)} (direct : Bool) (x y : Fin (2 ^ n)) (p : Fin (n + n) × Fin (n + n)) :
    |(stepT R direct x y p).re| ≤ |(R p.1 p.2).re| ∧ |(stepT R direct x y p).im| ≤ |(R p.1 p.2).im| := by
  obtain ⟨h1, h2⟩ := tern_part (z := Spec.dropSmall 1e-10 R p.1 p.2) (tern_pair (leftIdx direct p.1) p.2 x y)
  obtain ⟨h3, h4⟩ := drop_part (R := R) p.1 p.2
  exact ⟨h1.trans h3, h2.trans h4⟩

theorem diag_total {R : Op (n + n)} (direct : Bool) (x : Fin (2 ^ n)) (f : ℂ → ℝ) (f0 : f 0 = 0) (hf : ∀ z, 0 ≤ f z)
    (hle : ∀ p, f (stepT R direct x x p) ≤ f (R p.1 p.2)) :
    ((pairs (n + n)).map fun p => f (stepT R direct x x p)).sum ≤ ∑ j, f (R (partner direct j) j) := by
  rw [pairs_sum, sum_comm]
  refine sum_le_sum fun j _ => ?_
  rw [sum_eq_single (partner direct j)]
  · exact hle (partner direct j, j)
  · intro i _ hi
    have : (al n (leftIdx direct i) * al n j) x x = 0 := by
      by_contra h
      exact hi (diag_partner h)
    rw [stepT, this, mul_zero, f0]
  · intro h; exact absurd (mem_univ _) h

theorem map_sum_re {ι : Type} (T : ι → ℂ) (l : List ι) : (l.map fun i => (T i).re).sum = (l.map T).sum.re ∧
    (l.map fun i => (T i).im).sum = (l.map T).sum.im := by
  induction l with
  | nil => simp
  | cons a l ih => simp [ih.1, ih.2]

theorem step_diag {R : Op (n + n)} (direct : Bool) (x : Fin (2 ^ n)) :
    |(sumF (stepT R direct x x) (pairs (n + n)) 0).re - ((pairs (n + n)).map (stepT R direct x x)).sum.re| ≤
        ((1 + ulp) ^ n - 1) * ∑ j, |(R (partner direct j) j).re| ∧
      |(sumF (stepT R direct x x) (pairs (n + n)) 0).im - ((pairs (n + n)).map (stepT R direct x x)).sum.im| ≤
        ((1 + ulp) ^ n - 1) * ∑ j, |(R (partner direct j) j).im| := by
  classical
  set P : Fin (n + n) × Fin (n + n) → Bool := fun p => decide (stepT R direct x x p ≠ 0) with hP
  have h0 : ∀ p ∈ pairs (n + n), P p = false → stepT R direct x x p = 0 := fun p _ h => by simpa [hP] using h
  obtain ⟨h1, h2⟩ := sumF_near (stepT R direct x x) ((pairs (n + n)).filter P)
  have hlen : ((pairs (n + n)).filter P).length ≤ n := diag_length direct x _ ((pairs_nodup _).filter _) fun p hp => by
    simpa [hP] using (List.mem_filter.1 hp).2
  have hpow : (1 + ulp) ^ ((pairs (n + n)).filter P).length - 1 ≤ (1 + ulp) ^ n - 1 :=
    sub_le_sub_right (pow_le_pow_right₀ (by linarith [ulp_pos]) hlen) 1
  have hpos : 0 ≤ (1 + ulp) ^ n - 1 := sub_nonneg.2 (one_le_pow₀ (by linarith [ulp_pos]))
  rw [sumF_filter _ P _ h0 isFloat_zero, list_sum_filter _ P _ h0]
  rw [(map_sum_re _ _).1] at h1
  rw [(map_sum_re _ _).2] at h2
  rw [← list_sum_filter (fun i => |(stepT R direct x x i).re|) P _ fun p hp h => by rw [h0 p hp h]; simp] at h1
  rw [← list_sum_filter (fun i => |(stepT R direct x x i).im|) P _ fun p hp h => by rw [h0 p hp h]; simp] at h2
  have n1 : 0 ≤ ((pairs (n + n)).map fun i => |(stepT R direct x x i).re|).sum := by
    rw [pairs_sum]; exact sum_nonneg fun i _ => sum_nonneg fun j _ => abs_nonneg _
  have n2 : 0 ≤ ((pairs (n + n)).map fun i => |(stepT R direct x x i).im|).sum := by
    rw [pairs_sum]; exact sum_nonneg fun i _ => sum_nonneg fun j _ => abs_nonneg _
  exact ⟨h1.trans (mul_le_mul hpow (diag_total direct x (fun z => |z.re|) (by simp) (fun z => abs_nonneg _) fun p => (step_part direct x x p).1) n1 hpos),
    h2.trans (mul_le_mul hpow (diag_total direct x (fun z => |z.im|) (by simp) (fun z => abs_nonneg _) fun p => (step_part direct x x p).2) n2 hpos)⟩

/-- Sums of integers are exact. -/
theorem sumF_int {ι : Type} (T : ι → ℂ) (l : List ι) (hT : ∀ i ∈ l, GInt (T i)) {s : ℂ} (hs : GInt s)
    (hre : |s.re| + (l.map fun i => |(T i).re|).sum ≤ 2 ^ 53) (him : |s.im| + (l.map fun i => |(T i).im|).sum ≤ 2 ^ 53) :
    sumF T l s = s + (l.map T).sum := by
  induction l generalizing s with
  | nil => simp [sumF]
  | cons a l ih =>
    have nn : ∀ f : ι → ℝ, 0 ≤ (l.map fun i => |f i|).sum := fun f => List.sum_nonneg (by simp)
    simp only [List.map_cons, List.sum_cons] at hre him ⊢
    have hg : GInt (s + T a) := by
      obtain ⟨⟨m, hm⟩, k, hk⟩ := hs
      obtain ⟨⟨m', hm'⟩, k', hk'⟩ := hT a List.mem_cons_self
      exact ⟨⟨m + m', by simp [hm, hm']⟩, k + k', by simp [hk, hk']⟩
    have b1 : |(s + T a).re| ≤ |s.re| + |(T a).re| := abs_add_le _ _
    have b2 : |(s + T a).im| ≤ |s.im| + |(T a).im| := abs_add_le _ _
    have n1 := nn fun i => (T i).re
    have n2 := nn fun i => (T i).im
    have e : addC s (T a) = s + T a := by
      rw [addC_eq]
      obtain ⟨⟨m, hm⟩, k, hk⟩ := hg
      refine rndC_float ⟨⟨m, 0, ?_, by simpa using hm⟩, k, 0, ?_, by simpa using hk⟩
      · have : |(m : ℝ)| ≤ 2 ^ 53 := by rw [← hm]; linarith
        exact_mod_cast this
      · have : |(k : ℝ)| ≤ 2 ^ 53 := by rw [← hk]; linarith
        exact_mod_cast this
    rw [sumF, List.foldl_cons, e]
    have := ih (fun i hi => hT i (List.mem_cons_of_mem a hi)) hg (by linarith) (by linarith)
    rw [sumF] at this
    rw [this, add_assoc]

theorem gint_float {z : ℂ} (h : GInt z) (h1 : |z.re| ≤ 2 ^ 53) (h2 : |z.im| ≤ 2 ^ 53) : Spec.IsFloat z := by
  obtain ⟨⟨m, hm⟩, k, hk⟩ := h
  refine ⟨⟨m, 0, ?_, by simpa using hm⟩, k, 0, ?_, by simpa using hk⟩
  · rw [hm] at h1; exact_mod_cast h1
  · rw [hk] at h2; exact_mod_cast h2

theorem gint_mul_tern {z w : ℂ} (hz : GInt z) (hw : Tern w) : GInt (z * w) := by
  obtain ⟨⟨m, hm⟩, k, hk⟩ := hz
  rcases hw with rfl | rfl | rfl
  · exact ⟨⟨0, by simp⟩, 0, by simp⟩
  · exact ⟨⟨m, by simp [hm]⟩, k, by simp [hk]⟩
  · exact ⟨⟨-m, by simp [hm]⟩, -k, by simp [hk]⟩

theorem step_int {R : Op (n + n)} (hR : ∀ i j, GInt (R i j)) (hre : ∑ i, ∑ j, |(R i j).re| ≤ 2 ^ 53) (him : ∑ i, ∑ j, |(R i j).im| ≤ 2 ^ 53)
    (direct : Bool) (x y : Fin (2 ^ n)) :
    sumF (stepT R direct x y) (pairs (n + n)) 0 = ((pairs (n + n)).map (stepT R direct x y)).sum := by
  rw [sumF_int (stepT R direct x y) (pairs (n + n)) (fun p _ => ?_) ⟨⟨0, by simp⟩, 0, by simp⟩, zero_add]
  · rw [pairs_sum, Complex.zero_re, abs_zero, zero_add]
    exact (sum_le_sum fun i _ => sum_le_sum fun j _ => (step_part direct x y (i, j)).1).trans hre
  · rw [pairs_sum, Complex.zero_im, abs_zero, zero_add]
    exact (sum_le_sum fun i _ => sum_le_sum fun j _ => (step_part direct x y (i, j)).2).trans him
  · refine gint_mul_tern ?_ (tern_pair _ _ _ _)
    rw [Spec.dropSmall, of_apply]
    split_ifs
    · exact ⟨⟨0, by simp⟩, 0, by simp⟩
    · exact hR _ _

/-! ## the algebra -/

theorem car_float {p q : MatmulPlan (2 ^ n)} (hp : Spec.IsPlan p) (hq : Spec.IsPlan q) (a b : Fin (n + n)) :
    (of fun x y => addC (matmulF p (al n a) (al n b) x y) (matmulF q (al n b) (al n a) x y) : Op (2 ^ n)) =
      al n a * al n b + al n b * al n a := by
  ext x y
  rw [of_apply, matmulF_al hp, matmulF_al hq, addC_eq, ← Matrix.add_apply, al_anticomm, Matrix.smul_apply, smul_eq_mul, swapS_apply, one_apply]
  split_ifs <;> simp [rndC, rnd_zero, rnd_one] <;> rfl

theorem algebraF_eq {plan : ℕ → ℕ → MatmulPlan (2 ^ n)} (hp : ∀ i j, Spec.IsPlan (plan i j)) :
    computeAlgebraSF plan (jordanWignerAlphas n) = computeAlgebraS (jordanWignerAlphas n) := by
  classical
  rw [jordanWignerAlphas_eq, computeAlgebraSF, computeAlgebraS]
  have key : ∀ {k : ℕ} {z : Op (2 ^ n)}, listGet (List.ofFn (al n)) k = .ok z → ∃ a, z = al n a := by
    intro k z h
    by_cases hk : k < n + n
    · rw [listGet_ofFn (al n) k hk] at h
      exact ⟨_, (Except.ok.inj h).symm⟩
    · rw [listGet, List.getElem?_eq_none (by rw [List.length_ofFn]; omega)] at h
      cases h
  have same : ∀ {F G : ℕ → ℕ → Except PyErr ℂ}, (∀ i j, F i j = G i j) → F = G := fun h => funext fun i => funext fun j => h i j
  refine congrArg (fun F : ℕ → ℕ → Except PyErr ℂ => (listGet (List.ofFn (al n)) 0 >>= fun _ =>
    fillArray ((List.ofFn (al n)).length / 2) F >>= fun v => pure ⟨(List.ofFn (al n)).length / 2, v⟩ :
      Except PyErr ((n : ℕ) × Op (n + n)))) (same fun i j => ?_)
  simp only [bind, Except.bind]
  rcases hi : listGet (List.ofFn (al n)) i with e | ai
  · rfl
  · rcases hj : listGet (List.ofFn (al n)) j with e | aj
    · rfl
    · obtain ⟨a, rfl⟩ := key hi
      obtain ⟨b, rfl⟩ := key hj
      simp only [car_float (hp i j) (hp j i)]

theorem quat_pauli (w : Fin 4) (x y : Fin 2) : Quat (Spec.pauli w x y) := by
  fin_cases w <;> fin_cases x <;> fin_cases y <;> simp [Spec.pauli, Quat]

theorem pauliGroupF_eq (n : ℕ) : pauliGroupF n = (List.range (4 ^ n)).map fun k => Spec.pauliString (Spec.digit 4 n k) := by
  rw [pauliGroupF, paulis_eq, productRepeat_eq, List.map_map]
  refine List.map_congr_left fun k _ => ?_
  rw [pauliString_eq]
  refine (kronAllF_eq _ fun i x y => ?_).1
  exact quat_pauli _ x y

theorem buildOp_entries (hn : 1 ≤ n) (R : Op (n + n)) (direct : Bool) :
    buildOp n R (jordanWignerAlphas n) direct = .ok (of fun x y => ((pairs (n + n)).map (stepT R direct x y)).sum) := by
  have e : (of fun x y => ((pairs (n + n)).map (stepT R direct x y)).sum : Op (2 ^ n)) =
      if direct then Spec.quadDirect (Spec.dropSmall 1e-10 R) (al n) else Spec.quad (Spec.dropSmall 1e-10 R) (al n) := by
    ext x y; rw [of_apply, step_sum]
  rw [e, jordanWignerAlphas_eq]
  cases direct
  · exact buildOp_square R (al n) hn
  · exact buildOp_square_direct R (al n) hn

end FF
