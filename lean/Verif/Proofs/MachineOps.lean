import Verif.Spec.MachineOps
import Verif.Proofs.RoundingComplex
import Verif.Proofs.MachineSum
import Verif.Proofs.Reduced

/-! # Lemmas for C145: the operators with complex floats -/

namespace FF

open Matrix Finset

/-! ## rounding -/

theorem rint_odd (x : ℝ) : rint (-x) = -rint x := by
  have h1 := Int.fract_nonneg x
  have h2 := Int.fract_lt_one x
  by_cases h0 : Int.fract x = 0
  · have e : x = ⌊x⌋ := by have := Int.self_sub_floor x; linarith
    rw [e, ← Int.cast_neg, rint_int, rint_int]
  · have hf : Int.fract (-x) = 1 - Int.fract x := Int.fract_neg h0
    have hfl : ⌊-x⌋ = -⌊x⌋ - 1 := by
      have h3 := Int.self_sub_floor x
      have h4 := Int.self_sub_floor (-x)
      have : (⌊-x⌋ : ℝ) = ((-⌊x⌋ - 1 : ℤ) : ℝ) := by push_cast; linarith
      exact_mod_cast this
    unfold rint
    rw [hf, hfl]
    rcases lt_trichotomy (Int.fract x) (1 / 2) with h | h | h
    · rw [if_neg (by linarith), if_pos (by linarith), if_pos h]; ring
    · have hp : Even (-⌊x⌋ - 1) ↔ ¬ Even ⌊x⌋ := by rw [Int.even_sub_one, even_neg]
      simp only [h, show (1 : ℝ) - 1 / 2 = 1 / 2 by norm_num, gt_iff_lt, lt_irrefl, if_false]
      by_cases he : Even ⌊x⌋
      · rw [if_pos he, if_neg (fun h' => hp.1 h' he)]; ring
      · rw [if_neg he, if_pos (hp.2 he)]; ring
    · rw [if_pos (by linarith), if_neg (by linarith), if_pos h]; ring

theorem rnd_odd (x : ℝ) : rnd (-x) = -rnd x := by
  by_cases hx : x = 0
  · simp [hx, rnd_zero]
  · simp only [rnd]
    rw [if_neg hx, if_neg (neg_ne_zero.2 hx), abs_neg, neg_mul, rint_odd]
    push_cast
    ring

theorem rnd_float {x : ℝ} (h : ∃ (a e : ℤ), |a| ≤ 2 ^ 53 ∧ x = a * 2 ^ e) : rnd x = x := by
  obtain ⟨a, e, h1, rfl⟩ := h
  rw [rnd_scale, rnd_int h1]

theorem rint_abs_le {x : ℝ} {N : ℤ} (h : |x| ≤ N) : |rint x| ≤ N := by
  have h1 := rint_near x
  have h2 := abs_sub_abs_le_abs_sub (rint x : ℝ) x
  have : (|rint x| : ℝ) < N + 1 := by linarith
  have : ((|rint x| : ℤ) : ℝ) < ((N + 1 : ℤ) : ℝ) := by push_cast; exact this
  have := Int.cast_lt.1 this
  omega

theorem rnd_isFloat (x : ℝ) : ∃ (a e : ℤ), |a| ≤ 2 ^ 53 ∧ rnd x = a * 2 ^ e := by
  by_cases hx : x = 0
  · exact ⟨0, 0, by norm_num, by simp [hx, rnd_zero]⟩
  · refine ⟨rint (x * 2 ^ (-(Int.log 2 |x| - 52))), Int.log 2 |x| - 52, ?_, by simp only [rnd]; rw [if_neg hx]⟩
    refine rint_abs_le ?_
    have hp := abs_pos.2 hx
    have h : |x| < (2 : ℝ) ^ (Int.log 2 |x| + 1) := by exact_mod_cast Int.lt_zpow_succ_log_self (b := 2) (by norm_num) |x|
    have h2 : (0 : ℝ) < 2 ^ (-(Int.log 2 |x| - 52)) := zpow_pos (by norm_num) _
    rw [abs_mul, abs_of_pos h2]
    refine (mul_le_mul_of_nonneg_right h.le h2.le).trans (le_of_eq ?_)
    rw [← zpow_add₀ (by norm_num), show Int.log 2 |x| + 1 + -(Int.log 2 |x| - 52) = 53 by ring]
    norm_num

theorem rnd_rnd (x : ℝ) : rnd (rnd x) = rnd x := rnd_float (rnd_isFloat x)

theorem isFloat_rndC (z : ℂ) : Spec.IsFloat (rndC z) := ⟨rnd_isFloat _, rnd_isFloat _⟩

theorem rndC_float {z : ℂ} (h : Spec.IsFloat z) : rndC z = z := Complex.ext (rnd_float h.1) (rnd_float h.2)

theorem isFloat_zero : Spec.IsFloat 0 := ⟨⟨0, 0, by norm_num, by simp⟩, 0, 0, by norm_num, by simp⟩

theorem addC_eq (z w : ℂ) : addC z w = rndC (z + w) := rfl

theorem rndC_conj (z : ℂ) : rndC (star z) = star (rndC z) := by
  apply Complex.ext
  · simp [rndC]
  · simp [rndC, rnd_odd]

/-! ## sums of integers -/

theorem tree_int {ι : Type} (t : SumTree ι) (v : ι → ℝ) (hi : ∀ k, ∃ m : ℤ, v k = m) (h : (t.leaves.map fun k => |v k|).sum ≤ 2 ^ 53) :
    t.eval v = (t.leaves.map v).sum := by
  induction t with
  | zero => rfl
  | leaf i => simp [SumTree.eval, SumTree.leaves]
  | node l r ihl ihr =>
    simp only [SumTree.leaves, List.map_append, List.sum_append] at h ⊢
    have hl : 0 ≤ (l.leaves.map fun k => |v k|).sum := List.sum_nonneg (by simp)
    have hr : 0 ≤ (r.leaves.map fun k => |v k|).sum := List.sum_nonneg (by simp)
    rw [SumTree.eval, ihl (by linarith), ihr (by linarith)]
    choose w hw using hi
    have e : ∀ L : List ι, (L.map v).sum = ((L.map w).sum : ℤ) := fun L => by
      induction L with
      | nil => simp
      | cons a L ih => simp [ih, hw]
    have b : ∀ L : List ι, |(L.map v).sum| ≤ (L.map fun k => |v k|).sum := fun L => by
      induction L with
      | nil => simp
      | cons a L ih => simp only [List.map_cons, List.sum_cons]; exact (abs_add_le _ _).trans (by linarith)
    have hb := (abs_add_le (l.leaves.map v).sum (r.leaves.map v).sum).trans (add_le_add (b l.leaves) (b r.leaves))
    rw [e, e, ← Int.cast_add] at hb ⊢
    refine rnd_int ?_
    have : ((|(l.leaves.map w).sum + (r.leaves.map w).sum| : ℤ) : ℝ) ≤ ((2 ^ 53 : ℤ) : ℝ) := by
      push_cast at hb ⊢; linarith
    exact Int.cast_le.1 this

theorem plan_int {d : ℕ} {t : SumTree (Fin d × Bool)} (ht : t.leaves.Nodup ∧ ∀ k, k ∈ t.leaves) (u : Fin d × Bool → ℝ)
    (f : Fin d × Bool → Bool) (hi : ∀ k, ∃ m : ℤ, u k = m) (h : ∑ k, |u k| ≤ 2 ^ 53) :
    t.eval (fun k => if f k then u k else rnd (u k)) = ∑ k, u k := by
  classical
  have hs : ∀ g : Fin d × Bool → ℝ, (t.leaves.map g).sum = ∑ k, g k := fun g => by
    rw [← List.sum_toFinset g ht.1]
    congr 1
    ext k
    simp [ht.2 k]
  have e : (fun k => if f k then u k else rnd (u k)) = u := by
    funext k
    split_ifs
    · rfl
    · obtain ⟨m, hm⟩ := hi k
      have := (single_le_sum (fun k _ => abs_nonneg (u k)) (mem_univ k)).trans h
      rw [hm] at this ⊢
      refine rnd_int ?_
      have : ((|m| : ℤ) : ℝ) ≤ ((2 ^ 53 : ℤ) : ℝ) := by push_cast; linarith
      exact Int.cast_le.1 this
  rw [e, tree_int t u hi (by rw [hs]; exact h), hs]

/-- The number is a Gaussian integer. -/
def GInt (z : ℂ) : Prop := (∃ m : ℤ, z.re = m) ∧ ∃ m : ℤ, z.im = m

/-- Products of arrays of Gaussian integers are exact if the partial sums are below `2^53`. -/
theorem matmulF_exact {d : ℕ} {p : MatmulPlan d} (hp : Spec.IsPlan p) {A B : Op d} (hA : ∀ i j, GInt (A i j)) (hB : ∀ i j, GInt (B i j))
    (h : ∀ i j, ∑ k, (|(A i k).re| + |(A i k).im|) * (|(B k j).re| + |(B k j).im|) ≤ 2 ^ 53) : matmulF p A B = A * B := by
  have hm : ∀ {x y : ℝ}, (∃ m : ℤ, x = m) → (∃ m : ℤ, y = m) → ∃ m : ℤ, x * y = m := by
    rintro x y ⟨a, rfl⟩ ⟨b, rfl⟩; exact ⟨a * b, by push_cast; rfl⟩
  have hn : ∀ {x : ℝ}, (∃ m : ℤ, x = m) → ∃ m : ℤ, -x = m := by
    rintro x ⟨a, rfl⟩; exact ⟨-a, by push_cast; rfl⟩
  have hle : ∀ (i j k : Fin d) , 0 ≤ |(A i k).re| * |(B k j).re| ∧ 0 ≤ |(A i k).im| * |(B k j).im| ∧ 0 ≤ |(A i k).re| * |(B k j).im| ∧
      0 ≤ |(A i k).im| * |(B k j).re| := fun i j k => ⟨by positivity, by positivity, by positivity, by positivity⟩
  ext i j
  simp only [matmulF, of_apply]
  rw [plan_int (hp i j false), plan_int (hp i j true)]
  · rw [Fintype.sum_prod_type, Fintype.sum_prod_type, mul_apply]
    apply Complex.ext
    · rw [Complex.re_sum]
      dsimp only
      refine sum_congr rfl fun k _ => ?_
      simp [Complex.mul_re]
      ring
    · rw [Complex.im_sum]
      dsimp only
      refine sum_congr rfl fun k _ => ?_
      simp [Complex.mul_im]
      ring
  · rintro ⟨k, b⟩
    cases b
    · exact hm (hA i k).1 (hB k j).2
    · exact hm (hA i k).2 (hB k j).1
  · refine le_trans ?_ (h i j)
    rw [Fintype.sum_prod_type]
    refine sum_le_sum fun k _ => ?_
    simp [abs_mul]
    obtain ⟨a, b, c, e⟩ := hle i j k
    nlinarith
  · rintro ⟨k, b⟩
    cases b
    · exact hm (hA i k).1 (hB k j).1
    · exact hn (hm (hA i k).2 (hB k j).2)
  · refine le_trans ?_ (h i j)
    rw [Fintype.sum_prod_type]
    refine sum_le_sum fun k _ => ?_
    simp [abs_mul]
    obtain ⟨a, b, c, e⟩ := hle i j k
    nlinarith

/-! ## Kronecker products -/

/-- 0 or a fourth root of one. -/
def Quat (z : ℂ) : Prop := z = 0 ∨ z = 1 ∨ z = -1 ∨ z = Complex.I ∨ z = -Complex.I

theorem rnd_neg_one : rnd (-1) = -1 := by rw [rnd_odd, rnd_one]

theorem mulC_quat {z w : ℂ} (hz : Quat z) (hw : Quat w) : mulC z w = z * w ∧ Quat (z * w) := by
  constructor
  · rcases hz with rfl | rfl | rfl | rfl | rfl <;> rcases hw with rfl | rfl | rfl | rfl | rfl <;> apply Complex.ext <;>
      simp [mulC, rnd_zero, rnd_one, rnd_neg_one]
  · rcases hz with rfl | rfl | rfl | rfl | rfl <;> rcases hw with rfl | rfl | rfl | rfl | rfl <;> simp [Quat]

theorem kronAllF_eq {n : ℕ} (f : Fin n → Op 2) (hf : ∀ i x y, Quat (f i x y)) : kronAllF n f = kronAll n f ∧ ∀ x y, Quat (kronAll n f x y) := by
  induction n with
  | zero =>
    refine ⟨rfl, fun x y => ?_⟩
    rw [kronAll, one_apply]
    split_ifs <;> simp [Quat]
  | succ n ih =>
    obtain ⟨h1, h2⟩ := ih (f ∘ Fin.castSucc) fun i x y => hf _ x y
    refine ⟨?_, fun x y => (mulC_quat (h2 _ _) (hf _ _ _)).2⟩
    rw [kronAllF, kronAll, h1]
    ext x y
    exact (mulC_quat (h2 _ _) (hf _ _ _)).1

theorem sMinusF_eq : sMinusF = sMinus := by
  have h2 : rnd 2 = 2 := by exact_mod_cast rnd_int (z := 2) (by norm_num)
  have hh : rnd 2⁻¹ = 2⁻¹ := by
    have := rnd_scale 1 (-1)
    rw [rnd_one] at this
    norm_num at this
    simpa using this
  rw [sMinus_eq]
  ext i j
  fin_cases i <;> fin_cases j <;> apply Complex.ext <;>
    simp [sMinusF, divComplex, sigmaX, sigmaY, mulC, addC, rnd_zero, rnd_one, rnd_neg_one, h2, hh]
  all_goals norm_num [h2, rnd_one, rnd_zero]

theorem quat_sites {n : ℕ} (i : ℕ) (j : Fin n) (x y : Fin 2) : Quat ((if (j : ℕ) < i then sigmaZ else if (j : ℕ) = i then sMinus else 1 : Op 2) x y) := by
  rw [sMinus_eq]
  split_ifs <;> fin_cases x <;> fin_cases y <;> simp [Quat, sigmaZ]

theorem jwLowerF_eq (n i : ℕ) : jwLowerF n i = jwLower n i := by
  rw [jwLowerF, sMinusF_eq, jwLower]
  exact (kronAllF_eq _ (quat_sites i)).1

theorem jwAlphasF_eq (n : ℕ) : jordanWignerLoweringF n = jordanWignerLowering n ∧ jordanWignerAlphasF n = jordanWignerAlphas n := by
  have : jordanWignerLoweringF n = jordanWignerLowering n := by
    rw [jordanWignerLoweringF, jordanWignerLowering]
    exact List.map_congr_left fun i _ => jwLowerF_eq n i
  exact ⟨this, by rw [jordanWignerAlphasF, jordanWignerAlphas, this]⟩

end FF
