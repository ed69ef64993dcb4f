import Verif.Proofs.Machine
import Verif.Proofs.PfExpand

/-! # Rounding errors of the combinatorial functions -/

namespace FF

open Equiv

/-! ## Rounding to 53 binary digits -/

theorem rnd_zero : rnd 0 = 0 := by simp [rnd]

/-- The unit roundoff. -/
noncomputable abbrev ulp : ℝ := 2⁻¹ ^ 53

theorem rnd_err (x : ℝ) : |rnd x - x| ≤ ulp * |x| := by
  by_cases hx : x = 0
  · simp [hx, rnd_zero]
  · have hpos : 0 < |x| := abs_pos.2 hx
    simp only [rnd]
    rw [if_neg hx]
    set L := Int.log 2 |x| with hL
    have hle : (2 : ℝ) ^ L ≤ |x| := by exact_mod_cast Int.zpow_log_le_self (b := 2) (by norm_num) hpos
    set e : ℤ := L - 52 with he
    have h2 : (0 : ℝ) < 2 ^ e := zpow_pos (by norm_num) e
    have h1 : rint (x * 2 ^ (-e)) * (2 : ℝ) ^ e - x = (rint (x * 2 ^ (-e)) - x * 2 ^ (-e)) * 2 ^ e := by
      rw [sub_mul, mul_assoc, zpow_neg, inv_mul_cancel₀ h2.ne', mul_one]
    rw [h1, abs_mul, abs_of_pos h2]
    calc _ ≤ 1 / 2 * (2 : ℝ) ^ e := by gcongr; exact rint_near _
      _ = ulp * 2 ^ L := by
        rw [he, zpow_sub₀ (by norm_num), ulp]
        norm_num
        ring
      _ ≤ _ := by gcongr

theorem rnd_int {z : ℤ} (h : |z| ≤ 2 ^ 53) : rnd (z : ℝ) = z := by
  by_cases hz : z = 0
  · simp [hz, rnd_zero]
  · have hz' : (z : ℝ) ≠ 0 := by exact_mod_cast hz
    have hpos : 0 < |(z : ℝ)| := abs_pos.2 hz'
    simp only [rnd]
    rw [if_neg hz']
    set L := Int.log 2 |(z : ℝ)| with hL
    have hle : (2 : ℝ) ^ L ≤ |(z : ℝ)| := by
      have := Int.zpow_log_le_self (b := 2) (by norm_num) hpos
      rw [hL]; simpa using this
    have key : ∃ w : ℤ, (z : ℝ) * 2 ^ (-(L - 52)) = w := by
      rcases h.lt_or_eq with h | h
      · have hlt : L - 52 ≤ 0 := by
          by_contra hc
          have h53 : (53 : ℤ) ≤ L := by omega
          have : (2 : ℝ) ^ (53 : ℤ) ≤ 2 ^ L := zpow_le_zpow_right₀ (by norm_num) h53
          have h3 : |(z : ℝ)| < 2 ^ 53 := by exact_mod_cast h
          have h4 : ((2 : ℝ) ^ (53 : ℤ)) = 2 ^ 53 := by norm_cast
          linarith
        obtain ⟨k, hk⟩ := Int.eq_ofNat_of_zero_le (show 0 ≤ -(L - 52) by omega)
        exact ⟨z * 2 ^ k, by rw [hk]; push_cast; simp⟩
      · have hL53 : L = 53 := by
          have : |(z : ℝ)| = ((2 : ℕ) : ℝ) ^ (53 : ℤ) := by
            have : ((|z| : ℤ) : ℝ) = 2 ^ 53 := by rw [h]; norm_num
            rw [Int.cast_abs] at this
            rw [this]; norm_num
          rw [hL, this, Int.log_zpow (by norm_num)]
        refine ⟨z / 2, ?_⟩
        have hd : (2 : ℤ) ∣ z := by
          rcases abs_eq (by norm_num : (0 : ℤ) ≤ 2 ^ 53) |>.1 h with rfl | rfl <;> norm_num
        rw [hL53, Int.cast_div hd (by norm_num)]
        norm_num
        ring
    obtain ⟨w, hw⟩ := key
    rw [hw, rint_int, ← hw, mul_assoc, ← zpow_add₀ (by norm_num)]
    simp

theorem rnd_one : rnd 1 = 1 := by exact_mod_cast rnd_int (z := 1) (by norm_num)

/-! ## Propagation of errors -/

/-- `y` is `x` up to the relative error `c - 1` with respect to the magnitude `m`. -/
structure Near (c x m y : ℝ) : Prop where
  err : |y - x| ≤ (c - 1) * m
  mag : |x| ≤ m

theorem Near.exact (x : ℝ) : Near 1 x |x| x := ⟨by simp, le_rfl⟩

theorem Near.nonneg {c x m y : ℝ} (h : Near c x m y) : 0 ≤ m := (abs_nonneg x).trans h.mag

theorem Near.bound {c x m y : ℝ} (h : Near c x m y) : |y| ≤ c * m := by
  have : |y| ≤ |y - x| + |x| := by
    calc |y| = |(y - x) + x| := by ring_nf
      _ ≤ _ := abs_add_le _ _
  have h1 := h.err
  have h2 := h.mag
  linarith

theorem Near.mono {c c' x m y : ℝ} (h : Near c x m y) (hc : c ≤ c') : Near c' x m y :=
  ⟨h.err.trans (by have := h.nonneg; gcongr), h.mag⟩

theorem Near.rnd {c x m y : ℝ} (h : Near c x m y) : Near ((1 + ulp) * c) x m (rnd y) := by
  refine ⟨?_, h.mag⟩
  have h1 := rnd_err y
  have h2 := h.bound
  have h3 := h.err
  have hu : (0 : ℝ) ≤ ulp := by positivity
  have h4 : ulp * |y| ≤ ulp * (c * m) := by gcongr
  calc |FF.rnd y - x| = |(FF.rnd y - y) + (y - x)| := by ring_nf
    _ ≤ |FF.rnd y - y| + |y - x| := abs_add_le _ _
    _ ≤ ulp * (c * m) + (c - 1) * m := add_le_add (h1.trans h4) h3
    _ = _ := by ring

theorem Near.mul {c x m y : ℝ} (h : Near c x m y) (a : ℝ) : Near c (x * a) (m * |a|) (y * a) := by
  refine ⟨?_, ?_⟩
  · rw [← sub_mul, abs_mul, ← mul_assoc]
    gcongr
    exact h.err
  · rw [abs_mul]
    gcongr
    exact h.mag

theorem Near.add {c x m y x' m' y' : ℝ} (h : Near c x m y) (h' : Near c x' m' y') :
    Near c (x + x') (m + m') (y + y') := by
  refine ⟨?_, ?_⟩
  · calc |y + y' - (x + x')| = |(y - x) + (y' - x')| := by ring_nf
      _ ≤ |y - x| + |y' - x'| := abs_add_le _ _
      _ ≤ (c - 1) * m + (c - 1) * m' := add_le_add h.err h'.err
      _ = _ := by ring
  · exact (abs_add_le _ _).trans (add_le_add h.mag h'.mag)

theorem one_le_pow_ulp (k : ℕ) : 1 ≤ (1 + ulp) ^ k := one_le_pow₀ (by
  have : (0 : ℝ) ≤ ulp := by positivity
  linarith)

theorem prodOn_near (l : List ℝ) :
    Near ((1 + ulp) ^ l.length) l.prod (l.map abs).prod (prodOn float64 l) := by
  have h : ∀ (c x m y : ℝ), Near c x m y → Near ((1 + ulp) ^ l.length * c) (x * l.prod) (m * (l.map abs).prod)
      (l.foldl float64.mul y) := by
    induction l with
    | nil => intro c x m y h; simpa using h
    | cons a l ih =>
      intro c x m y h
      have := ih _ _ _ _ (h.mul a).rnd
      simpa [pow_succ, mul_assoc, float64] using this
  have := h _ _ _ _ (Near.exact 1)
  simp only [abs_one, mul_one, one_mul] at this
  unfold prodOn
  have h1 : float64.ofInt 1 = 1 := by simp [float64, rnd_one]
  rw [h1]
  exact this

theorem sumOn_near {α : Type} (l : List α) (f g m : α → ℝ) (c : ℝ) (hc : 1 ≤ c)
    (h : ∀ a ∈ l, Near c (f a) (m a) (g a)) :
    Near ((1 + ulp) ^ l.length * c) (l.map f).sum (l.map m).sum (sumOn float64 (l.map g)) := by
  have key : ∀ (c' x M y : ℝ), c ≤ c' → Near c' x M y →
      Near ((1 + ulp) ^ l.length * c') (x + (l.map f).sum) (M + (l.map m).sum) ((l.map g).foldl float64.add y) := by
    induction l with
    | nil => intro c' x M y _ h; simpa using h
    | cons a l ih =>
      intro c' x M y hcc hn
      have h1 := (hn.add ((h a List.mem_cons_self).mono hcc)).rnd
      have hge : c ≤ (1 + ulp) * c' := by
        have hu : (0 : ℝ) ≤ ulp := by positivity
        nlinarith
      have := ih (fun b hb => h b (List.mem_cons_of_mem _ hb)) _ _ _ _ hge h1
      simpa [pow_succ, mul_assoc, float64, add_assoc] using this
  have h0 : Near c 0 0 0 := ⟨by simp, by simp⟩
  have := key c 0 0 0 le_rfl h0
  have e : float64.ofInt 0 = 0 := by simp [float64, rnd_zero]
  simpa [sumOn, e] using this

theorem Near.sign {c x m y : ℝ} (h : Near c x m y) {n : ℕ} (σ : Perm (Fin n)) :
    Near ((1 + ulp) * c) (((Perm.sign σ : ℤ) : ℝ) * x) m (float64.mul (float64.ofInt (Perm.sign σ)) y) := by
  have h1 : float64.ofInt (Perm.sign σ : ℤ) = ((Perm.sign σ : ℤ) : ℝ) := by
    rcases Int.units_eq_one_or (Perm.sign σ) with e | e
    · rw [e]; simp [float64, rnd_one]
    · rw [e]; exact rnd_int (z := -1) (by norm_num)
  have h2 : |((Perm.sign σ : ℤ) : ℝ)| = 1 := by
    rcases Int.units_eq_one_or (Perm.sign σ) with e | e <;> rw [e] <;> simp
  have := (h.mul ((Perm.sign σ : ℤ) : ℝ)).rnd
  rw [h2, mul_one, mul_comm x, mul_comm y] at this
  rw [h1]
  exact this

theorem Near.div {c x m y : ℝ} (h : Near c x m y) (hc : 0 ≤ c) {k : ℤ} (hk : 0 < k) :
    Near ((1 + ulp) / (1 - ulp) * c) (x / k) (m / k) (divFloat y k) := by
  have hkr : (0 : ℝ) < k := by exact_mod_cast hk
  have hu : (0 : ℝ) < ulp := by positivity
  have hu1 : ulp < 1 := by norm_num [ulp]
  have hr := rnd_err (k : ℝ)
  rw [abs_of_pos hkr] at hr
  have hd : (1 - ulp) * k ≤ FF.rnd k := by have := (abs_le.1 hr).1; linarith
  have hdpos : 0 < FF.rnd k := lt_of_lt_of_le (by apply mul_pos; linarith; exact hkr) hd
  have hm := h.nonneg
  have : Near (c / (1 - ulp)) (x / k) (m / k) (y / FF.rnd k) := by
    refine ⟨?_, by rw [abs_div, abs_of_pos hkr]; gcongr; exact h.mag⟩
    have e : y / FF.rnd k - x / k = (y - x) / k + y * (k - FF.rnd k) / (k * FF.rnd k) := by
      field_simp
      ring
    rw [e]
    have h1 : |(y - x) / k| ≤ (c - 1) * m / k := by
      rw [abs_div, abs_of_pos hkr]; gcongr; exact h.err
    have h2 : |y * (k - FF.rnd k) / (k * FF.rnd k)| ≤ (c * m) * (ulp * k) / (k * ((1 - ulp) * k)) := by
      rw [abs_div, abs_mul, abs_of_pos (mul_pos hkr hdpos)]
      have : |(k : ℝ) - FF.rnd k| ≤ ulp * k := by rw [abs_sub_comm]; exact hr
      have hp : 0 < (1 - ulp) * k := by apply mul_pos; linarith; exact hkr
      have hcm : 0 ≤ c * m := mul_nonneg hc hm
      gcongr
      exact h.bound
    have e2 : (c * m) * (ulp * k) / (k * ((1 - ulp) * k)) = c * m * ulp / ((1 - ulp) * k) := by
      have : (1 - ulp) ≠ 0 := by linarith
      field_simp
    calc _ ≤ |(y - x) / k| + |y * (k - FF.rnd k) / (k * FF.rnd k)| := abs_add_le _ _
      _ ≤ (c - 1) * m / k + c * m * ulp / ((1 - ulp) * k) := by rw [← e2]; exact add_le_add h1 h2
      _ = (c / (1 - ulp) - 1) * (m / k) := by
        have : (1 - ulp) ≠ 0 := by linarith
        field_simp
        ring
  have h3 := this.rnd
  rw [divFloat]
  convert h3 using 1
  ring

/-! ## The four functions -/

theorem prodOn_ofFn_near {n : ℕ} (f : Fin n → ℝ) :
    Near ((1 + ulp) ^ n) (∏ i, f i) (∏ i, |f i|) (prodOn float64 (List.ofFn f)) := by
  have := prodOn_near (List.ofFn f)
  rw [List.length_ofFn, List.prod_ofFn, List.map_ofFn, List.prod_ofFn] at this
  exact this

theorem dtOn_float64 {n : ℕ} (A : Matrix (Fin n) (Fin n) ℝ) : ∃ v, dtOn float64 A = .ok v ∧
    Near ((1 + ulp) ^ (n.factorial + 1 + n)) A.det (A.map abs).permanent v := by
  obtain ⟨L, hn, hc, hL⟩ := exists_perms n
  refine ⟨_, dtOn_ok float64 A hL, ?_⟩
  have := sumOn_near L (fun σ => ((Perm.sign σ : ℤ) : ℝ) * ∏ i, A i (σ i))
    (fun σ => float64.mul (float64.ofInt (Perm.sign σ)) (prodOn float64 (List.ofFn fun i => A i (σ i))))
    (fun σ => ∏ i, |A i (σ i)|) ((1 + ulp) * (1 + ulp) ^ n) (by rw [← pow_succ']; exact one_le_pow_ulp _)
    (fun σ _ => (prodOn_ofFn_near fun i => A i (σ i)).sign σ)
  rw [sum_perms hn hc, sum_perms hn hc, length_perms hn hc] at this
  convert this using 1
  · ring
  · rw [← Matrix.det_transpose, Matrix.det_apply']; simp
  · rw [← Matrix.permanent_transpose, Matrix.permanent]; simp

theorem ptOn_float64 {n : ℕ} (A : Matrix (Fin n) (Fin n) ℝ) : ∃ v, ptOn float64 A = .ok v ∧
    Near ((1 + ulp) ^ (n.factorial + n)) A.permanent (A.map abs).permanent v := by
  obtain ⟨L, hn, hc, hL⟩ := exists_perms n
  refine ⟨_, ptOn_ok float64 A hL, ?_⟩
  have := sumOn_near L (fun σ => ∏ i, A i (σ i)) (fun σ => prodOn float64 (List.ofFn fun i => A i (σ i)))
    (fun σ => ∏ i, |A i (σ i)|) ((1 + ulp) ^ n) (one_le_pow_ulp _)
    (fun σ _ => prodOn_ofFn_near fun i => A i (σ i))
  rw [sum_perms hn hc, sum_perms hn hc, length_perms hn hc] at this
  convert this using 1
  · ring
  · rw [← Matrix.permanent_transpose, Matrix.permanent]; simp
  · rw [← Matrix.permanent_transpose, Matrix.permanent]; simp

theorem pfOn_float64 {m : ℕ} (A : Matrix (Fin (2 * m)) (Fin (2 * m)) ℝ) : ∃ v, pfOn float64 divFloat A = .ok v ∧
    Near ((1 + ulp) / (1 - ulp) * (1 + ulp) ^ ((2 * m).factorial + 1 + m)) (pfVal A) (hfVal (A.map abs)) v := by
  obtain ⟨L, hn, hc, hL⟩ := exists_perms (2 * m)
  refine ⟨_, pfOn_ok float64 divFloat A hL, ?_⟩
  have h := sumOn_near L (fun σ => ((Perm.sign σ : ℤ) : ℝ) * ∏ i : Fin m, A (σ (ev i)) (σ (od i)))
    (fun σ => float64.mul (float64.ofInt (Perm.sign σ))
      (prodOn float64 (List.ofFn fun i : Fin m => A (σ (ev i)) (σ (od i)))))
    (fun σ => ∏ i : Fin m, |A (σ (ev i)) (σ (od i))|) ((1 + ulp) * (1 + ulp) ^ m)
    (by rw [← pow_succ']; exact one_le_pow_ulp _)
    (fun σ _ => (prodOn_ofFn_near fun i : Fin m => A (σ (ev i)) (σ (od i))).sign σ)
  rw [sum_perms hn hc, sum_perms hn hc, length_perms hn hc] at h
  have := h.div (by positivity) (k := 2 ^ m * m.factorial) (by positivity)
  convert this using 1
  · ring
  · simp [pfVal]
  · simp [hfVal]

theorem hfOn_float64 {m : ℕ} (A : Matrix (Fin (2 * m)) (Fin (2 * m)) ℝ) : ∃ v, hfOn float64 divFloat A = .ok v ∧
    Near ((1 + ulp) / (1 - ulp) * (1 + ulp) ^ ((2 * m).factorial + m)) (hfVal A) (hfVal (A.map abs)) v := by
  obtain ⟨L, hn, hc, hL⟩ := exists_perms (2 * m)
  refine ⟨_, hfOn_ok float64 divFloat A hL, ?_⟩
  have h := sumOn_near L (fun σ => ∏ i : Fin m, A (σ (ev i)) (σ (od i)))
    (fun σ => prodOn float64 (List.ofFn fun i : Fin m => A (σ (ev i)) (σ (od i))))
    (fun σ => ∏ i : Fin m, |A (σ (ev i)) (σ (od i))|) ((1 + ulp) ^ m) (one_le_pow_ulp _)
    (fun σ _ => prodOn_ofFn_near fun i : Fin m => A (σ (ev i)) (σ (od i)))
  rw [sum_perms hn hc, sum_perms hn hc, length_perms hn hc] at h
  have := h.div (by positivity) (k := 2 ^ m * m.factorial) (by positivity)
  convert this using 1
  · ring
  · simp [hfVal]
  · simp [hfVal]

/-! ## Integer entries -/

theorem prodOn_int (l : List ℤ) (h : |l.prod| ≤ 2 ^ 53) : prodOn float64 (l.map (Int.cast : ℤ → ℝ)) = (l.prod : ℤ) := by
  induction l using List.reverseRecOn with
  | nil => simp [prodOn, float64, rnd_one]
  | append_singleton l a ih =>
    have e : prodOn float64 ((l ++ [a]).map (Int.cast : ℤ → ℝ)) = rnd (prodOn float64 (l.map (Int.cast : ℤ → ℝ)) * a) := by
      simp [prodOn, float64]
    rw [e]
    rw [List.prod_append, List.prod_singleton] at h ⊢
    by_cases ha : a = 0
    · simp [ha, rnd_zero]
    · have hl : |l.prod| ≤ 2 ^ 53 := by
        rw [abs_mul] at h
        have : 1 ≤ |a| := Int.one_le_abs ha
        nlinarith [abs_nonneg l.prod]
      rw [ih hl, ← Int.cast_mul]
      exact rnd_int h

theorem sumOn_int (l : List ℤ) (h : (l.map abs).sum ≤ 2 ^ 53) :
    sumOn float64 (l.map (Int.cast : ℤ → ℝ)) = (l.sum : ℤ) := by
  induction l using List.reverseRecOn with
  | nil => simp [sumOn, float64, rnd_zero]
  | append_singleton l a ih =>
    have e : sumOn float64 ((l ++ [a]).map (Int.cast : ℤ → ℝ)) = rnd (sumOn float64 (l.map (Int.cast : ℤ → ℝ)) + a) := by
      simp [sumOn, float64]
    rw [e]
    rw [List.map_append, List.sum_append, List.map_singleton, List.sum_singleton] at h
    rw [ih (by have := abs_nonneg a; linarith), List.sum_append, List.sum_singleton, ← Int.cast_add]
    refine rnd_int ?_
    have hs : |l.sum| ≤ (l.map abs).sum := by
      clear ih h e
      induction l with
      | nil => simp
      | cons x l ih => simp only [List.sum_cons, List.map_cons]; exact (abs_add_le _ _).trans (by linarith)
    exact (abs_add_le _ _).trans (by linarith)

theorem sumOn_perms_int {n : ℕ} {L : List (Perm (Fin n))} (hn : L.Nodup) (hc : ∀ σ, σ ∈ L)
    (f : Perm (Fin n) → ℤ) (g : Perm (Fin n) → ℝ) (h : ∀ σ, |f σ| ≤ 2 ^ 53 → g σ = f σ)
    (hs : ∑ σ, |f σ| ≤ 2 ^ 53) : sumOn float64 (L.map g) = (∑ σ, f σ : ℤ) := by
  have hg : L.map g = (L.map f).map (Int.cast : ℤ → ℝ) := by
    rw [List.map_map]
    refine List.map_congr_left fun σ _ => h σ ?_
    exact (Finset.single_le_sum (f := fun σ => |f σ|) (fun σ _ => abs_nonneg _) (Finset.mem_univ σ)).trans hs
  rw [hg, sumOn_int, sum_perms hn hc]
  rw [List.map_map, sum_perms hn hc]
  exact hs

theorem sign_int_mul {n : ℕ} (σ : Perm (Fin n)) {z : ℤ} {y : ℝ} (hy : |z| ≤ 2 ^ 53 → y = z)
    (hz : |(Perm.sign σ : ℤ) * z| ≤ 2 ^ 53) :
    float64.mul (float64.ofInt (Perm.sign σ)) y = ((Perm.sign σ : ℤ) * z : ℤ) := by
  have h1 : float64.ofInt (Perm.sign σ : ℤ) = ((Perm.sign σ : ℤ) : ℝ) := by
    rcases Int.units_eq_one_or (Perm.sign σ) with e | e
    · rw [e]; simp [float64, rnd_one]
    · rw [e]; exact rnd_int (z := -1) (by norm_num)
  have h2 : |(Perm.sign σ : ℤ)| = 1 := by
    rcases Int.units_eq_one_or (Perm.sign σ) with e | e <;> rw [e] <;> simp
  rw [h1, hy (by rwa [abs_mul, h2, one_mul] at hz)]
  have : float64.mul ((Perm.sign σ : ℤ) : ℝ) (z : ℝ) = rnd (((Perm.sign σ : ℤ) * z : ℤ) : ℝ) := by
    simp [float64]
  rw [this]
  exact rnd_int hz

theorem abs_sign_mul {n : ℕ} (σ : Perm (Fin n)) (z : ℤ) : |(Perm.sign σ : ℤ) * z| = |z| := by
  rcases Int.units_eq_one_or (Perm.sign σ) with e | e <;> rw [e] <;> simp

theorem prodOn_ofFn_int {n : ℕ} (f : Fin n → ℤ) (h : |∏ i, f i| ≤ 2 ^ 53) :
    prodOn float64 (List.ofFn fun i => ((f i : ℤ) : ℝ)) = (∏ i, f i : ℤ) := by
  have := prodOn_int (List.ofFn f) (by rwa [List.prod_ofFn])
  rw [List.map_ofFn, List.prod_ofFn] at this
  exact this

theorem dtOn_float_int {n : ℕ} (A : Matrix (Fin n) (Fin n) ℤ) (h : (A.map abs).permanent ≤ 2 ^ 53) :
    dtOn float64 (A.map (Int.cast : ℤ → ℝ)) = .ok (A.det : ℝ) := by
  obtain ⟨L, hn, hc, hL⟩ := exists_perms n
  rw [dtOn_ok float64 _ hL, sumOn_perms_int hn hc (fun σ => (Perm.sign σ : ℤ) * ∏ i, A i (σ i))]
  · rw [← Matrix.det_transpose, Matrix.det_apply']; simp
  · intro σ hσ
    exact sign_int_mul σ (fun hz => prodOn_ofFn_int (fun i => A i (σ i)) hz) hσ
  · simp only [abs_sign_mul, Finset.abs_prod]
    rw [← Matrix.permanent_transpose, Matrix.permanent] at h
    simpa using h

theorem ptOn_float_int {n : ℕ} (A : Matrix (Fin n) (Fin n) ℤ) (h : (A.map abs).permanent ≤ 2 ^ 53) :
    ptOn float64 (A.map (Int.cast : ℤ → ℝ)) = .ok (A.permanent : ℝ) := by
  obtain ⟨L, hn, hc, hL⟩ := exists_perms n
  rw [ptOn_ok float64 _ hL, sumOn_perms_int hn hc (fun σ => ∏ i, A i (σ i))]
  · rw [← Matrix.permanent_transpose, Matrix.permanent]; simp
  · intro σ hσ
    exact prodOn_ofFn_int (fun i => A i (σ i)) hσ
  · simp only [Finset.abs_prod]
    rw [← Matrix.permanent_transpose, Matrix.permanent] at h
    simpa using h

/-! ### Pfaffians and hafnians of integer matrices -/

theorem pfNum_cast {m : ℕ} (A : Matrix (Fin (2 * m)) (Fin (2 * m)) ℤ) :
    pfNum (A.map (Int.cast : ℤ → ℝ)) = (pfNum A : ℤ) := by
  simp [pfNum]

theorem hfNum_cast {m : ℕ} (A : Matrix (Fin (2 * m)) (Fin (2 * m)) ℤ) :
    hfNum (A.map (Int.cast : ℤ → ℝ)) = (hfNum A : ℤ) := by
  simp [hfNum]

theorem pfVal_integer {m : ℕ} (A : Matrix (Fin (2 * m)) (Fin (2 * m)) ℤ) (hA : ∀ i j, A i j = -A j i) :
    ∃ z : ℤ, pfVal (A.map (Int.cast : ℤ → ℝ)) = z := by
  induction m with
  | zero => exact ⟨1, by simp [pfVal]⟩
  | succ m ih =>
    choose z hz using fun p : Fin (2 * m + 1) =>
      ih (A.submatrix (fun x : Fin (2 * m) => (p.succAbove x).succ) fun x => (p.succAbove x).succ) (fun i j => hA _ _)
    refine ⟨∑ p : Fin (2 * m + 1), (-1) ^ (p : ℕ) * A (ev 0) p.succ * z p, ?_⟩
    rw [pfVal_row (fun i j => by simp only [Matrix.map_apply]; rw [hA i j]; push_cast; rfl)]
    push_cast
    refine Finset.sum_congr rfl fun p _ => ?_
    rw [← hz p]
    rfl

theorem hfVal_integer {m : ℕ} (A : Matrix (Fin (2 * m)) (Fin (2 * m)) ℤ) (hA : A.IsSymm) :
    ∃ z : ℤ, hfVal (A.map (Int.cast : ℤ → ℝ)) = z := by
  have hs : (A.map (Int.cast : ℤ → ℝ)).IsSymm := by
    ext i j
    simp only [Matrix.transpose_apply, Matrix.map_apply]
    exact_mod_cast hA.apply i j
  have h1 := hf_eq_sum_matchings (A.map (Int.cast : ℤ → ℝ)) hs
  rw [hf_ok, Except.ok.injEq] at h1
  rw [h1]
  refine ⟨∑ M ∈ Spec.perfectMatchings (2 * m), ∏ e ∈ M, A e.1 e.2, ?_⟩
  push_cast
  rfl

theorem divFloat_exact {S p k : ℤ} (hk : 0 < k) (hS : |S| ≤ 2 ^ 53) (h : S = k * p) : divFloat (S : ℝ) k = p := by
  have hkr : (k : ℝ) ≠ 0 := by exact_mod_cast hk.ne'
  unfold divFloat
  by_cases hp : p = 0
  · simp [h, hp, rnd_zero]
  · have h1 : 1 ≤ |p| := Int.one_le_abs hp
    have h2 : |S| = k * |p| := by rw [h, abs_mul, abs_of_pos hk]
    have h3 : k ≤ 2 ^ 53 := by nlinarith
    have h4 : |p| ≤ 2 ^ 53 := by nlinarith [abs_nonneg p]
    rw [rnd_int (z := k) (by rwa [abs_of_pos hk]), h]
    push_cast
    rw [mul_div_cancel_left₀ _ hkr]
    exact rnd_int h4

theorem divInt_exact {S p k : ℤ} (hk : 0 < k) (hS : |S| ≤ 2 ^ 53) (h : S = k * p) : divInt S k = p := by
  unfold divInt
  rw [rnd_int hS]
  exact divFloat_exact hk hS h

theorem den_pos (m : ℕ) : (0 : ℤ) < 2 ^ m * m.factorial := by positivity

theorem pfNum_eq {m : ℕ} {A : Matrix (Fin (2 * m)) (Fin (2 * m)) ℤ} {p : ℤ}
    (h : pfVal (A.map (Int.cast : ℤ → ℝ)) = p) : pfNum A = 2 ^ m * m.factorial * p := by
  have h1 : pfVal (A.map (Int.cast : ℤ → ℝ)) = (pfNum A : ℤ) / (2 ^ m * (m.factorial : ℝ)) := by
    rw [← pfNum_cast]; rfl
  rw [h1, div_eq_iff (fact_ne m)] at h
  have : ((pfNum A : ℤ) : ℝ) = ((2 ^ m * m.factorial * p : ℤ) : ℝ) := by rw [h]; push_cast; ring
  exact_mod_cast this

theorem hfNum_eq {m : ℕ} {A : Matrix (Fin (2 * m)) (Fin (2 * m)) ℤ} {p : ℤ}
    (h : hfVal (A.map (Int.cast : ℤ → ℝ)) = p) : hfNum A = 2 ^ m * m.factorial * p := by
  have h1 : hfVal (A.map (Int.cast : ℤ → ℝ)) = (hfNum A : ℤ) / (2 ^ m * (m.factorial : ℝ)) := by
    rw [← hfNum_cast]; rfl
  rw [h1, div_eq_iff (fact_ne m)] at h
  have : ((hfNum A : ℤ) : ℝ) = ((2 ^ m * m.factorial * p : ℤ) : ℝ) := by rw [h]; push_cast; ring
  exact_mod_cast this

theorem abs_pfNum_le {m : ℕ} (A : Matrix (Fin (2 * m)) (Fin (2 * m)) ℤ) : |pfNum A| ≤ hfNum (A.map abs) := by
  refine (Finset.abs_sum_le_sum_abs _ _).trans (le_of_eq (Finset.sum_congr rfl fun σ _ => ?_))
  have := abs_sign_mul σ (∏ i : Fin m, A (σ (ev i)) (σ (od i)))
  simp only [Int.cast_id]
  rw [this, Finset.abs_prod]
  rfl

theorem abs_hfNum_le {m : ℕ} (A : Matrix (Fin (2 * m)) (Fin (2 * m)) ℤ) : |hfNum A| ≤ hfNum (A.map abs) := by
  refine (Finset.abs_sum_le_sum_abs _ _).trans (le_of_eq (Finset.sum_congr rfl fun σ _ => ?_))
  rw [Finset.abs_prod]
  rfl

theorem pfOn_float_int {m : ℕ} (A : Matrix (Fin (2 * m)) (Fin (2 * m)) ℤ) {p : ℤ}
    (hp : pfVal (A.map (Int.cast : ℤ → ℝ)) = p) (h : hfNum (A.map abs) ≤ 2 ^ 53) :
    pfOn float64 divFloat (A.map (Int.cast : ℤ → ℝ)) = .ok (p : ℝ) := by
  obtain ⟨L, hn, hc, hL⟩ := exists_perms (2 * m)
  rw [pfOn_ok float64 divFloat _ hL,
    sumOn_perms_int hn hc (fun σ => (Perm.sign σ : ℤ) * ∏ i : Fin m, A (σ (ev i)) (σ (od i)))]
  · exact congrArg Except.ok (divFloat_exact (den_pos m) ((abs_pfNum_le A).trans h) (pfNum_eq hp))
  · intro σ hσ
    exact sign_int_mul σ (fun hz => prodOn_ofFn_int (fun i : Fin m => A (σ (ev i)) (σ (od i))) hz) hσ
  · simp only [abs_sign_mul, Finset.abs_prod]
    exact h

theorem hfOn_float_int {m : ℕ} (A : Matrix (Fin (2 * m)) (Fin (2 * m)) ℤ) {p : ℤ}
    (hp : hfVal (A.map (Int.cast : ℤ → ℝ)) = p) (h : hfNum (A.map abs) ≤ 2 ^ 53) :
    hfOn float64 divFloat (A.map (Int.cast : ℤ → ℝ)) = .ok (p : ℝ) := by
  obtain ⟨L, hn, hc, hL⟩ := exists_perms (2 * m)
  rw [hfOn_ok float64 divFloat _ hL, sumOn_perms_int hn hc (fun σ => ∏ i : Fin m, A (σ (ev i)) (σ (od i)))]
  · exact congrArg Except.ok (divFloat_exact (den_pos m) ((abs_hfNum_le A).trans h) (hfNum_eq hp))
  · intro σ hσ
    exact prodOn_ofFn_int (fun i : Fin m => A (σ (ev i)) (σ (od i))) hσ
  · simp only [Finset.abs_prod]
    exact h

theorem pfOn_int_exact {m : ℕ} (A : Matrix (Fin (2 * m)) (Fin (2 * m)) ℤ) {p : ℤ}
    (hp : pfVal (A.map (Int.cast : ℤ → ℝ)) = p) (h : |2 ^ m * m.factorial * p| ≤ 2 ^ 53) :
    pfOn int64 divInt A = .ok (p : ℝ) := by
  have h' : |pfNum A| ≤ 2 ^ 53 := by rwa [pfNum_eq hp]
  have hw := abs_le.1 h'
  rw [pfOn_int64, wrap64_fits (by linarith [hw.1]) (by linarith [hw.2]), divInt_exact (den_pos m) h' (pfNum_eq hp)]

theorem hfOn_int_exact {m : ℕ} (A : Matrix (Fin (2 * m)) (Fin (2 * m)) ℤ) {p : ℤ}
    (hp : hfVal (A.map (Int.cast : ℤ → ℝ)) = p) (h : |2 ^ m * m.factorial * p| ≤ 2 ^ 53) :
    hfOn int64 divInt A = .ok (p : ℝ) := by
  have h' : |hfNum A| ≤ 2 ^ 53 := by rwa [hfNum_eq hp]
  have hw := abs_le.1 h'
  rw [hfOn_int64, wrap64_fits (by linarith [hw.1]) (by linarith [hw.2]), divInt_exact (den_pos m) h' (hfNum_eq hp)]

/-! ### Powers of two -/

theorem log_mul_zpow {x : ℝ} (hx : 0 < x) (k : ℤ) : Int.log 2 (x * 2 ^ k) = Int.log 2 x + k := by
  have h2 : (0 : ℝ) < 2 ^ k := zpow_pos (by norm_num) k
  apply le_antisymm
  · have h : x < (2 : ℝ) ^ (Int.log 2 x + 1) := by exact_mod_cast Int.lt_zpow_succ_log_self (b := 2) (by norm_num) x
    have h' : x * 2 ^ k < ((2 : ℕ) : ℝ) ^ (Int.log 2 x + k + 1) := by
      have e : ((2 : ℕ) : ℝ) ^ (Int.log 2 x + k + 1) = 2 ^ (Int.log 2 x + 1) * 2 ^ k := by
        rw [← zpow_add₀ (by norm_num)]; push_cast; congr 1; ring
      rw [e]
      gcongr
    have := (Int.lt_zpow_iff_log_lt (b := 2) (by norm_num) (mul_pos hx h2)).1 h'
    omega
  · have h : (2 : ℝ) ^ (Int.log 2 x) ≤ x := by exact_mod_cast Int.zpow_log_le_self (b := 2) (by norm_num) hx
    refine (Int.zpow_le_iff_le_log (b := 2) (by norm_num) (mul_pos hx h2)).1 ?_
    rw [zpow_add₀ (by norm_num)]
    push_cast
    gcongr

theorem rnd_scale (x : ℝ) (k : ℤ) : rnd (x * 2 ^ k) = rnd x * 2 ^ k := by
  by_cases hx : x = 0
  · simp [hx, rnd_zero]
  · have h2 : (0 : ℝ) < 2 ^ k := zpow_pos (by norm_num) k
    simp only [rnd]
    rw [if_neg hx, if_neg (mul_ne_zero hx h2.ne'), abs_mul, abs_of_pos h2, log_mul_zpow (abs_pos.2 hx)]
    have e1 : x * 2 ^ k * (2 : ℝ) ^ (-(Int.log 2 |x| + k - 52)) = x * 2 ^ (-(Int.log 2 |x| - 52)) := by
      rw [mul_assoc, ← zpow_add₀ (by norm_num)]; congr 2; ring
    have e2 : (2 : ℝ) ^ (Int.log 2 |x| + k - 52) = 2 ^ (Int.log 2 |x| - 52) * 2 ^ k := by
      rw [← zpow_add₀ (by norm_num)]; congr 1; ring
    rw [e1, e2, mul_assoc]

/-- The factor for `k` roundings. -/
theorem pow_ulp_le {k : ℕ} (hk : k ≤ 4000000) : (1 + 2⁻¹ ^ 53 : ℝ) ^ k - 1 ≤ 10⁻¹ ^ 9 := by
  have h1 : (1 + 2⁻¹ ^ 53 : ℝ) ^ k * (1 - 2⁻¹ ^ 53) ^ k ≤ 1 := by
    rw [← mul_pow]
    exact pow_le_one₀ (by norm_num) (by norm_num)
  have h2 : 1 - (k : ℝ) * 2⁻¹ ^ 53 ≤ (1 - 2⁻¹ ^ 53) ^ k := by
    have := one_add_mul_le_pow (a := -(2⁻¹ ^ 53 : ℝ)) (by norm_num) k
    rw [← sub_eq_add_neg] at this
    linarith
  have h3 : (k : ℝ) ≤ 4000000 := by exact_mod_cast hk
  have hp : (0 : ℝ) < (1 + 2⁻¹ ^ 53) ^ k := by positivity
  have h4 : (1 - (4000000 : ℝ) * 2⁻¹ ^ 53) ≤ (1 - 2⁻¹ ^ 53) ^ k := by
    refine le_trans ?_ h2
    gcongr
  have h5 : (1 + 2⁻¹ ^ 53 : ℝ) ^ k * (1 - (4000000 : ℝ) * 2⁻¹ ^ 53) ≤ 1 := le_trans (by gcongr) h1
  have h6 : (1 + 2⁻¹ ^ 53 : ℝ) ^ k ≤ 1 / (1 - (4000000 : ℝ) * 2⁻¹ ^ 53) := by
    rw [le_div_iff₀ (by norm_num)]; exact h5
  have h7 : 1 / (1 - (4000000 : ℝ) * 2⁻¹ ^ 53) - 1 ≤ 10⁻¹ ^ 9 := by norm_num
  linarith

/-- `2^53 + 1` is not the result of an operation with floats. -/
theorem rnd_ne (y : ℝ) : rnd y ≠ 2 ^ 53 + 1 := by
  intro h
  have herr := rnd_err y
  rw [h] at herr
  have h1 := abs_le.1 herr
  have hu : ulp = 1 / 9007199254740992 := by norm_num [ulp]
  rw [hu] at h1
  have hy : 0 < y := by
    rcases le_or_gt y 0 with hy | hy
    · rw [abs_of_nonpos hy] at h1; exfalso; linarith [h1.1, h1.2]
    · exact hy
  rw [abs_of_pos hy] at h1
  have hlog : Int.log 2 |y| = 53 := by
    rw [abs_of_pos hy]
    apply le_antisymm
    · have : y < ((2 : ℕ) : ℝ) ^ (54 : ℤ) := by norm_num; linarith [h1.1, h1.2]
      have := (Int.lt_zpow_iff_log_lt (b := 2) (by norm_num) hy).1 this
      omega
    · refine (Int.zpow_le_iff_le_log (b := 2) (by norm_num) hy).1 ?_
      norm_num
      by_contra hlt
      push Not at hlt
      have e1 : Int.log 2 y ≤ 52 := by
        have : y < ((2 : ℕ) : ℝ) ^ (53 : ℤ) := by norm_num; linarith
        have := (Int.lt_zpow_iff_log_lt (b := 2) (by norm_num) hy).1 this
        omega
      linarith [h1.1, h1.2]
  rw [rnd, if_neg hy.ne', hlog] at h
  norm_num at h
  have h2 : (rint (y * (1 / 2)) * 2 : ℤ) = 9007199254740993 := by exact_mod_cast h
  omega

end FF
