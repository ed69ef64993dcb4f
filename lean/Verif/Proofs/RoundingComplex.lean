import Verif.Model.MachineComplex
import Verif.Proofs.Rounding
import Mathlib.Analysis.Complex.Norm

/-! # Rounding errors of the combinatorial functions for complex arrays -/

namespace FF

open Equiv

theorem norm_mk_le {x y a b : ℝ} (hx : |x| ≤ a) (hy : |y| ≤ b) : ‖(⟨x, y⟩ : ℂ)‖ ≤ Real.sqrt (a ^ 2 + b ^ 2) := by
  rw [Complex.norm_def, Complex.normSq_apply]
  refine Real.sqrt_le_sqrt ?_
  have h1 := sq_le_sq' (by linarith [neg_abs_le x]) ((le_abs_self x).trans hx)
  have h2 := sq_le_sq' (by linarith [neg_abs_le y]) ((le_abs_self y).trans hy)
  simp only
  nlinarith

theorem ulp_pos : (0 : ℝ) < ulp := by positivity

/-- Rounding both parts. -/
noncomputable def rndC (z : ℂ) : ℂ := ⟨rnd z.re, rnd z.im⟩

theorem rndC_err (z : ℂ) : ‖rndC z - z‖ ≤ ulp * ‖z‖ := by
  have h := norm_mk_le (rnd_err z.re) (rnd_err z.im)
  have e : rndC z - z = ⟨rnd z.re - z.re, rnd z.im - z.im⟩ := by apply Complex.ext <;> simp [rndC]
  rw [e]
  refine h.trans (le_of_eq ?_)
  rw [mul_pow, mul_pow, ← mul_add, Real.sqrt_mul (by positivity), Real.sqrt_sq ulp_pos.le, Complex.norm_def, Complex.normSq_apply, sq_abs,
    sq_abs, ← sq, ← sq]

theorem two_rnd {x y : ℝ} : |rnd (rnd x + rnd y) - (x + y)| ≤ ((1 + ulp) ^ 2 - 1) * (|x| + |y|) := by
  have := ((Near.exact x).rnd.add (Near.exact y).rnd).rnd.err
  rw [mul_one, ← sq] at this
  exact this

theorem rnd_neg (x : ℝ) : |rnd x| ≤ (1 + ulp) * |x| := by
  have := (Near.exact x).rnd.bound
  rwa [mul_one] at this

theorem two_rnd_sub {x y : ℝ} : |rnd (rnd x - rnd y) - (x - y)| ≤ ((1 + ulp) ^ 2 - 1) * (|x| + |y|) := by
  have hn : Near (1 + ulp) (-y) |y| (-rnd y) := by
    have h := (Near.exact y).rnd
    rw [mul_one] at h
    refine ⟨?_, by rw [abs_neg]⟩
    rw [show -rnd y - -y = -(rnd y - y) by ring, abs_neg]
    exact h.err
  have h1 : Near (1 + ulp) x |x| (rnd x) := by have := (Near.exact x).rnd; rwa [mul_one] at this
  have := (h1.add hn).rnd.err
  rw [← sq, ← sub_eq_add_neg, ← sub_eq_add_neg] at this
  exact this

theorem mulC_err (z w : ℂ) : ‖mulC z w - z * w‖ ≤ ((1 + ulp) ^ 3 - 1) * (‖z‖ * ‖w‖) := by
  have e : mulC z w - z * w = ⟨rnd (rnd (z.re * w.re) - rnd (z.im * w.im)) - (z.re * w.re - z.im * w.im),
      rnd (rnd (z.re * w.im) + rnd (z.im * w.re)) - (z.re * w.im + z.im * w.re)⟩ := by
    apply Complex.ext <;> simp [mulC]
  rw [e]
  refine (norm_mk_le two_rnd_sub two_rnd).trans ?_
  rw [mul_pow, mul_pow, ← mul_add, Real.sqrt_mul (by positivity)]
  have hu := ulp_pos
  have hg : 0 ≤ (1 + ulp) ^ 2 - 1 := by nlinarith
  rw [Real.sqrt_sq hg]
  have hs : Real.sqrt ((|z.re * w.re| + |z.im * w.im|) ^ 2 + (|z.re * w.im| + |z.im * w.re|) ^ 2) ≤ 3 / 2 * (‖z‖ * ‖w‖) := by
    refine Real.sqrt_le_iff.2 ⟨by positivity, ?_⟩
    have hz : ‖z‖ ^ 2 = |z.re| ^ 2 + |z.im| ^ 2 := by rw [Complex.sq_norm, Complex.normSq_apply, sq_abs, sq_abs]; ring
    have hw : ‖w‖ ^ 2 = |w.re| ^ 2 + |w.im| ^ 2 := by rw [Complex.sq_norm, Complex.normSq_apply, sq_abs, sq_abs]; ring
    rw [mul_pow, mul_pow, hz, hw]
    simp only [abs_mul]
    set a := |z.re|
    set b := |z.im|
    set c := |w.re|
    set d := |w.im|
    have : (a * c + b * d) ^ 2 + (a * d + b * c) ^ 2 ≤ 2 * ((a ^ 2 + b ^ 2) * (c ^ 2 + d ^ 2)) := by
      nlinarith [mul_nonneg (sq_nonneg (a - b)) (sq_nonneg (c + d)), mul_nonneg (sq_nonneg (a + b)) (sq_nonneg (c - d)),
        mul_nonneg (sq_nonneg (a - b)) (sq_nonneg (c - d))]
    nlinarith [mul_nonneg (add_nonneg (sq_nonneg a) (sq_nonneg b)) (add_nonneg (sq_nonneg c) (sq_nonneg d))]
  calc _ ≤ ((1 + ulp) ^ 2 - 1) * (3 / 2 * (‖z‖ * ‖w‖)) := mul_le_mul_of_nonneg_left hs hg
    _ = (3 / 2 * ((1 + ulp) ^ 2 - 1)) * (‖z‖ * ‖w‖) := by ring
    _ ≤ _ := by
      refine mul_le_mul_of_nonneg_right ?_ (by positivity)
      have h2 : 0 ≤ ulp ^ 2 := by positivity
      have h3 : 0 ≤ ulp ^ 3 := by positivity
      nlinarith

/-- `y` is `x` up to the relative error `c - 1` with respect to the magnitude `m`. -/
structure NearC (c : ℝ) (x : ℂ) (m : ℝ) (y : ℂ) : Prop where
  err : ‖y - x‖ ≤ (c - 1) * m
  mag : ‖x‖ ≤ m

theorem NearC.exact (x : ℂ) : NearC 1 x ‖x‖ x := ⟨by simp, le_rfl⟩

theorem NearC.nonneg {c : ℝ} {x : ℂ} {m : ℝ} {y : ℂ} (h : NearC c x m y) : 0 ≤ m := (norm_nonneg x).trans h.mag

theorem NearC.bound {c : ℝ} {x : ℂ} {m : ℝ} {y : ℂ} (h : NearC c x m y) : ‖y‖ ≤ c * m := by
  have : ‖y‖ ≤ ‖y - x‖ + ‖x‖ := by
    calc ‖y‖ = ‖(y - x) + x‖ := by ring_nf
      _ ≤ _ := norm_add_le _ _
  have h1 := h.err
  have h2 := h.mag
  linarith

theorem NearC.mono {c c' : ℝ} {x : ℂ} {m : ℝ} {y : ℂ} (h : NearC c x m y) (hc : c ≤ c') : NearC c' x m y :=
  ⟨h.err.trans (by have := h.nonneg; gcongr), h.mag⟩

/-- A step with relative error `g - 1`. -/
theorem NearC.step {c g : ℝ} {x : ℂ} {m : ℝ} {y y' : ℂ} (h : NearC c x m y) (hg : 1 ≤ g) (h' : ‖y' - y‖ ≤ (g - 1) * ‖y‖) :
    NearC (g * c) x m y' := by
  refine ⟨?_, h.mag⟩
  have h2 := h.bound
  have h4 : (g - 1) * ‖y‖ ≤ (g - 1) * (c * m) := mul_le_mul_of_nonneg_left h2 (by linarith)
  calc ‖y' - x‖ = ‖(y' - y) + (y - x)‖ := by ring_nf
    _ ≤ ‖y' - y‖ + ‖y - x‖ := norm_add_le _ _
    _ ≤ (g - 1) * (c * m) + (c - 1) * m := add_le_add (h'.trans h4) h.err
    _ = _ := by ring

theorem NearC.mulExact {c : ℝ} {x : ℂ} {m : ℝ} {y : ℂ} (h : NearC c x m y) (a : ℂ) : NearC c (x * a) (m * ‖a‖) (y * a) := by
  refine ⟨?_, ?_⟩
  · rw [← sub_mul, norm_mul, ← mul_assoc]
    gcongr
    exact h.err
  · rw [norm_mul]
    gcongr
    exact h.mag

theorem one_le_ulp3 : 1 ≤ (1 + ulp) ^ 3 := one_le_pow_ulp 3

theorem NearC.mul {c : ℝ} {x : ℂ} {m : ℝ} {y : ℂ} (h : NearC c x m y) (a : ℂ) :
    NearC ((1 + ulp) ^ 3 * c) (x * a) (m * ‖a‖) (mulC y a) :=
  (h.mulExact a).step one_le_ulp3 (by rw [norm_mul]; exact mulC_err y a)

theorem NearC.mulLeft {c : ℝ} {x : ℂ} {m : ℝ} {y : ℂ} (h : NearC c x m y) (a : ℂ) :
    NearC ((1 + ulp) ^ 3 * c) (a * x) (m * ‖a‖) (mulC a y) := by
  have := h.mulExact a
  rw [mul_comm x, mul_comm y] at this
  exact this.step one_le_ulp3 (by rw [norm_mul]; exact mulC_err a y)

theorem NearC.add {c : ℝ} {x : ℂ} {m : ℝ} {y x' : ℂ} {m' : ℝ} {y' : ℂ} (h : NearC c x m y) (h' : NearC c x' m' y') :
    NearC ((1 + ulp) * c) (x + x') (m + m') (addC y y') := by
  have hadd : NearC c (x + x') (m + m') (y + y') := by
    refine ⟨?_, (norm_add_le _ _).trans (add_le_add h.mag h'.mag)⟩
    calc ‖y + y' - (x + x')‖ = ‖(y - x) + (y' - x')‖ := by ring_nf
      _ ≤ ‖y - x‖ + ‖y' - x'‖ := norm_add_le _ _
      _ ≤ (c - 1) * m + (c - 1) * m' := add_le_add h.err h'.err
      _ = _ := by ring
  refine hadd.step (by linarith [ulp_pos]) ?_
  rw [add_sub_cancel_left]
  exact rndC_err (y + y')

theorem prodOn_nearC (l : List ℂ) :
    NearC ((1 + ulp) ^ (3 * l.length)) l.prod (l.map norm).prod (prodOn complex128 l) := by
  have h : ∀ (c : ℝ) (x : ℂ) (m : ℝ) (y : ℂ), NearC c x m y →
      NearC ((1 + ulp) ^ (3 * l.length) * c) (x * l.prod) (m * (l.map norm).prod) (l.foldl mulC y) := by
    induction l with
    | nil => intro c x m y h; simpa using h
    | cons a l ih =>
      intro c x m y h
      have := ih _ _ _ _ (h.mul a)
      rw [List.length_cons, List.prod_cons, List.map_cons, List.prod_cons, List.foldl_cons, Nat.mul_succ, pow_add]
      convert this using 1 <;> ring
  have := h _ _ _ _ (NearC.exact 1)
  simp only [norm_one, mul_one, one_mul] at this
  unfold prodOn
  have h1 : complex128.ofInt 1 = 1 := by simp [complex128, rnd_one]
  rw [h1]
  exact this

theorem sumOn_nearC {α : Type} (l : List α) (f g : α → ℂ) (m : α → ℝ) (c : ℝ) (hc : 1 ≤ c)
    (h : ∀ a ∈ l, NearC c (f a) (m a) (g a)) :
    NearC ((1 + ulp) ^ l.length * c) (l.map f).sum (l.map m).sum (sumOn complex128 (l.map g)) := by
  have key : ∀ (c' : ℝ) (x : ℂ) (M : ℝ) (y : ℂ), c ≤ c' → NearC c' x M y →
      NearC ((1 + ulp) ^ l.length * c') (x + (l.map f).sum) (M + (l.map m).sum) ((l.map g).foldl addC y) := by
    induction l with
    | nil => intro c' x M y _ h; simpa using h
    | cons a l ih =>
      intro c' x M y hcc hn
      have h1 := hn.add ((h a List.mem_cons_self).mono hcc)
      have hge : c ≤ (1 + ulp) * c' := by
        have hu := ulp_pos
        nlinarith
      have := ih (fun b hb => h b (List.mem_cons_of_mem _ hb)) _ _ _ _ hge h1
      simpa [pow_succ, mul_assoc, add_assoc] using this
  have h0 : NearC c 0 0 0 := ⟨by simp, by simp⟩
  have := key c 0 0 0 le_rfl h0
  have e : complex128.ofInt 0 = 0 := by simp [complex128, rnd_zero]
  rw [zero_add, zero_add] at this
  rw [sumOn, e]
  exact this

theorem NearC.sign {c : ℝ} {x : ℂ} {m : ℝ} {y : ℂ} (h : NearC c x m y) {n : ℕ} (σ : Perm (Fin n)) :
    NearC ((1 + ulp) ^ 3 * c) (((Perm.sign σ : ℤ) : ℂ) * x) m (complex128.mul (complex128.ofInt (Perm.sign σ)) y) := by
  have h1 : complex128.ofInt (Perm.sign σ : ℤ) = ((Perm.sign σ : ℤ) : ℂ) := by
    have : rnd (((Perm.sign σ : ℤ) : ℝ)) = ((Perm.sign σ : ℤ) : ℝ) :=
      rnd_int (by rcases Int.units_eq_one_or (Perm.sign σ) with e | e <;> rw [e] <;> norm_num)
    simp [complex128, this]
  have h2 : ‖((Perm.sign σ : ℤ) : ℂ)‖ = 1 := by
    rcases Int.units_eq_one_or (Perm.sign σ) with e | e <;> rw [e] <;> simp
  have := h.mulLeft ((Perm.sign σ : ℤ) : ℂ)
  rw [h2, mul_one] at this
  rw [h1]
  exact this

theorem prodOn_ofFn_nearC {n : ℕ} (f : Fin n → ℂ) :
    NearC ((1 + ulp) ^ (3 * n)) (∏ i, f i) (∏ i, ‖f i‖) (prodOn complex128 (List.ofFn f)) := by
  have := prodOn_nearC (List.ofFn f)
  rw [List.length_ofFn, List.prod_ofFn, List.map_ofFn, List.prod_ofFn] at this
  exact this

theorem dtOn_complex128 {n : ℕ} (A : Matrix (Fin n) (Fin n) ℂ) : ∃ v, dtOn complex128 A = .ok v ∧
    NearC ((1 + ulp) ^ (n.factorial + 3 * n + 3)) A.det (A.map norm).permanent v := by
  obtain ⟨L, hn, hc, hL⟩ := exists_perms n
  refine ⟨_, dtOn_ok complex128 A hL, ?_⟩
  have := sumOn_nearC L (fun σ => ((Perm.sign σ : ℤ) : ℂ) * ∏ i, A i (σ i))
    (fun σ => complex128.mul (complex128.ofInt (Perm.sign σ)) (prodOn complex128 (List.ofFn fun i => A i (σ i))))
    (fun σ => ∏ i, ‖A i (σ i)‖) ((1 + ulp) ^ 3 * (1 + ulp) ^ (3 * n)) (by rw [← pow_add]; exact one_le_pow_ulp _)
    (fun σ _ => (prodOn_ofFn_nearC fun i => A i (σ i)).sign σ)
  rw [sum_perms hn hc, sum_perms hn hc, length_perms hn hc] at this
  convert this using 1
  · ring
  · rw [← Matrix.det_transpose, Matrix.det_apply']; simp
  · rw [← Matrix.permanent_transpose, Matrix.permanent]; simp

theorem ptOn_complex128 {n : ℕ} (A : Matrix (Fin n) (Fin n) ℂ) : ∃ v, ptOn complex128 A = .ok v ∧
    NearC ((1 + ulp) ^ (n.factorial + 3 * n)) A.permanent (A.map norm).permanent v := by
  obtain ⟨L, hn, hc, hL⟩ := exists_perms n
  refine ⟨_, ptOn_ok complex128 A hL, ?_⟩
  have := sumOn_nearC L (fun σ => ∏ i, A i (σ i)) (fun σ => prodOn complex128 (List.ofFn fun i => A i (σ i)))
    (fun σ => ∏ i, ‖A i (σ i)‖) ((1 + ulp) ^ (3 * n)) (one_le_pow_ulp _)
    (fun σ _ => prodOn_ofFn_nearC fun i => A i (σ i))
  rw [sum_perms hn hc, sum_perms hn hc, length_perms hn hc] at this
  convert this using 1
  · ring
  · rw [← Matrix.permanent_transpose, Matrix.permanent]; simp
  · rw [← Matrix.permanent_transpose, Matrix.permanent]; simp

theorem scl_near {k : ℝ} (hk : 0 < k) : Near ((1 + ulp) / (1 - ulp) ^ 2) (1 / k) (1 / k) (rnd (1 / rnd (rnd k))) := by
  have hu := ulp_pos
  have hu1 : ulp < 1 := by norm_num [ulp]
  have h1 := rnd_err k
  rw [abs_of_pos hk] at h1
  have hr1 : (1 - ulp) * k ≤ rnd k := by have := (abs_le.1 h1).1; linarith
  have hr2 : rnd k ≤ (1 + ulp) * k := by have := (abs_le.1 h1).2; linarith
  have hr : 0 < rnd k := lt_of_lt_of_le (mul_pos (by linarith) hk) hr1
  have h2 := rnd_err (rnd k)
  rw [abs_of_pos hr] at h2
  set q := rnd (rnd k)
  have hq1 : (1 - ulp) ^ 2 * k ≤ q := by
    have := (abs_le.1 h2).1
    nlinarith
  have hq2 : q ≤ (1 + ulp) ^ 2 * k := by
    have := (abs_le.1 h2).2
    nlinarith
  have hp : 0 < (1 - ulp) ^ 2 := by have : 0 < 1 - ulp := by linarith
                                    positivity
  have hq : 0 < q := lt_of_lt_of_le (mul_pos hp hk) hq1
  have key : Near (1 / (1 - ulp) ^ 2) (1 / k) (1 / k) (1 / q) := by
    refine ⟨?_, by rw [abs_of_pos (by positivity)]⟩
    rw [abs_le]
    have ha : 1 / q ≤ 1 / (1 - ulp) ^ 2 * (1 / k) := by
      rw [one_div_mul_one_div]
      exact one_div_le_one_div_of_le (mul_pos hp hk) hq1
    have hb : 1 / (1 + ulp) ^ 2 * (1 / k) ≤ 1 / q := by
      rw [one_div_mul_one_div]
      exact one_div_le_one_div_of_le hq hq2
    have hc : 2 ≤ 1 / (1 - ulp) ^ 2 + 1 / (1 + ulp) ^ 2 := by
      rw [div_add_div _ _ hp.ne' (by positivity), le_div_iff₀ (by positivity)]
      have : 0 ≤ ulp ^ 2 * (1 - ulp ^ 2) := mul_nonneg (by positivity) (by nlinarith)
      nlinarith [sq_nonneg ulp]
    have hkp : 0 < 1 / k := by positivity
    constructor <;> nlinarith
  have := key.rnd
  convert this using 1
  ring

theorem div_part {k : ℝ} (hk : 0 < k) (x : ℝ) :
    |rnd (rnd x * rnd (1 / rnd (rnd k))) - x / k| ≤ ((1 + ulp) ^ 3 / (1 - ulp) ^ 2 - 1) * |x / k| := by
  have hu := ulp_pos
  have hu1 : ulp < 1 := by norm_num [ulp]
  set c := (1 + ulp) / (1 - ulp) ^ 2 with hc
  have hp : 0 < (1 - ulp) ^ 2 := by have : 0 < 1 - ulp := by linarith
                                    positivity
  have hc1 : 1 ≤ c := by
    rw [hc, le_div_iff₀ hp]
    nlinarith
  have h1 := ((scl_near hk).mul (rnd x)).rnd.err
  rw [← hc, mul_comm (rnd (1 / _))] at h1
  have h2 := rnd_err x
  have h3 := rnd_neg x
  have hk' : |x / k| = |x| * (1 / k) := by rw [abs_div, abs_of_pos hk]; ring
  rw [hk']
  have hkp : 0 < 1 / k := by positivity
  have e : (1 + ulp) ^ 3 / (1 - ulp) ^ 2 = (1 + ulp) ^ 2 * c := by rw [hc]; ring
  rw [e]
  have h4 : |1 / k * rnd x - x / k| ≤ ulp * |x| * (1 / k) := by
    rw [show 1 / k * rnd x - x / k = (rnd x - x) * (1 / k) by ring, abs_mul, abs_of_pos hkp]
    exact mul_le_mul_of_nonneg_right h2 hkp.le
  have hcc : 0 ≤ (1 + ulp) * c - 1 := by nlinarith
  have h5 : ((1 + ulp) * c - 1) * (1 / k * |rnd x|) ≤ ((1 + ulp) * c - 1) * (1 / k * ((1 + ulp) * |x|)) :=
    mul_le_mul_of_nonneg_left (mul_le_mul_of_nonneg_left h3 hkp.le) hcc
  have h6 := abs_sub_le (rnd (rnd x * rnd (1 / rnd (rnd k)))) (1 / k * rnd x) (x / k)
  calc _ ≤ _ := h6
    _ ≤ ((1 + ulp) * c - 1) * (1 / k * ((1 + ulp) * |x|)) + ulp * |x| * (1 / k) := add_le_add (h1.trans h5) h4
    _ = _ := by ring

theorem divComplex_err (s : ℂ) {k : ℤ} (hk : 0 < k) :
    ‖divComplex s k - s / (k : ℂ)‖ ≤ ((1 + ulp) ^ 3 / (1 - ulp) ^ 2 - 1) * ‖s / (k : ℂ)‖ := by
  have hkr : (0 : ℝ) < k := by exact_mod_cast hk
  have e1 : divComplex s k = ⟨rnd (rnd s.re * rnd (1 / rnd (rnd k))), rnd (rnd s.im * rnd (1 / rnd (rnd k)))⟩ := by
    simp [divComplex, rnd_zero]
  have hre : (s / (k : ℂ)).re = s.re / k := by rw [← Complex.ofReal_intCast, Complex.div_ofReal_re]
  have him : (s / (k : ℂ)).im = s.im / k := by rw [← Complex.ofReal_intCast, Complex.div_ofReal_im]
  have e : divComplex s k - s / (k : ℂ) = ⟨rnd (rnd s.re * rnd (1 / rnd (rnd k))) - s.re / k,
      rnd (rnd s.im * rnd (1 / rnd (rnd k))) - s.im / k⟩ := by
    apply Complex.ext
    · rw [Complex.sub_re, e1, hre]
    · rw [Complex.sub_im, e1, him]
  rw [e]
  refine (norm_mk_le (div_part hkr s.re) (div_part hkr s.im)).trans (le_of_eq ?_)
  have hu := ulp_pos
  have hu1 : ulp < 1 := by norm_num [ulp]
  have hp : 0 < (1 - ulp) ^ 2 := by have : 0 < 1 - ulp := by linarith
                                    positivity
  have hg : 0 ≤ (1 + ulp) ^ 3 / (1 - ulp) ^ 2 - 1 := by
    rw [sub_nonneg, le_div_iff₀ hp]
    nlinarith [pow_pos hu 3, pow_pos hu 2]
  rw [mul_pow, mul_pow, ← mul_add, Real.sqrt_mul (by positivity), Real.sqrt_sq hg, Complex.norm_def, Complex.normSq_apply, sq_abs,
    sq_abs, hre, him, ← sq, ← sq]

theorem NearC.div {c : ℝ} {x : ℂ} {m : ℝ} {y : ℂ} (h : NearC c x m y) {k : ℤ} (hk : 0 < k) :
    NearC ((1 + ulp) ^ 3 / (1 - ulp) ^ 2 * c) (x / k) (m / k) (divComplex y k) := by
  have hkr : (0 : ℝ) < k := by exact_mod_cast hk
  have hu := ulp_pos
  have hu1 : ulp < 1 := by norm_num [ulp]
  have hp : 0 < (1 - ulp) ^ 2 := by have : 0 < 1 - ulp := by linarith
                                    positivity
  have hn : ‖((k : ℂ))⁻¹‖ = (k : ℝ)⁻¹ := by
    rw [norm_inv, ← Complex.ofReal_intCast, Complex.norm_real, Real.norm_of_nonneg hkr.le]
  have h1 := h.mulExact (k : ℂ)⁻¹
  rw [hn, ← div_eq_mul_inv, ← div_eq_mul_inv, ← div_eq_mul_inv] at h1
  refine h1.step ?_ (divComplex_err y hk)
  rw [le_div_iff₀ hp]
  nlinarith [pow_pos hu 3, pow_pos hu 2]

theorem pfOn_complex128 {m : ℕ} (A : Matrix (Fin (2 * m)) (Fin (2 * m)) ℂ) : ∃ v, pfOn complex128 divComplex A = .ok v ∧
    NearC ((1 + ulp) ^ 3 / (1 - ulp) ^ 2 * (1 + ulp) ^ ((2 * m).factorial + 3 * m + 3)) (pfVal A) (hfVal (A.map norm)) v := by
  obtain ⟨L, hn, hc, hL⟩ := exists_perms (2 * m)
  refine ⟨_, pfOn_ok complex128 divComplex A hL, ?_⟩
  have h := sumOn_nearC L (fun σ => ((Perm.sign σ : ℤ) : ℂ) * ∏ i : Fin m, A (σ (ev i)) (σ (od i)))
    (fun σ => complex128.mul (complex128.ofInt (Perm.sign σ))
      (prodOn complex128 (List.ofFn fun i : Fin m => A (σ (ev i)) (σ (od i)))))
    (fun σ => ∏ i : Fin m, ‖A (σ (ev i)) (σ (od i))‖) ((1 + ulp) ^ 3 * (1 + ulp) ^ (3 * m))
    (by rw [← pow_add]; exact one_le_pow_ulp _)
    (fun σ _ => (prodOn_ofFn_nearC fun i : Fin m => A (σ (ev i)) (σ (od i))).sign σ)
  rw [sum_perms hn hc, sum_perms hn hc, length_perms hn hc] at h
  have := h.div (k := 2 ^ m * m.factorial) (by positivity)
  convert this using 1
  · ring
  · simp [pfVal]
  · simp [hfVal]

theorem hfOn_complex128 {m : ℕ} (A : Matrix (Fin (2 * m)) (Fin (2 * m)) ℂ) : ∃ v, hfOn complex128 divComplex A = .ok v ∧
    NearC ((1 + ulp) ^ 3 / (1 - ulp) ^ 2 * (1 + ulp) ^ ((2 * m).factorial + 3 * m)) (hfVal A) (hfVal (A.map norm)) v := by
  obtain ⟨L, hn, hc, hL⟩ := exists_perms (2 * m)
  refine ⟨_, hfOn_ok complex128 divComplex A hL, ?_⟩
  have h := sumOn_nearC L (fun σ => ∏ i : Fin m, A (σ (ev i)) (σ (od i)))
    (fun σ => prodOn complex128 (List.ofFn fun i : Fin m => A (σ (ev i)) (σ (od i))))
    (fun σ => ∏ i : Fin m, ‖A (σ (ev i)) (σ (od i))‖) ((1 + ulp) ^ (3 * m)) (one_le_pow_ulp _)
    (fun σ _ => prodOn_ofFn_nearC fun i : Fin m => A (σ (ev i)) (σ (od i)))
  rw [sum_perms hn hc, sum_perms hn hc, length_perms hn hc] at h
  have := h.div (k := 2 ^ m * m.factorial) (by positivity)
  convert this using 1
  · ring
  · simp [hfVal]
  · simp [hfVal]

end FF
