import Verif.Spec.MachineSum
import Verif.Proofs.Accepted
import Verif.Proofs.Distance3
import Verif.Proofs.Utils
import Verif.Proofs.Rounding

/-! # Helper lemmas on rounding errors of sums -/

namespace FF

theorem SumTree.near {ι : Type} (t : SumTree ι) (f m g : ι → ℝ) {c : ℝ} (hc : 1 ≤ c) (h : ∀ i, Near c (f i) (m i) (g i)) :
    Near ((1 + ulp) ^ t.depth * c) (t.leaves.map f).sum (t.leaves.map m).sum (t.eval g) := by
  have hu : (0 : ℝ) ≤ ulp := by positivity
  induction t with
  | zero => simpa [depth, leaves, eval] using (⟨by simp, by simp⟩ : Near c 0 0 0)
  | leaf i => simpa [depth, leaves, eval] using h i
  | node l r ihl ihr =>
    have mono : ∀ k, k ≤ max l.depth r.depth → (1 + ulp) ^ k * c ≤ (1 + ulp) ^ max l.depth r.depth * c := fun k hk =>
      mul_le_mul_of_nonneg_right (pow_le_pow_right₀ (by linarith) hk) (by linarith)
    have := ((ihl.mono (mono _ (le_max_left _ _))).add (ihr.mono (mono _ (le_max_right _ _)))).rnd
    rw [depth, pow_succ', mul_assoc]
    simpa [leaves, eval] using this

open Spec

theorem sumOrder_near {n : ℕ} {t : SumTree (Fin n)} (ht : IsSumOrder t) (f m g : Fin n → ℝ) {c : ℝ} (hc : 1 ≤ c)
    (h : ∀ i, Near c (f i) (m i) (g i)) : Near ((1 + ulp) ^ n * c) (∑ i, f i) (∑ i, m i) (t.eval g) := by
  have hu : (0 : ℝ) ≤ ulp := by positivity
  have e : ∀ f : Fin n → ℝ, (t.leaves.map f).sum = ∑ i, f i := fun f => by
    rw [(ht.1.map f).sum_eq, ← List.ofFn_eq_map, List.sum_ofFn]
  have := t.near f m g hc h
  rw [e, e] at this
  exact this.mono (mul_le_mul_of_nonneg_right (pow_le_pow_right₀ (by linarith) ht.2) (by linarith))

theorem Near.abs {c x y : ℝ} (h : Near c x |x| y) : Near c |x| |x| |y| :=
  ⟨(abs_abs_sub_abs_le _ _).trans h.err, by rw [abs_abs]⟩

theorem Near.sqrt {c x y : ℝ} (hx : 0 ≤ x) (hy : 0 ≤ y) (h : Near c x x y) : Near c (Real.sqrt x) (Real.sqrt x) (Real.sqrt y) := by
  refine ⟨?_, by rw [abs_of_nonneg (Real.sqrt_nonneg x)]⟩
  have h1 := h.err
  by_cases h0 : x = 0
  · subst h0
    have : y = 0 := by simpa using h1
    simp [this]
  have hpos : 0 < Real.sqrt x := Real.sqrt_pos.2 (lt_of_le_of_ne hx (Ne.symm h0))
  have e : (Real.sqrt y - Real.sqrt x) * (Real.sqrt y + Real.sqrt x) = y - x := by
    have := Real.mul_self_sqrt hx
    have := Real.mul_self_sqrt hy
    nlinarith
  have h2 : |Real.sqrt y - Real.sqrt x| * Real.sqrt x ≤ |y - x| := by
    rw [← e, abs_mul]
    refine mul_le_mul_of_nonneg_left ?_ (abs_nonneg _)
    rw [abs_of_nonneg (by positivity)]
    linarith [Real.sqrt_nonneg y]
  have h3 : |Real.sqrt y - Real.sqrt x| * Real.sqrt x ≤ ((c - 1) * Real.sqrt x) * Real.sqrt x := by
    rw [mul_assoc, Real.mul_self_sqrt hx]
    exact h2.trans h1
  exact le_of_mul_le_mul_right h3 hpos

theorem Near.sq {c x y : ℝ} (h : Near c x |x| y) (hc : 1 ≤ c) : Near (c * c) (x * x) (x * x) (y * y) := by
  have h1 := h.err
  have h2 := h.bound
  refine ⟨?_, by rw [abs_mul_self]⟩
  have e : y * y - x * x = (y - x) * (y + x) := by ring
  rw [e, abs_mul]
  have h3 : |y + x| ≤ (c + 1) * |x| := by
    refine (abs_add_le _ _).trans ?_
    linarith
  calc |y - x| * |y + x| ≤ ((c - 1) * |x|) * ((c + 1) * |x|) :=
        mul_le_mul h1 h3 (abs_nonneg _) (mul_nonneg (by linarith) (abs_nonneg _))
    _ = (c * c - 1) * (|x| * |x|) := by ring
    _ = _ := by rw [abs_mul_abs_self]

theorem rnd_nonneg {x : ℝ} (h : 0 ≤ x) : 0 ≤ rnd x := by
  have h1 := abs_le.1 (rnd_err x)
  rw [abs_of_nonneg h] at h1
  have : ulp ≤ 1 := by norm_num [ulp]
  nlinarith

theorem SumTree.eval_nonneg {ι : Type} (t : SumTree ι) (g : ι → ℝ) (h : ∀ i, 0 ≤ g i) : 0 ≤ t.eval g := by
  induction t with
  | zero => exact le_rfl
  | leaf i => exact h i
  | node l r ihl ihr => exact rnd_nonneg (add_nonneg ihl ihr)

theorem near_one (x : ℝ) : Near 1 x |x| x := Near.exact x

theorem tvdFloat_near {n : ℕ} {t : SumTree (Fin n)} (ht : IsSumOrder t) (p q : Fin n → ℝ) :
    Near ((1 + ulp) ^ (n + 2)) (0.5 * ∑ i, |p i - q i|) (0.5 * ∑ i, |p i - q i|) (tvdFloat t p q) := by
  have hu : (0 : ℝ) ≤ ulp := by positivity
  have h := sumOrder_near ht (fun i => |p i - q i|) (fun i => |p i - q i|) (fun i => |rnd (p i - q i)|) (c := (1 + ulp) * 1) (by linarith)
    fun i => (near_one _).rnd.abs
  have h' := (h.mul 0.5).rnd
  have e : (1 + ulp) * ((1 + ulp) ^ n * ((1 + ulp) * 1)) = (1 + ulp) ^ (n + 2) := by ring
  rw [e, show |(0.5 : ℝ)| = 0.5 by norm_num, mul_comm _ (0.5 : ℝ), mul_comm _ (0.5 : ℝ)] at h'
  exact h'

theorem bhattacharyyaFloat_near {n : ℕ} {t : SumTree (Fin n)} (ht : IsSumOrder t) (p q : Fin n → ℝ) (hp : ∀ i, 0 ≤ p i)
    (hq : ∀ i, 0 ≤ q i) :
    Near ((1 + ulp) ^ (n + 2)) (∑ i, Real.sqrt (p i * q i)) (∑ i, Real.sqrt (p i * q i)) (bhattacharyyaFloat t p q) := by
  have hu : (0 : ℝ) ≤ ulp := by positivity
  have h := sumOrder_near ht (fun i => Real.sqrt (p i * q i)) (fun i => Real.sqrt (p i * q i)) (fun i => rnd (Real.sqrt (rnd (p i * q i))))
    (c := (1 + ulp) * ((1 + ulp) * 1)) (by nlinarith) fun i => by
      have h0 := mul_nonneg (hp i) (hq i)
      have h1 := (near_one (p i * q i)).rnd
      rw [abs_of_nonneg h0] at h1
      exact (h1.sqrt h0 (rnd_nonneg h0)).rnd
  have e : (1 + ulp) ^ n * ((1 + ulp) * ((1 + ulp) * 1)) = (1 + ulp) ^ (n + 2) := by ring
  rw [e] at h
  exact h

theorem near_one_sub {c x y : ℝ} (hx : 0 ≤ x) (hc : 1 ≤ c) (h : Near c x x y) : Near ((1 + ulp) * c) (1 - x) (1 + x) (rnd (1 - y)) := by
  refine Near.rnd ⟨?_, ?_⟩
  · rw [show 1 - y - (1 - x) = -(y - x) by ring, abs_neg]
    exact h.err.trans (mul_le_mul_of_nonneg_left (by linarith) (by linarith))
  · exact abs_sub_le_iff.2 ⟨by linarith, by linarith⟩

theorem linearEntropyAltFloat_near {n : ℕ} {t : SumTree (Fin n)} (ht : IsSumOrder t) (p : Fin n → ℝ) :
    Near ((1 + ulp) ^ (n + 2)) (1 - ∑ i, p i ^ 2) (1 + ∑ i, p i ^ 2) (linearEntropyAltFloat t p) := by
  have hu : (0 : ℝ) ≤ ulp := by positivity
  have h := sumOrder_near ht (fun i => p i ^ 2) (fun i => p i ^ 2) (fun i => rnd (p i * p i)) (c := (1 + ulp) * 1) (by linarith) fun i => by
    have h1 := (near_one (p i * p i)).rnd
    rw [abs_mul_self] at h1
    simpa only [pow_two] using h1
  have := near_one_sub (Finset.sum_nonneg fun i _ => sq_nonneg _) (by
    have := one_le_pow_ulp n
    nlinarith) h
  have e : (1 + ulp) * ((1 + ulp) ^ n * ((1 + ulp) * 1)) = (1 + ulp) ^ (n + 2) := by ring
  rw [e] at this
  exact this

theorem linearEntropyFloat_near {n : ℕ} {t : SumTree (Fin n)} (ht : IsSumOrder t) (fused : Fin n → Bool) (p : Fin n → ℝ) :
    Near ((1 + ulp) ^ (2 * n + 6)) (1 - ∑ i, p i ^ 2) (1 + ∑ i, p i ^ 2) (linearEntropyFloat t fused p) := by
  have hu : (0 : ℝ) ≤ ulp := by positivity
  have hS : 0 ≤ ∑ i, p i ^ 2 := Finset.sum_nonneg fun i _ => sq_nonneg _
  set g : Fin n → ℝ := fun i => if fused i then p i * p i else rnd (p i * p i) with hg
  have hg0 : ∀ i, 0 ≤ g i := fun i => by
    simp only [hg]; split_ifs
    · exact mul_self_nonneg _
    · exact rnd_nonneg (mul_self_nonneg _)
  have h := sumOrder_near ht (fun i => p i ^ 2) (fun i => p i ^ 2) g (c := (1 + ulp) * 1) (by linarith) fun i => by
    have h0 := near_one (p i * p i)
    have h1 := h0.rnd
    rw [abs_mul_self] at h0 h1
    simp only [hg, pow_two]; split_ifs
    · exact h0.mono (by linarith)
    · exact h1
  have h2 := (h.sqrt hS (t.eval_nonneg g hg0)).rnd
  have hc : 1 ≤ (1 + ulp) * ((1 + ulp) ^ n * ((1 + ulp) * 1)) := by
    have := one_le_pow_ulp n
    nlinarith [mul_nonneg hu (by positivity : (0 : ℝ) ≤ (1 + ulp) ^ n)]
  have h3 := h2
  nth_rw 2 [← abs_of_nonneg (Real.sqrt_nonneg (∑ i, p i ^ 2))] at h3
  have h4 := (h3.sq hc).rnd
  rw [Real.mul_self_sqrt hS] at h4
  have h5 := near_one_sub hS (by nlinarith) h4
  have e : (1 + ulp) * ((1 + ulp) * ((1 + ulp) * ((1 + ulp) ^ n * ((1 + ulp) * 1)) * ((1 + ulp) * ((1 + ulp) ^ n * ((1 + ulp) * 1))))) =
      (1 + ulp) ^ (2 * n + 6) := by ring
  rw [e] at h5
  exact h5

theorem sum_sq_accepted {d : ℕ} {p : Fin d → ℝ} (hd : d ≤ 1000000) (h1 : |1 - ∑ i, p i| ≤ 1e-8 + 1e-5 * |∑ i, p i|)
    (h2 : ∀ i, -1e-12 ≤ p i) : ∑ i, p i ^ 2 ≤ 4 := by
  have ha : ∀ i, |p i| ≤ p i + 2e-12 := fun i => by
    have := h2 i
    exact abs_le.2 ⟨by norm_num at this ⊢; linarith, by norm_num⟩
  have hs : ∑ i, |p i| ≤ ∑ i, p i + d * 2e-12 := by
    refine (Finset.sum_le_sum fun i _ => ha i).trans ?_
    rw [Finset.sum_add_distrib]
    simp
  have hd' : (d : ℝ) ≤ 1000000 := by exact_mod_cast hd
  have h3 : ∑ i, p i ≤ 1.1 := by
    rcases le_or_gt 0 (∑ i, p i) with h0 | h0
    · rw [abs_of_nonneg h0] at h1
      have := (abs_le.1 h1).1
      norm_num at this ⊢
      linarith
    · norm_num; linarith
  have h4 : ∑ i, |p i| ≤ 2 := by norm_num at hs h3 ⊢; linarith
  have h5 : ∑ i, p i ^ 2 ≤ (∑ i, |p i|) ^ 2 := by
    simpa only [sq_abs] using Finset.sum_sq_le_sq_sum_of_nonneg (s := Finset.univ) (f := fun i => |p i|) fun i _ => abs_nonneg _
  have h6 : 0 ≤ ∑ i, |p i| := Finset.sum_nonneg fun i _ => abs_nonneg _
  nlinarith

theorem linearEntropyF_eq {x : Arr} {d : ℕ} {p : Fin d → ℝ} (hx : castToPdf x = .ok ⟨d, p⟩) (hd : d ≤ 1000000)
    {t t' : (n : ℕ) → SumTree (Fin n)} (fused : (n : ℕ) → Fin n → Bool) (ht : IsSumOrder (t d)) (ht' : IsSumOrder (t' d)) :
    (isclose ((Real.sqrt d - (⌊Real.sqrt d⌋₊ : ℝ) : ℝ) : ℂ) 0 →
      ∃ v w, linearEntropy x = .ok w ∧ linearEntropyF t t' fused x = .ok v ∧ |v - w| ≤ 5e-9) ∧
    (¬ isclose ((Real.sqrt d - (⌊Real.sqrt d⌋₊ : ℝ) : ℝ) : ℂ) 0 →
      linearEntropy x = .error .assertionError ∧ linearEntropyF t t' fused x = .error .assertionError) := by
  have hS := sum_sq_accepted hd (cast_accepted hx).1 (cast_accepted hx).2
  have e1 := (linearEntropyFloat_near ht (fused d) p).err.trans
    (mul_le_mul_of_nonneg_right (pow_ulp_le (k := 2 * d + 6) (by omega)) (by positivity))
  have e2 := (linearEntropyAltFloat_near ht' p).err.trans
    (mul_le_mul_of_nonneg_right (pow_ulp_le (k := d + 2) (by omega)) (by positivity))
  set L := linearEntropyFloat (t d) (fused d) p
  set R := linearEntropyAltFloat (t' d) p
  have e1' : |L - (1 - ∑ i, p i ^ 2)| ≤ 5e-9 := e1.trans (by norm_num; linarith)
  have e2' : |R - (1 - ∑ i, p i ^ 2)| ≤ 5e-9 := e2.trans (by norm_num; linarith)
  have hc : isclose (L : ℂ) (R : ℂ) := by
    rw [isclose, ← Complex.ofReal_sub, Complex.norm_real, Real.norm_eq_abs]
    have : |L - R| ≤ 1e-8 := by
      rw [show L - R = (L - (1 - ∑ i, p i ^ 2)) - (R - (1 - ∑ i, p i ^ 2)) by ring]
      refine (abs_sub _ _).trans ?_
      norm_num at e1' e2' ⊢; linarith
    have h0 : (0 : ℝ) ≤ 1e-5 * ‖(R : ℂ)‖ := by positivity
    linarith
  have hl : lpNorm p 2 ^ 2 = ∑ i, p i ^ 2 := lpNorm_two p
  have hc' : isclose ((1 - lpNorm p 2 ^ 2 : ℝ) : ℂ) ((1 - ∑ i, p i ^ 2 : ℝ) : ℂ) := by rw [hl]; exact isclose_self _
  rw [linearEntropy, linearEntropyF, hx]
  simp only [bind, Except.bind]
  constructor
  · intro h
    refine ⟨L, 1 - lpNorm p 2 ^ 2, ?_, ?_, by rw [hl]; exact e1'⟩
    · rw [pyAssert_ok h]
      simp only
      rw [pyAssert_ok hc']
      rfl
    · rw [pyAssert_ok h]
      simp only
      rw [pyAssert_ok hc]
      rfl
  · intro h
    rw [pyAssert, if_neg h]
    exact ⟨rfl, rfl⟩

theorem foldl_addC {d : ℕ} (l : List ℕ) (f : ℕ → Matrix (Fin d) (Fin d) ℂ) (A : Matrix (Fin d) (Fin d) ℂ) (x y : Fin d) :
    (l.foldl (fun A j => Matrix.of fun (x y : Fin d) => addC (A x y) (f j x y)) A) x y =
      ⟨(l.map fun j => (f j x y).re).foldl float64.add (A x y).re, (l.map fun j => (f j x y).im).foldl float64.add (A x y).im⟩ := by
  induction l generalizing A with
  | nil => rfl
  | cons a l ih => rw [List.foldl_cons, ih]; rfl

theorem list_sum_near (l : List ℕ) (f : ℕ → ℝ) :
    |(l.map f).foldl float64.add 0 - (l.map f).sum| ≤ ((1 + ulp) ^ l.length - 1) * (l.map fun j => |f j|).sum := by
  have := (sumOn_near l f f (fun j => |f j|) 1 le_rfl fun a _ => near_one _).err
  have e : float64.ofInt 0 = 0 := by simp [float64, rnd_zero]
  rw [mul_one, sumOn, e] at this
  exact this

theorem entry_block {e d : ℕ} (AB : Matrix (Fin (e * d)) (Fin (e * d)) ℂ) (j k : Fin e) (x y : Fin d) :
    entry AB (j * d + x) (k * d + y) = AB (finProdFinEquiv (j, x)) (finProdFinEquiv (k, y)) := by
  have hj : ∀ (j : Fin e) (x : Fin d), (j : ℕ) * d + x < e * d := fun j x => by
    calc (j : ℕ) * d + x < j * d + d := by omega
      _ = (j + 1) * d := by ring
      _ ≤ e * d := Nat.mul_le_mul_right _ j.2
  rw [entry, dif_pos ⟨hj j x, hj k y⟩]
  congr 1 <;> ext <;> simp [finProdFinEquiv] <;> ring

theorem over1Float {a b : ℕ} (hb : b ≠ 0) (AB : Matrix (Fin (a * b)) (Fin (a * b)) ℂ) :
    ∃ R, partialTraceOver1Float AB b = .ok R ∧ ∀ x y,
      |(R x y).re - (∑ j : Fin a, AB (finProdFinEquiv (j, x)) (finProdFinEquiv (j, y))).re| ≤
        ((1 + ulp) ^ a - 1) * ∑ j : Fin a, |(AB (finProdFinEquiv (j, x)) (finProdFinEquiv (j, y))).re| ∧
      |(R x y).im - (∑ j : Fin a, AB (finProdFinEquiv (j, x)) (finProdFinEquiv (j, y))).im| ≤
        ((1 + ulp) ^ a - 1) * ∑ j : Fin a, |(AB (finProdFinEquiv (j, x)) (finProdFinEquiv (j, y))).im| := by
  obtain ⟨R, hR, hRe⟩ : ∃ R, partialTraceOver1Float AB b = .ok R ∧ ∀ x y, R x y =
      ⟨((List.range a).map fun (j : ℕ) => (entry AB (j * b + x) (j * b + y)).re).foldl float64.add 0,
        ((List.range a).map fun (j : ℕ) => (entry AB (j * b + x) (j * b + y)).im).foldl float64.add 0⟩ :=
    ⟨_, by rw [partialTraceOver1Float, blockCount_ok hb]; rfl,
      foldl_addC (List.range a) (fun j => Matrix.of fun (x y : Fin b) => entry AB (j * b + x) (j * b + y)) 0⟩
  refine ⟨R, hR, fun x y => ?_⟩
  rw [hRe]
  have h1 := list_sum_near (List.range a) (fun j => (entry AB (j * b + x) (j * b + y)).re)
  have h2 := list_sum_near (List.range a) (fun j => (entry AB (j * b + x) (j * b + y)).im)
  rw [sum_map_range, sum_map_range, List.length_range] at h1 h2
  simp only [entry_block] at h1 h2
  rw [Complex.re_sum, Complex.im_sum]
  exact ⟨h1, h2⟩

theorem over2Float {a b : ℕ} (ha : a ≠ 0) (AB : Matrix (Fin (a * b)) (Fin (a * b)) ℂ) (t : (k : ℕ) → SumTree (Fin k))
    (ht : IsSumOrder (t b)) :
    ∃ R, partialTraceOver2Float t AB a = .ok R ∧ ∀ x y,
      |(R x y).re - (∑ k : Fin b, AB (finProdFinEquiv (x, k)) (finProdFinEquiv (y, k))).re| ≤
        ((1 + ulp) ^ b - 1) * ∑ k : Fin b, |(AB (finProdFinEquiv (x, k)) (finProdFinEquiv (y, k))).re| ∧
      |(R x y).im - (∑ k : Fin b, AB (finProdFinEquiv (x, k)) (finProdFinEquiv (y, k))).im| ≤
        1e-8 + ((1 + ulp) ^ b - 1) * ∑ k : Fin b, |(AB (finProdFinEquiv (x, k)) (finProdFinEquiv (y, k))).im| := by
  have key : ∀ f : Fin b → ℝ, |(t b).eval f - ∑ k, f k| ≤ ((1 + ulp) ^ b - 1) * ∑ k, |f k| := fun f => by
    have := (sumOrder_near ht f (fun k => |f k|) f le_rfl fun k => near_one _).err
    rwa [mul_one] at this
  rw [partialTraceOver2Float, blockCount_ok' ha]
  simp only [bind, Except.bind, entry_block]
  have hre : ∀ x y : Fin a, _ := fun x y => key fun k => (AB (finProdFinEquiv (x, k)) (finProdFinEquiv (y, k))).re
  have him : ∀ x y : Fin a, _ := fun x y => key fun k => (AB (finProdFinEquiv (x, k)) (finProdFinEquiv (y, k))).im
  split
  · rename_i h
    refine ⟨_, rfl, fun x y => ?_⟩
    have h' := h x y
    rw [Complex.re_sum, Complex.im_sum]
    refine ⟨by simpa using hre x y, ?_⟩
    have h2 := him x y
    simp only [isclose, Matrix.of_apply, Matrix.zero_apply, sub_zero, norm_zero, mul_zero, add_zero, Complex.norm_real,
      Real.norm_eq_abs, entry_block] at h'
    simp only [Matrix.of_apply, Complex.ofReal_im, zero_sub, abs_neg]
    generalize ((1 + ulp) ^ b - 1) * ∑ k, |(AB (finProdFinEquiv (x, k)) (finProdFinEquiv (y, k))).im| = B at h2 ⊢
    generalize (t b).eval (fun k => (AB (finProdFinEquiv (x, k)) (finProdFinEquiv (y, k))).im) = E at h2 h'
    rw [abs_le] at h2 h' ⊢
    constructor <;> linarith [h2.1, h2.2, h'.1, h'.2]
  · refine ⟨_, rfl, fun x y => ?_⟩
    rw [Complex.re_sum, Complex.im_sum]
    refine ⟨hre x y, (him x y).trans ?_⟩
    norm_num

end FF
