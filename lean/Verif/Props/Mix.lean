import Verif.Proofs.MixFaf
import Verif.Props.Info
import Verif.Props.FafMore
import Verif.Props.TraceDistance

/-! # Property C142: mixtures and parts

Mixing states does not increase a distance on average and does not decrease an entropy on average; a whole is not more
uncertain than its parts together. -/

namespace FF.Props

open Finset Matrix
open scoped ComplexOrder

section

variable {m d e : ℕ} {w : Fin m → ℝ} {p q : Fin m → Fin d → ℝ} {x y : Fin m → Arr} {X Y : Arr}

/-- C142. Distances: if `X` stands for the mixture of the distributions of the `x i` with weights `w i`, and `Y` for the
mixture of those of the `y i` with the same weights, then the distance of `X` and `Y` is at most the average of the distances
of the `x i` and `y i`, and the Bhattacharyya coefficient at least the average. -/
theorem C142_distances (hw : Spec.IsProb w) (hx : ∀ i, Spec.Represents (x i) (p i)) (hy : ∀ i, Spec.Represents (y i) (q i))
    (hX : Spec.Represents X (Spec.mixture w p)) (hY : Spec.Represents Y (Spec.mixture w q)) :
    (∃ (t : Fin m → ℝ) (T : ℝ), (∀ i, totalVariationDistance (x i) (y i) = .ok (t i)) ∧ totalVariationDistance X Y = .ok T ∧
      T ≤ ∑ i, w i * t i) ∧
    (∃ (v : Fin m → ℝ) (V : ℝ), (∀ i, jensenShannonDivergence (x i) (y i) = .ok (v i : EReal)) ∧
      jensenShannonDivergence X Y = .ok (V : EReal) ∧ V ≤ ∑ i, w i * v i) ∧
    (∃ (b : Fin m → ℝ) (B : ℝ), (∀ i, bhattacharyyaCoeff (x i) (y i) = .ok (some (b i))) ∧ bhattacharyyaCoeff X Y = .ok (some B) ∧
      ∑ i, w i * b i ≤ B) := by
  have hp := fun i => (represents_cast (hx i)).2
  have hq := fun i => (represents_cast (hy i)).2
  exact ⟨⟨_, _, fun i => tvd_val (hx i) (hy i), tvd_val hX hY, tvd_mix hw p q⟩,
    ⟨_, _, fun i => js_val (hx i) (hy i), js_val hX hY, js_mix hw hp hq⟩,
    ⟨_, _, fun i => bc_val (hx i) (hy i), bc_val hX hY, bc_mix hw hp hq⟩⟩

/-- C142. The relative entropy of the mixtures is at most the average: if it is finite for every pair of positive weight, it is finite
for the mixtures. -/
theorem C142_relative_entropy (hw : Spec.IsProb w) (hx : ∀ i, Spec.Represents (x i) (p i)) (hy : ∀ i, Spec.Represents (y i) (q i))
    (hX : Spec.Represents X (Spec.mixture w p)) (hY : Spec.Represents Y (Spec.mixture w q)) (s : Fin m → ℝ)
    (hs : ∀ i, w i ≠ 0 → relativeEntropy (x i) (y i) = .ok (s i : EReal)) :
    ∃ S : ℝ, relativeEntropy X Y = .ok (S : EReal) ∧ S ≤ ∑ i, w i * s i := by
  have hp := fun i => (represents_cast (hx i)).2
  have hq := fun i => (represents_cast (hy i)).2
  have h : ∀ i, w i ≠ 0 → (∀ j, q i j = 0 → p i j = 0) ∧ klReal (p i) (q i) = s i := by
    intro i hi
    rcases kl_val (hx i) (hy i) with ⟨-, h⟩ | ⟨h0, h⟩
    · rw [hs i hi] at h
      exact absurd (Except.ok.inj h) (EReal.coe_ne_top _)
    · rw [hs i hi] at h
      exact ⟨h0, (EReal.coe_eq_coe_iff.1 (Except.ok.inj h)).symm⟩
  have hz := mix_zero (p := p) hw hq fun i hi => (h i hi).1
  rcases kl_val hX hY with ⟨⟨j, h1, h2⟩, -⟩ | ⟨-, h1⟩
  · exact absurd (hz j h1) h2
  refine ⟨_, h1, (kl_mix hw hp hq fun i hi => (h i hi).1).trans (le_of_eq (sum_congr rfl fun i _ => ?_))⟩
  rcases eq_or_ne (w i) 0 with h0 | h0
  · rw [h0, zero_mul, zero_mul]
  · rw [(h i h0).2]

/-- C142. Entropies: for the orders from 0 to 1 the entropy of a mixture is at least the average of the entropies, and so is `linear_entropy`. -/
theorem C142_entropy (hw : Spec.IsProb w) (hx : ∀ i, Spec.Represents (x i) (p i)) (hX : Spec.Represents X (Spec.mixture w p)) :
    (∀ a : ℝ, 0 ≤ a → a ≤ 1 → ∃ (h : Fin m → ℝ) (H : ℝ), (∀ i, renyiEntropy (x i) (.num a) = .ok (h i : EReal)) ∧
      renyiEntropy X (.num a) = .ok (H : EReal) ∧ ∑ i, w i * h i ≤ H) ∧
    (IsSquare d → ∃ (l : Fin m → ℝ) (L : ℝ), (∀ i, linearEntropy (x i) = .ok (l i)) ∧ linearEntropy X = .ok L ∧ ∑ i, w i * l i ≤ L) := by
  have hp := fun i => (represents_cast (hx i)).2
  refine ⟨fun a h0 h1 => ⟨_, _, fun i => C64_formula (hx i) a h0, C64_formula hX a h0, renyi_mix hw hp h0 h1⟩, fun hd => ?_⟩
  refine ⟨_, _, fun i => (C66_value (hx i) hd).1, (C66_value hX hd).1, ?_⟩
  have := sumsq_mix hw p
  simp only [mul_sub, mul_one, sum_sub_distrib, hw.sum_one]
  linarith

/-- C142. At every order from 0 to infinity the entropy of a mixture is at least the smallest of the entropies of the distributions that are mixed. -/
theorem C142_entropy_min (hw : Spec.IsProb w) (hx : ∀ i, Spec.Represents (x i) (p i)) (hX : Spec.Represents X (Spec.mixture w p))
    (o : Order) (ho : OrderOk o) (v : ℝ) (hv : ∀ i, w i ≠ 0 → ∃ h : ℝ, renyiEntropy (x i) o = .ok (h : EReal) ∧ v ≤ h) :
    ∃ H : ℝ, renyiEntropy X o = .ok (H : EReal) ∧ v ≤ H := by
  have hp := fun i => (represents_cast (hx i)).2
  cases o with
  | num a =>
    refine ⟨_, C64_formula hX a ho, renyi_mix_min hw hp ho fun i hi => ?_⟩
    obtain ⟨h, h1, h2⟩ := hv i hi
    rw [C64_formula (hx i) a ho] at h1
    rwa [EReal.coe_eq_coe_iff.1 (Except.ok.inj h1)]
  | inf =>
    obtain ⟨M, hM⟩ := exists_max (represents_cast hX).2
    have hM0 := max_pos (represents_cast hX).2 hM
    refine ⟨_, C64_inf hX M hM, ?_⟩
    have hle : ∀ i, w i ≠ 0 → ∀ j, p i j ≤ Real.exp (-v) := by
      intro i hi j
      obtain ⟨h, h1, h2⟩ := hv i hi
      obtain ⟨k, hk⟩ := exists_max (hp i)
      rw [C64_inf (hx i) k hk] at h1
      have h3 := EReal.coe_eq_coe_iff.1 (Except.ok.inj h1)
      refine (hk.2 j).trans ?_
      rw [← Real.log_le_iff_le_exp (max_pos (hp i) hk)]
      linarith
    have hMe : M ≤ Real.exp (-v) := by
      obtain ⟨⟨j, hj⟩, -⟩ := hM
      rw [← hj]
      calc Spec.mixture w p j ≤ ∑ i, w i * Real.exp (-v) := sum_le_sum fun i _ => by
            rcases eq_or_ne (w i) 0 with h0 | h0
            · simp [h0]
            · exact mul_le_mul_of_nonneg_left (hle i h0 j) (hw.nonneg i)
        _ = _ := by rw [← sum_mul, hw.sum_one, one_mul]
    rw [← Real.log_le_iff_le_exp hM0] at hMe
    linarith

/-- C142. Parts: the Shannon entropy of two outcomes together is at most the sum of the two entropies, with equality exactly if the outcomes are
independent. -/
theorem C142_shannon {r : Fin (d * e) → ℝ} {z u v : Arr} (hz : Spec.Represents z r) (hu : Spec.Represents u (Spec.marginal1 r))
    (hv : Spec.Represents v (Spec.marginal2 r)) :
    ∃ s a b : ℝ, renyiEntropy z (.num 1) = .ok (s : EReal) ∧ renyiEntropy u (.num 1) = .ok (a : EReal) ∧
      renyiEntropy v (.num 1) = .ok (b : EReal) ∧ s ≤ a + b ∧ (s = a + b ↔ r = Spec.product (Spec.marginal1 r) (Spec.marginal2 r)) :=
  ⟨_, _, _, C64_formula hz 1 zero_le_one, C64_formula hu 1 zero_le_one, C64_formula hv 1 zero_le_one, shannon_sub (represents_cast hz).2⟩

/-- An even mixture of two different distributions on four outcomes; every distribution is represented. -/
example : ∃ (w : Fin 2 → ℝ) (p q : Fin 2 → Fin 4 → ℝ) (x y : Fin 2 → Arr) (X Y : Arr) (s : Fin 2 → ℝ), Spec.IsProb w ∧ (∀ i, 0 < w i) ∧
    (∀ i, Spec.Represents (x i) (p i)) ∧ (∀ i, Spec.Represents (y i) (q i)) ∧ Spec.Represents X (Spec.mixture w p) ∧
    Spec.Represents Y (Spec.mixture w q) ∧ IsSquare 4 ∧ p 0 ≠ p 1 ∧ p 0 ≠ q 0 ∧
    ∀ i, w i ≠ 0 → relativeEntropy (x i) (y i) = .ok (s i : EReal) := by
  have hw : Spec.IsProb (fun _ : Fin 2 => (1 / 2 : ℝ)) := ⟨fun _ => by norm_num, by norm_num⟩
  have hq := (represents_cast quarter_rep.2).2
  have hp : ∀ i, Spec.IsProb ((![halves, quarter] : Fin 2 → Fin 4 → ℝ) i) := by
    intro i; fin_cases i; exacts [halves_prob, hq]
  refine ⟨_, ![halves, quarter], fun _ => quarter, _, _, _, _, _, hw, fun _ => by norm_num, fun i => prob_rep (hp i), fun i => prob_rep hq,
    prob_rep (mix_prob hw hp), prob_rep (mix_prob hw fun _ => hq), ⟨2, rfl⟩, ?_, ?_,
    fun i _ => (C70_value (prob_rep (hp i)) (prob_rep hq)).1 fun i h => by norm_num [quarter] at h⟩ <;>
  · intro h
    have := congrFun h 0
    norm_num [halves, quarter] at this

/-- Two outcomes that always agree are not independent; their distribution and its parts are represented. -/
example : ∃ (r : Fin (2 * 2) → ℝ) (z u v : Arr), Spec.Represents z r ∧ Spec.Represents u (Spec.marginal1 r) ∧ Spec.Represents v (Spec.marginal2 r) ∧
    r ≠ Spec.product (Spec.marginal1 r) (Spec.marginal2 r) := by
  have hr : Spec.IsProb (fun i : Fin (2 * 2) => if (finProdFinEquiv.symm i).1 = (finProdFinEquiv.symm i).2 then (1 / 2 : ℝ) else 0) := by
    refine ⟨fun i => by split_ifs <;> norm_num, ?_⟩
    rw [← finProdFinEquiv.sum_comp, Fintype.sum_prod_type]
    simp
  refine ⟨_, _, _, _, prob_rep hr, prob_rep (marginal_prob hr).1, prob_rep (marginal_prob hr).2, fun h => ?_⟩
  have := congrFun h (finProdFinEquiv (0, 1))
  simp only [Spec.product, Spec.marginal1, Spec.marginal2, Equiv.symm_apply_apply] at this
  norm_num at this

end

section

variable {m d : ℕ} {w : Fin m → ℝ} {ρ σ : Fin m → Op d} {x y : Fin m → Arr} {X Y : Arr} {eigvals : {n : ℕ} → Op n → List ℂ}

/-- C142. The trace distance of mixtures is at most the average of the trace distances. -/
theorem C142_trace_distance (hE : Spec.EigvalsOk eigvals) (hw : Spec.IsProb w) (hx : ∀ i, Spec.IsState (x i) (ρ i))
    (hy : ∀ i, Spec.IsState (y i) (σ i)) (hX : Spec.IsState X (Spec.mixedState w ρ)) (hY : Spec.IsState Y (Spec.mixedState w σ)) :
    ∃ (t : Fin m → ℝ) (T : ℝ), (∀ i, traceDistance eigvals (x i) (y i) = .ok (t i)) ∧ traceDistance eigvals X Y = .ok T ∧
      T ≤ ∑ i, w i * t i := by
  choose t h1 h2 h3 using fun i => C69_helstrom hE (hx i) (hy i)
  obtain ⟨T, k1, -, E, k3, k4, k5⟩ := C69_helstrom hE hX hY
  refine ⟨t, T, h1, k1, ?_⟩
  have e : ∀ τ : Fin m → Op d, (E * Spec.mixedState w τ).trace.re = ∑ i, w i * (E * τ i).trace.re := by
    intro τ
    rw [Spec.mixedState, Matrix.mul_sum, trace_sum, Complex.re_sum]
    refine sum_congr rfl fun i _ => ?_
    rw [Matrix.mul_smul, trace_smul, smul_eq_mul, Complex.re_ofReal_mul]
  rw [← k5, e, e, ← sum_sub_distrib]
  refine sum_le_sum fun i _ => ?_
  rw [← mul_sub]
  exact mul_le_mul_of_nonneg_left (h2 i E k3 k4) (hw.nonneg i)

/-- Mixtures of states are states; the mixture of a superposition and a basis state is one. -/
example : ∃ (w : Fin 2 → ℝ) (ρ : Fin 2 → Op (2 ^ 1)) (x : Fin 2 → Arr) (X : Arr), Spec.IsProb w ∧ (∀ i, 0 < w i) ∧
    (∀ i, Spec.IsState (x i) (ρ i)) ∧ Spec.IsState X (Spec.mixedState w ρ) ∧ ρ 0 ≠ ρ 1 := by
  have hw : Spec.IsProb (fun _ : Fin 2 => (1 / 2 : ℝ)) := ⟨fun _ => by norm_num, by norm_num⟩
  have h : ∀ i : Fin 2, Spec.IsUnitVec ((![![3 / 5, 4 / 5 * Complex.I], ![0, 1]] : Fin 2 → Fin (2 ^ 1) → ℂ) i) := by
    intro i
    fin_cases i <;>
    · show ∑ k : Fin 2, _ = (1 : ℝ)
      rw [Fin.sum_univ_two]
      norm_num
  refine ⟨_, fun i => Spec.proj _, _, _, hw, fun _ => by norm_num, fun i => state_vec (h i),
    .inr (.inl ⟨mixed_density hw fun i => (state_cast (state_vec (h i))).2, rfl⟩), fun h => ?_⟩
  have := congrFun (congrFun h 0) 0
  norm_num [Spec.proj] at this

end

section

variable {schurR : {m : ℕ} → RMat m → RMat m} {schurC : {m : ℕ} → Op m → Op m} {k : ℕ}

/-- C142. The anti-flatness of a mixture is at least the average of the anti-flatnesses, up to `n * 1e-20^k` from the entries that `FAF` drops. -/
theorem C142_faf (hS : ∀ {m : ℕ} (A : RMat m), Aᵀ = -A → ∃ Z, Spec.IsRealSchur A (schurR A) Z) (hk : 1 ≤ k) {m n : ℕ} {w : Fin m → ℝ}
    (hw : Spec.IsProb w) {ρ : Fin m → Op (2 ^ n)} {x : Fin m → Arr} {X : Arr} (hx : ∀ i, Spec.IsState (x i) (ρ i))
    (hX : Spec.IsState X (Spec.mixedState w ρ)) :
    ∃ (f : Fin m → ℝ) (F : ℝ), (∀ i, faf schurR schurC (x i) k = .ok (f i)) ∧ faf schurR schurC X k = .ok F ∧
      ∑ i, w i * f i ≤ F + n * 1e-20 ^ k := by
  obtain ⟨g, hg⟩ : ∃ g, jordanWignerMajoranas n = List.ofFn g := maj_exists n
  obtain rfl := mj_of hg
  have hH := (maj_facts hg).1
  have hM : ∀ {y : Arr} {τ : Op (2 ^ n)}, Spec.IsState y τ → Spec.IsMajoranaCov (mj n) τ (majCov (mj n) τ) := fun hy i j =>
    (majCov_eq hH (state_cast hy).2.psd.isHermitian i j)
  have key : ∀ {y : Arr} {τ : Op (2 ^ n)}, Spec.IsState y τ → ∃ v, faf schurR schurC y k = .ok v ∧
      n - 1 / 2 * (((majCov (mj n) τ)ᵀ * majCov (mj n) τ) ^ k).trace ≤ v ∧
      v ≤ n - 1 / 2 * (((majCov (mj n) τ)ᵀ * majCov (mj n) τ) ^ k).trace + n * 1e-20 ^ k := by
    intro y τ hy
    obtain ⟨Z, hZ⟩ := hS (majCov (mj n) τ) majCov_skew
    exact C67_formula hg hy (hM hy) hZ hk
  choose f h1 h2 h3 using fun i => key (hx i)
  obtain ⟨F, k1, k2, k3⟩ := key hX
  refine ⟨f, F, h1, k1, ?_⟩
  have ht := trace_pow_mix hw (M := fun i => majCov (mj n) (ρ i)) (fun i => majCov_skew) k
  rw [← majCov_mix] at ht
  calc ∑ i, w i * f i ≤ ∑ i, w i * (n - 1 / 2 * (((majCov (mj n) (ρ i))ᵀ * majCov (mj n) (ρ i)) ^ k).trace + n * 1e-20 ^ k) :=
        sum_le_sum fun i _ => mul_le_mul_of_nonneg_left (h3 i) (hw.nonneg i)
    _ = n + n * 1e-20 ^ k - 1 / 2 * ∑ i, w i * (((majCov (mj n) (ρ i))ᵀ * majCov (mj n) (ρ i)) ^ k).trace := by
        rw [mul_sum]
        have : ∀ i, w i * (n - 1 / 2 * (((majCov (mj n) (ρ i))ᵀ * majCov (mj n) (ρ i)) ^ k).trace + n * 1e-20 ^ k) =
            w i * (n + n * 1e-20 ^ k) - 1 / 2 * (w i * (((majCov (mj n) (ρ i))ᵀ * majCov (mj n) (ρ i)) ^ k).trace) := fun i => by ring
        rw [sum_congr rfl fun i _ => this i, sum_sub_distrib, ← sum_mul, hw.sum_one, one_mul]
    _ ≤ F + n * 1e-20 ^ k := by linarith

/-- C142. The anti-flatness of a state of `a + b` sites is at most the sum of those of the states of the first `a` and of the last `b` sites that the
partial traces return, up to `(a + b) * 1e-20^k`. -/
theorem C142_faf_parts (hS : ∀ {m : ℕ} (A : RMat m), Aᵀ = -A → ∃ Z, Spec.IsRealSchur A (schurR A) Z) (hk : 1 ≤ k) {a b : ℕ}
    {ρ : Op (2 ^ (a + b))} {x : Arr} (hx : Spec.IsState x ρ) :
    ∃ (R : Op (2 ^ a)) (S : Op (2 ^ b)) (u v f : ℝ), partialTraceOver2 ρ (2 ^ a) = .ok R ∧ partialTraceOver1 ρ (2 ^ b) = .ok S ∧
      faf schurR schurC (.mat _ _ R) k = .ok u ∧ faf schurR schurC (.mat _ _ S) k = .ok v ∧ faf schurR schurC x k = .ok f ∧
      f ≤ u + v + (a + b) * 1e-20 ^ k := by
  classical
  have hd := (state_cast hx).2
  have key : ∀ {n : ℕ} {y : Arr} {τ : Op (2 ^ n)}, Spec.IsState y τ → ∃ v, faf schurR schurC y k = .ok v ∧
      n - 1 / 2 * (((majCov (mj n) τ)ᵀ * majCov (mj n) τ) ^ k).trace ≤ v ∧
      v ≤ n - 1 / 2 * (((majCov (mj n) τ)ᵀ * majCov (mj n) τ) ^ k).trace + n * 1e-20 ^ k := by
    intro n y τ hy
    obtain ⟨g, hg⟩ : ∃ g, jordanWignerMajoranas n = List.ofFn g := maj_exists n
    obtain rfl := mj_of hg
    obtain ⟨Z, hZ⟩ := hS (majCov (mj n) τ) majCov_skew
    exact C67_formula hg hy (fun i j => majCov_eq (maj_facts hg).1 (state_cast hy).2.psd.isHermitian i j) hZ hk
  have h1 : Spec.IsDensity (rd1 ρ) := rd1_density hd
  have h2 : Spec.IsDensity (rd2 ρ) := rd2_density hd
  have h2' : Spec.IsDensity (reMat (rd2 ρ)) := ⟨reMat_psd h2.psd, by rw [trace_reMat h2.psd.isHermitian, h2.trace_one]⟩
  obtain ⟨f, f1, -, f3⟩ := key hx
  obtain ⟨v, v1, v2, -⟩ := key (y := .mat _ _ (rd1 ρ)) (.inr (.inl ⟨h1, rfl⟩))
  have ht := trace_pow_parts ρ k
  have hR : Spec.IsDensity (if ∀ i j, |(rd2 ρ i j).im| ≤ 1e-8 then reMat (rd2 ρ) else rd2 ρ) := by split_ifs; exacts [h2', h2]
  obtain ⟨u, u1, u2, -⟩ := key (.inr (.inl ⟨hR, rfl⟩))
  refine ⟨_, _, u, v, f, over2_sites ρ, over1_sites ρ, u1, v1, f1, ?_⟩
  have hle : (((majCov (mj a) (if ∀ i j, |(rd2 ρ i j).im| ≤ 1e-8 then reMat (rd2 ρ) else rd2 ρ))ᵀ *
      majCov (mj a) (if ∀ i j, |(rd2 ρ i j).im| ≤ 1e-8 then reMat (rd2 ρ) else rd2 ρ)) ^ k).trace ≤
      (((majCov (mj a) (rd2 ρ))ᵀ * majCov (mj a) (rd2 ρ)) ^ k).trace := by
    split_ifs
    · obtain ⟨g, hg⟩ : ∃ g, jordanWignerMajoranas a = List.ofFn g := maj_exists a
      obtain rfl := mj_of hg
      exact trace_pow_reMat (maj_facts hg).1 h2.psd.isHermitian k
    · exact le_rfl
  push_cast at f3
  linarith

end

end FF.Props
