import Verif.Proofs.Rounding
import Verif.Proofs.CountError
import Verif.Proofs.OrderEx
import Verif.Props.GraphCount

/-!
# Properties C110-C113: the combinatorial functions with the numbers of the machine

`dtOn int64`, `ptOn int64`, ... are the functions of `ff_combinatorics.py` called with an array of 64-bit integers,
`dtOn float64`, ... with an array of 64-bit floats, see `Verif/Model/Machine.lean`. `dt`, `pf`, `hf` are the same
functions with exact numbers, see C01-C10.
-/

namespace FF.Props

open Equiv Matrix

/-! ## C110: arrays of 64-bit integers -/

/-- C110: `dt` and `pt` of an array of 64-bit integers return the 64-bit integer congruent to the determinant and the
permanent. -/
theorem C110_wraps {n : ℕ} (A : Matrix (Fin n) (Fin n) ℤ) :
    (∃ v, dtOn int64 A = .ok v ∧ -2 ^ 63 ≤ v ∧ v < 2 ^ 63 ∧ v ≡ A.det [ZMOD 2 ^ 64]) ∧
    (∃ v, ptOn int64 A = .ok v ∧ -2 ^ 63 ≤ v ∧ v < 2 ^ 63 ∧ v ≡ A.permanent [ZMOD 2 ^ 64]) := by
  have key : ∀ z : ℤ, wrap64 z ≡ z [ZMOD 2 ^ 64] := fun z => by
    have := Int.bmod_emod (x := z) (m := 2 ^ 64)
    exact_mod_cast this
  exact ⟨⟨_, dtOn_int64 A, (wrap64_range _).1, (wrap64_range _).2, key _⟩,
    ⟨_, ptOn_int64 A, (wrap64_range _).1, (wrap64_range _).2, key _⟩⟩

/-- C110: so the result is right exactly when it is a 64-bit integer, even if some of the products and sums computed on
the way are not. -/
theorem C110_exact_iff {n : ℕ} (A : Matrix (Fin n) (Fin n) ℤ) :
    (dtOn int64 A = .ok A.det ↔ -2 ^ 63 ≤ A.det ∧ A.det < 2 ^ 63) ∧
    (ptOn int64 A = .ok A.permanent ↔ -2 ^ 63 ≤ A.permanent ∧ A.permanent < 2 ^ 63) := by
  rw [dtOn_int64, ptOn_int64, Except.ok.injEq, Except.ok.injEq, wrap64_eq_self_iff, wrap64_eq_self_iff]
  exact ⟨Iff.rfl, Iff.rfl⟩

/-- C110: the Pfaffian of a skew array of 64-bit integers and the hafnian of a symmetric one are integers, and they are
returned exactly if they are at most `2^53 / (2^m m!)`, where `2m` is the number of rows. -/
theorem C110_pf_hf {m : ℕ} (A : Matrix (Fin (2 * m)) (Fin (2 * m)) ℤ) :
    (Aᵀ = -A → ∃ p : ℤ, pf (A.map (Int.cast : ℤ → ℝ)) = .ok (p : ℝ) ∧
      (2 ^ m * m.factorial * |p| ≤ 2 ^ 53 → pfOn int64 divInt A = .ok (p : ℝ))) ∧
    (A.IsSymm → ∃ p : ℤ, hf (A.map (Int.cast : ℤ → ℝ)) = .ok (p : ℝ) ∧
      (2 ^ m * m.factorial * |p| ≤ 2 ^ 53 → hfOn int64 divInt A = .ok (p : ℝ))) := by
  have hk := den_pos m
  refine ⟨fun hA => ?_, fun hA => ?_⟩
  · obtain ⟨p, hp⟩ := pfVal_integer A fun i j => by
      have := congrFun (congrFun hA j) i
      simpa using this
    refine ⟨p, by rw [pf_ok, hp], fun h => pfOn_int_exact A hp ?_⟩
    rwa [abs_mul, abs_of_pos hk]
  · obtain ⟨p, hp⟩ := hfVal_integer A hA
    refine ⟨p, by rw [hf_ok, hp], fun h => hfOn_int_exact A hp ?_⟩
    rwa [abs_mul, abs_of_pos hk]

/-- C110: 0 is returned for every array of integers with an odd number of rows. -/
theorem C110_odd {n : ℕ} (hn : Odd n) (A : Matrix (Fin n) (Fin n) ℤ) :
    pfOn int64 divInt A = .ok 0 ∧ hfOn int64 divInt A = .ok 0 := by
  have := Nat.odd_iff.1 hn
  constructor
  · rw [pfOn, if_pos (by omega)]
  · rw [hfOn, if_pos (by omega)]

/-- C110 fails beyond: the Pfaffian of this array of 64-bit integers is `2^62`, a 64-bit integer and a float, but `pf`
returns `-2^62` since the sum over the permutations is `2^63`; and `dt` returns 0, although the Pfaffian is not 0. -/
theorem C110_overflow : let A : Matrix (Fin 2) (Fin 2) ℤ := !![0, 2 ^ 62; -2 ^ 62, 0]
    Aᵀ = -A ∧ pf (A.map (Int.cast : ℤ → ℝ)) = .ok (2 ^ 62) ∧ pfOn int64 divInt A = .ok (-2 ^ 62) ∧ dtOn int64 A = .ok 0 := by
  intro A
  have hA : Aᵀ = -A := by
    ext i j
    fin_cases i <;> fin_cases j <;> simp [A]
  have hnum : pfNum (m := 1) A = 2 ^ 63 := by decide
  refine ⟨hA, ?_, ?_, ?_⟩
  · rw [pf_ok (m := 1)]
    have h1 : pfVal (m := 1) (A.map (Int.cast : ℤ → ℝ)) = (pfNum (m := 1) A : ℤ) / (2 ^ 1 * (Nat.factorial 1 : ℝ)) := by
      rw [← pfNum_cast]; rfl
    rw [h1, hnum]
    norm_num
  · rw [pfOn_int64 (m := 1), hnum]
    have hw : wrap64 (2 ^ 63) = -2 ^ 63 := by decide
    have h2 : rnd (2 : ℝ) = 2 := by exact_mod_cast rnd_int (z := 2) (by norm_num)
    have h1 : rnd (-1 : ℝ) = -1 := by exact_mod_cast rnd_int (z := -1) (by norm_num)
    have h63 : rnd ((-2 ^ 63 : ℤ) : ℝ) = -2 ^ 63 := by
      have := rnd_scale (-1) 63
      rw [h1] at this
      rw [show ((-2 ^ 63 : ℤ) : ℝ) = -1 * 2 ^ (63 : ℤ) by push_cast; norm_num, this]
      norm_num
    have h62 : rnd (-2 ^ 62 : ℝ) = -2 ^ 62 := by
      have := rnd_scale (-1) 62
      rw [h1] at this
      rw [show (-2 ^ 62 : ℝ) = -1 * 2 ^ (62 : ℤ) by norm_num]
      exact this
    rw [hw, divInt, h63]
    have h2' : rnd ((2 ^ 1 * (Nat.factorial 1 : ℤ) : ℤ) : ℝ) = 2 := by norm_num [h2]
    rw [h2', show (-2 ^ 63 / 2 : ℝ) = -2 ^ 62 by norm_num, h62]
  · rw [dtOn_int64]
    have : A.det = 2 ^ 124 := by rw [det_fin_two]; norm_num [A]
    rw [this]
    decide

/-- a product of `2^64` on the way, the determinant is `2^32` -/
example : dtOn int64 !![(2 : ℤ) ^ 32, 2 ^ 32 - 8; 2 ^ 32, 2 ^ 32 - 8 + 1] = .ok (2 ^ 32) := by
  have h := (C110_exact_iff !![(2 : ℤ) ^ 32, 2 ^ 32 - 8; 2 ^ 32, 2 ^ 32 - 8 + 1]).1.2
  rw [det_fin_two] at h
  simpa using h

/-- the hypotheses of `C110_pf_hf` are met: a skew array of integers with Pfaffian 7 -/
example : pfOn int64 divInt !![0, 7; -7, 0] = .ok 7 := by
  obtain ⟨p, hp, h⟩ := (C110_pf_hf (m := 1) !![0, 7; -7, 0]).1 (by decide)
  have h7 : pfNum (m := 1) (!![0, 7; -7, 0] : Matrix (Fin 2) (Fin 2) ℤ) = 14 := by decide
  rw [pf_ok (m := 1), Except.ok.injEq] at hp
  have := pfNum_eq hp
  rw [h7] at this
  have hp7 : p = 7 := by norm_num at this; omega
  subst hp7
  exact_mod_cast h (by norm_num)

/-! ## C111: rounding errors -/

/-- C111: with 64-bit floats `dt` and `pt` of every real array return a number whose distance to the determinant and to
the permanent is bounded by the sum of the absolute values of the products, times `(1 + 2⁻⁵³)^k - 1`, where `k` is the
number of summands plus the number of rows (plus one for the determinant). -/
theorem C111_dt_pt {n : ℕ} (A : Matrix (Fin n) (Fin n) ℝ) :
    (∃ v, dtOn float64 A = .ok v ∧
      |v - A.det| ≤ ((1 + 2⁻¹ ^ 53) ^ (n.factorial + n + 1) - 1) * ∑ σ : Perm (Fin n), ∏ i, |A i (σ i)|) ∧
    (∃ v, ptOn float64 A = .ok v ∧
      |v - ∑ σ : Perm (Fin n), ∏ i, A i (σ i)| ≤
        ((1 + 2⁻¹ ^ 53) ^ (n.factorial + n) - 1) * ∑ σ : Perm (Fin n), ∏ i, |A i (σ i)|) := by
  have e : ∀ B : Matrix (Fin n) (Fin n) ℝ, B.permanent = ∑ σ : Perm (Fin n), ∏ i, B i (σ i) := fun B => by
    rw [← permanent_transpose]; rfl
  constructor
  · obtain ⟨v, hv, h⟩ := dtOn_float64 A
    refine ⟨v, hv, ?_⟩
    have := h.err
    rw [e, add_right_comm] at this
    exact this
  · obtain ⟨v, hv, h⟩ := ptOn_float64 A
    refine ⟨v, hv, ?_⟩
    have := h.err
    rw [e, e] at this
    exact this

/-- C111: there is no cancellation in the permanent of an array without negative entries: its relative error is at most
`(1 + 2⁻⁵³)^(n! + n) - 1`. -/
theorem C111_pt_nonneg {n : ℕ} (A : Matrix (Fin n) (Fin n) ℝ) (hA : ∀ i j, 0 ≤ A i j) :
    ∃ v, ptOn float64 A = .ok v ∧
      |v - ∑ σ : Perm (Fin n), ∏ i, A i (σ i)| ≤
        ((1 + 2⁻¹ ^ 53) ^ (n.factorial + n) - 1) * ∑ σ : Perm (Fin n), ∏ i, A i (σ i) := by
  obtain ⟨v, hv, h⟩ := (C111_dt_pt A).2
  refine ⟨v, hv, ?_⟩
  simpa only [abs_of_nonneg (hA _ _)] using h

/-- C111: the same for `pf` and `hf`; here the sum of the absolute values of the products is the hafnian of the array of
absolute values, and the division contributes two more roundings. -/
theorem C111_pf_hf {m : ℕ} (A : Matrix (Fin (2 * m)) (Fin (2 * m)) ℝ) :
    (∃ v p h, pfOn float64 divFloat A = .ok v ∧ pf A = .ok p ∧ hf (A.map abs) = .ok h ∧
      |v - p| ≤ ((1 + 2⁻¹ ^ 53) / (1 - 2⁻¹ ^ 53) * (1 + 2⁻¹ ^ 53) ^ ((2 * m).factorial + m + 1) - 1) * h) ∧
    (∃ v p h, hfOn float64 divFloat A = .ok v ∧ hf A = .ok p ∧ hf (A.map abs) = .ok h ∧
      |v - p| ≤ ((1 + 2⁻¹ ^ 53) / (1 - 2⁻¹ ^ 53) * (1 + 2⁻¹ ^ 53) ^ ((2 * m).factorial + m) - 1) * h) := by
  constructor
  · obtain ⟨v, hv, h⟩ := pfOn_float64 A
    refine ⟨v, _, _, hv, pf_ok A, hf_ok _, ?_⟩
    have := h.err
    rw [add_right_comm] at this
    exact this
  · obtain ⟨v, hv, h⟩ := hfOn_float64 A
    exact ⟨v, _, _, hv, hf_ok A, hf_ok _, h.err⟩

/-- C111: for arrays with up to ten rows the error of `dt` and `pt` is at most `10⁻⁹` times the sum of the absolute values
of the products. -/
theorem C111_ten {n : ℕ} (hn : n ≤ 10) (A : Matrix (Fin n) (Fin n) ℝ) :
    (∃ v, dtOn float64 A = .ok v ∧ |v - A.det| ≤ 10⁻¹ ^ 9 * ∑ σ : Perm (Fin n), ∏ i, |A i (σ i)|) ∧
    (∃ v, ptOn float64 A = .ok v ∧
      |v - ∑ σ : Perm (Fin n), ∏ i, A i (σ i)| ≤ 10⁻¹ ^ 9 * ∑ σ : Perm (Fin n), ∏ i, |A i (σ i)|) := by
  have hf : n.factorial ≤ 3628800 := (Nat.factorial_le hn).trans (by decide)
  have hs : 0 ≤ ∑ σ : Perm (Fin n), ∏ i, |A i (σ i)| :=
    Finset.sum_nonneg fun σ _ => Finset.prod_nonneg fun i _ => abs_nonneg _
  obtain ⟨⟨v, hv, h⟩, w, hw, h'⟩ := C111_dt_pt A
  exact ⟨⟨v, hv, h.trans (mul_le_mul_of_nonneg_right (pow_ulp_le (by omega)) hs)⟩,
    ⟨w, hw, h'.trans (mul_le_mul_of_nonneg_right (pow_ulp_le (by omega)) hs)⟩⟩

/-! ## C112: integers stored as floats -/

/-- C112: if the entries are integers and the sum of the absolute values of the products is at most `2^53`, then all
numbers computed are exact: `dt` and `pt` return the determinant and the permanent. -/
theorem C112_dt_pt {n : ℕ} (A : Matrix (Fin n) (Fin n) ℤ) (h : ∑ σ : Perm (Fin n), ∏ i, |A i (σ i)| ≤ 2 ^ 53) :
    dtOn float64 (A.map (Int.cast : ℤ → ℝ)) = .ok ((A.det : ℤ) : ℝ) ∧
    ptOn float64 (A.map (Int.cast : ℤ → ℝ)) = .ok ((∑ σ : Perm (Fin n), ∏ i, A i (σ i) : ℤ) : ℝ) := by
  have e : ∀ B : Matrix (Fin n) (Fin n) ℤ, B.permanent = ∑ σ : Perm (Fin n), ∏ i, B i (σ i) := fun B => by
    rw [← permanent_transpose]; rfl
  have h' : (A.map abs).permanent ≤ 2 ^ 53 := by rw [e]; exact h
  refine ⟨dtOn_float_int A h', ?_⟩
  rw [← e]
  exact ptOn_float_int A h'

/-- C112: the Pfaffian of a skew array of integers and the hafnian of a symmetric one are returned exactly if `2^m m!`
times the hafnian of the array of absolute values is at most `2^53`. -/
theorem C112_pf_hf {m : ℕ} (A : Matrix (Fin (2 * m)) (Fin (2 * m)) ℤ) {h : ℝ}
    (hh : hf ((A.map abs).map (Int.cast : ℤ → ℝ)) = .ok h) (hb : 2 ^ m * m.factorial * h ≤ 2 ^ 53) :
    (Aᵀ = -A → ∃ p : ℤ, pf (A.map (Int.cast : ℤ → ℝ)) = .ok (p : ℝ) ∧
      pfOn float64 divFloat (A.map (Int.cast : ℤ → ℝ)) = .ok (p : ℝ)) ∧
    (A.IsSymm → ∃ p : ℤ, hf (A.map (Int.cast : ℤ → ℝ)) = .ok (p : ℝ) ∧
      hfOn float64 divFloat (A.map (Int.cast : ℤ → ℝ)) = .ok (p : ℝ)) := by
  have hb' : hfNum (A.map abs) ≤ 2 ^ 53 := by
    rw [hf_ok, Except.ok.injEq] at hh
    have h1 : hfVal ((A.map abs).map (Int.cast : ℤ → ℝ)) = (hfNum (A.map abs) : ℤ) / (2 ^ m * (m.factorial : ℝ)) := by
      rw [← hfNum_cast]; rfl
    rw [← hh, h1, mul_div_cancel₀ _ (fact_ne m)] at hb
    exact_mod_cast hb
  refine ⟨fun hA => ?_, fun hA => ?_⟩
  · obtain ⟨p, hp⟩ := pfVal_integer A fun i j => by
      have := congrFun (congrFun hA j) i
      simpa using this
    exact ⟨p, by rw [pf_ok, hp], pfOn_float_int A hp hb'⟩
  · obtain ⟨p, hp⟩ := hfVal_integer A hA
    exact ⟨p, by rw [hf_ok, hp], hfOn_float_int A hp hb'⟩

example : dtOn float64 ((!![3, 5; 7, 11] : Matrix (Fin 2) (Fin 2) ℤ).map (Int.cast : ℤ → ℝ)) = .ok (-2) := by
  have := (C112_dt_pt !![3, 5; 7, 11] (by decide)).1
  rw [det_fin_two] at this
  simpa using this

/-- C112: the bound cannot be dropped: the determinant of this array of floats is `2^53 + 1`, which is not a float. -/
theorem C112_bound : let A : Matrix (Fin 2) (Fin 2) ℤ := !![2 ^ 53, -1; 1, 1]
    A.det = 2 ^ 53 + 1 ∧ dtOn float64 (A.map (Int.cast : ℤ → ℝ)) ≠ .ok (2 ^ 53 + 1) := by
  intro A
  refine ⟨by rw [det_fin_two]; simp [A], ?_⟩
  obtain ⟨L, hn, hc, hL⟩ := exists_perms 2
  rw [dtOn_ok float64 _ hL, Ne, Except.ok.injEq]
  rcases List.eq_nil_or_concat' L with rfl | ⟨l, a, rfl⟩
  · exact absurd (hc 1) (by simp)
  · rw [List.map_append, sumOn, List.foldl_append]
    exact rnd_ne _

/-! ## C113: counting perfect matchings with inexact eigenvalues -/

variable {eigvals : {n : ℕ} → Matrix (Fin n) (Fin n) ℂ → Except PyErr (List ℂ)}

/-- C113: if every eigenvalue is returned with an error of at most `η`, then the number of perfect matchings of a
connected planar graph with at least one perfect matching is returned exactly, provided
`(D + η)^n - D^n < 0.5 · 10⁻¹⁰ · N`, where `n` is the number of nodes, `D` bounds the number of neighbours and `N` is the
number of perfect matchings. -/
theorem C113_count {η : ℝ} (hη : 0 ≤ η) {nx : Nx} (hnx : Spec.NxContract nx) {G : NxGraph ℕ} (hs : Spec.IsSimple G)
    (hn : Spec.IsNumbered G) (hc : G.isConnected) (he : G.edges ≠ []) (hp : (nx.checkPlanarity G).isSome)
    (hw : ∀ e ∈ G.edges, G.weight e.1 e.2 = 1) {D : ℕ} (hD : ∀ u ∈ G.nodes, {v | G.hasEdge u v}.encard ≤ D)
    (hev : Spec.EigvalsWithin η G.nodes.length eigvals) (hN : (Spec.matchings G).Nonempty)
    (hsmall : (D + η) ^ G.nodes.length - D ^ G.nodes.length < 1 / 2 * 10 ^ (-10 : ℤ) * (Spec.matchings G).card) :
    countPerfectMatchingsPlanar eigvals nx G = .ok (.real (Spec.matchings G).card) := by
  obtain ⟨P, hP, h1, -⟩ := count_within hη hnx hs hn hc he hp hw hD hev
  have hpos : (0 : ℝ) < (Spec.matchings G).card := by exact_mod_cast Finset.card_pos.2 hN
  have h2 := sqrt_near P hpos
  rw [hP]
  have h3 := clean_near (z := P ^ (1 / 2 : ℂ)) (N := ((Spec.matchings G).card : ℤ)) (by
    refine lt_of_le_of_lt ?_ ((div_lt_iff₀ hpos).2 hsmall)
    refine le_trans ?_ (div_le_div_of_nonneg_right h1 hpos.le)
    simpa using h2)
  rw [h3]
  norm_cast

/-- C113: and 0 is returned for a graph with an even number of nodes and no perfect matching, provided
`η² (D + η)^(n-2) < (0.5 · 10⁻¹⁰)²`. -/
theorem C113_none {η : ℝ} (hη : 0 ≤ η) {nx : Nx} (hnx : Spec.NxContract nx) {G : NxGraph ℕ} (hs : Spec.IsSimple G)
    (hn : Spec.IsNumbered G) (hc : G.isConnected) (he : G.edges ≠ []) (hp : (nx.checkPlanarity G).isSome)
    (hw : ∀ e ∈ G.edges, G.weight e.1 e.2 = 1) {D : ℕ} (hD : ∀ u ∈ G.nodes, {v | G.hasEdge u v}.encard ≤ D)
    (hev : Spec.EigvalsWithin η G.nodes.length eigvals) (hN : Spec.matchings G = ∅) (heven : Even G.nodes.length)
    (hsmall : η ^ 2 * (D + η) ^ (G.nodes.length - 2) < (1 / 2 * 10 ^ (-10 : ℤ)) ^ 2) :
    countPerfectMatchingsPlanar eigvals nx G = .ok (.real 0) := by
  obtain ⟨P, hP, -, h1⟩ := count_within hη hnx hs hn hc he hp hw hD hev
  have h2 := h1 hN heven
  rw [← norm_sqrt] at h2
  rw [hP]
  have h3 := clean_near (z := P ^ (1 / 2 : ℂ)) (N := 0) (by
    rw [Int.cast_zero, sub_zero]
    exact lt_of_pow_lt_pow_left₀ 2 (by positivity) (h2.trans_lt hsmall))
  rw [h3]
  norm_num

/-- C113 for every graph without perfect matchings, whatever its number of nodes; but the condition is much stronger. -/
theorem C113_none_any {η : ℝ} (hη : 0 ≤ η) {nx : Nx} (hnx : Spec.NxContract nx) {G : NxGraph ℕ} (hs : Spec.IsSimple G)
    (hn : Spec.IsNumbered G) (hc : G.isConnected) (he : G.edges ≠ []) (hp : (nx.checkPlanarity G).isSome)
    (hw : ∀ e ∈ G.edges, G.weight e.1 e.2 = 1) {D : ℕ} (hD : ∀ u ∈ G.nodes, {v | G.hasEdge u v}.encard ≤ D)
    (hev : Spec.EigvalsWithin η G.nodes.length eigvals) (hN : Spec.matchings G = ∅)
    (hsmall : (D + η) ^ G.nodes.length - D ^ G.nodes.length < (1 / 2 * 10 ^ (-10 : ℤ)) ^ 2) :
    countPerfectMatchingsPlanar eigvals nx G = .ok (.real 0) := by
  obtain ⟨P, hP, h1, -⟩ := count_within hη hnx hs hn hc he hp hw hD hev
  rw [hN, Finset.card_empty] at h1
  have h2 : ‖P‖ ≤ (D + η) ^ G.nodes.length - D ^ G.nodes.length := by simpa using h1
  rw [← norm_sqrt] at h2
  rw [hP]
  have h3 := clean_near (z := P ^ (1 / 2 : ℂ)) (N := 0) (by
    rw [Int.cast_zero, sub_zero]
    exact lt_of_pow_lt_pow_left₀ 2 (by positivity) (h2.trans_lt hsmall))
  rw [h3]
  norm_num

/-- the nodes of the square have two neighbours -/
theorem square_neighbours : ∀ u ∈ squareGraph.nodes, {v | squareGraph.hasEdge u v}.encard ≤ (2 : ℕ) := by
  intro u hu
  have h : {v | squareGraph.hasEdge u v} ⊆ {(u + 1) % 4, (u + 3) % 4} := by
    intro v hv
    simp only [squareGraph, NxGraph.hasEdge, Set.mem_setOf_eq, List.mem_cons, Prod.mk.injEq, List.not_mem_nil, or_false] at hv
    simp only [Set.mem_insert_iff, Set.mem_singleton_iff]
    omega
  refine (Set.encard_le_encard h).trans ?_
  refine (Set.encard_insert_le _ _).trans ?_
  rw [Set.encard_singleton]
  norm_num

/-- the hypotheses of `C113_count` are met by the square, with errors of up to `10⁻¹²` -/
example (hev : Spec.EigvalsWithin (10 ^ (-12 : ℤ)) 4 eigvals) :
    countPerfectMatchingsPlanar eigvals someNx squareGraph = .ok (.real 2) := by
  have := C113_count (by positivity) someNx_contract squareGraph_simple squareGraph_numbered
    squareGraph_connected (by decide)
    (someNx_contract.complete _ _ squareGraph_simple squareGraph_connected (by decide) squareGraph_planar)
    (fun _ _ => rfl) square_neighbours hev
    (Finset.card_pos.1 (by rw [square_matchings]; norm_num))
    (by rw [square_matchings]; show _ ^ 4 - _ ^ 4 < _; norm_num)
  rw [square_matchings] at this
  exact_mod_cast this

/-- an eigenvalue routine that returns `10⁻¹⁶` instead of 0 -/
noncomputable def slightEigvals {n : ℕ} (A : Matrix (Fin n) (Fin n) ℂ) : Except PyErr (List ℂ) :=
  open Classical in .ok (A.charpoly.roots.toList.map fun z => if z = 0 then 10 ^ (-16 : ℤ) else z)

theorem slightEigvals_within (n : ℕ) : Spec.EigvalsWithin (10 ^ (-16 : ℤ)) n slightEigvals := by
  classical
  intro A _
  refine ⟨_, A.charpoly.roots.toList, rfl, Multiset.coe_toList _, ?_⟩
  rw [List.forall₂_map_left_iff]
  refine List.forall₂_same.2 fun z _ => ?_
  split
  · rename_i h
    rw [h, sub_zero, norm_zpow]
    norm_num
  · rw [sub_self, norm_zero]; positivity

/-- C113 fails for odd numbers of nodes: the triangle has no perfect matching; if the eigenvalue 0 of its signed adjacency
matrix is returned as `10⁻¹⁶` and the other two exactly, then the number returned is `1.732·10⁻⁸` instead of 0: the square
root of the small product is far above the precision `10⁻¹⁰` of `clean`. -/
theorem C113_triangle : Spec.matchings upTriangle = ∅ ∧
    countPerfectMatchingsPlanar slightEigvals someNx upTriangle = .ok (.real 1.73e-8) := by
  constructor
  · rw [← Finset.card_eq_zero, ← brute_length upTriangle_simple (by decide)]
    rfl
  obtain ⟨M, -, hskew, habs, hcount⟩ := count_planar_matrix someNx_contract upTriangle_simple upTriangle_numbered
    upTriangle_connected (by decide)
    (someNx_contract.complete _ _ upTriangle_simple upTriangle_connected (by decide) upTriangle_planar)
  have hadj : ∀ i j : Fin upTriangle.nodes.length, i ≠ j → |upTriangle.adjacency i j| = 1 := by
    intro i j hij
    rw [adjacency_numbered upTriangle_numbered, if_pos]
    · simp [upTriangle]
    · revert hij; revert i j; decide
  have hroots : (M.map fun x : ℝ => (x : ℂ)).charpoly.roots =
      {0, (Real.sqrt 3 : ℂ) * Complex.I, -((Real.sqrt 3 : ℂ) * Complex.I)} := skew_three_roots M hskew ((habs _ _).trans (hadj (0 : Fin 3) (1 : Fin 3) (show (0 : Fin 3) ≠ 1 by decide)))
    ((habs _ _).trans (hadj (0 : Fin 3) (2 : Fin 3) (show (0 : Fin 3) ≠ 2 by decide))) ((habs _ _).trans (hadj (1 : Fin 3) (2 : Fin 3) (show (1 : Fin 3) ≠ 2 by decide)))
  rw [hcount (l := ((M.map fun x : ℝ => (x : ℂ)).charpoly.roots.toList.map
    fun z => if z = 0 then 10 ^ (-16 : ℤ) else z)) (by simp only [slightEigvals])]
  have h0 : (Real.sqrt 3 : ℂ) * Complex.I ≠ 0 := by
    refine mul_ne_zero ?_ Complex.I_ne_zero
    exact_mod_cast (Real.sqrt_pos.2 (by norm_num : (0 : ℝ) < 3)).ne'
  have hprod : ((M.map fun x : ℝ => (x : ℂ)).charpoly.roots.toList.map
      fun z => if z = 0 then (10 : ℂ) ^ (-16 : ℤ) else z).prod = (((Real.sqrt (3 * 10 ^ (-16 : ℤ))) ^ 2 : ℝ) : ℂ) := by
    rw [← Multiset.prod_coe, ← Multiset.map_coe, Multiset.coe_toList, hroots, Real.sq_sqrt (by positivity)]
    have h3 : ((Real.sqrt 3 : ℝ) : ℂ) ^ 2 = 3 := by exact_mod_cast Real.sq_sqrt (by norm_num : (0 : ℝ) ≤ 3)
    have e : Multiset.map (fun z : ℂ => if z = 0 then (10 : ℂ) ^ (-16 : ℤ) else z)
        {0, (Real.sqrt 3 : ℂ) * Complex.I, -((Real.sqrt 3 : ℂ) * Complex.I)} =
        {(10 : ℂ) ^ (-16 : ℤ), (Real.sqrt 3 : ℂ) * Complex.I, -((Real.sqrt 3 : ℂ) * Complex.I)} := by
      simp only [Multiset.insert_eq_cons, Multiset.map_cons, Multiset.map_singleton, if_true, if_neg h0,
        if_neg (neg_ne_zero.2 h0)]
    rw [e]
    simp only [Multiset.insert_eq_cons, Multiset.prod_cons, Multiset.prod_singleton]
    push_cast
    linear_combination (-(10 : ℂ) ^ (-16 : ℤ) * (Real.sqrt 3 : ℂ) ^ 2) * Complex.I_sq + (10 : ℂ) ^ (-16 : ℤ) * h3
  have hsq := npSqrt_sq (Real.sqrt (3 * 10 ^ (-16 : ℤ)))
  simp only [npSqrt, Except.ok.injEq] at hsq
  rw [hprod, hsq, clean_real, abs_of_nonneg (Real.sqrt_nonneg _)]
  have : rint (Real.sqrt (3 * 10 ^ (-16 : ℤ)) * 10 ^ (10 : ℤ)) = 173 := by
    apply rint_eq_of_near
    have h1 : Real.sqrt (3 * 10 ^ (-16 : ℤ)) < 1735 * 10 ^ (-11 : ℤ) := by
      rw [Real.sqrt_lt' (by positivity)]; norm_num
    have h2 : 1725 * 10 ^ (-11 : ℤ) < Real.sqrt (3 * 10 ^ (-16 : ℤ)) := by
      rw [Real.lt_sqrt (by positivity)]; norm_num
    norm_num at h1 h2 ⊢
    rw [abs_lt]
    constructor <;> linarith
  rw [npRound, this]
  norm_num

end FF.Props
