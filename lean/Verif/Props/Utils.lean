import Verif.Proofs.Utils
import Verif.Proofs.DirectSum
import Mathlib.Data.List.Count
import Mathlib.Data.List.GetD

/-!
# Properties C12-C17: direct sums, partial traces, bit strings, casts
-/

namespace FF.Props

open Matrix
open scoped ComplexOrder ComplexConjugate

/-! ## C12 -/

/-- C12: `kron_plus` succeeds exactly when both arguments are square; otherwise it raises
`ValueError`. -/
theorem C12_kron_plus_defined {K : Type} [Zero K] {p q r s : ℕ} (a : Matrix (Fin p) (Fin q) K)
    (b : Matrix (Fin r) (Fin s) K) :
    ((∃ c, kronPlus a b = .ok c) ↔ p = q ∧ r = s) ∧
    (¬ (p = q ∧ r = s) → kronPlus a b = .error .valueError) := by
  unfold kronPlus
  by_cases h1 : s = r
  · by_cases h2 : q = p
    · subst h1 h2; simp
    · subst h1; simp [h2, Ne.symm h2]
  · simp [h1, Ne.symm h1]

/-- C12: the result is block diagonal. -/
theorem C12_kron_plus_blocks {K : Type} [Zero K] {p r : ℕ} (a : Matrix (Fin p) (Fin p) K)
    (b : Matrix (Fin r) (Fin r) K) :
    ∃ c, kronPlus a b = .ok c ∧
      (∀ i j, c (Fin.castAdd r i) (Fin.castAdd r j) = a i j) ∧
      (∀ i j, c (Fin.natAdd p i) (Fin.natAdd p j) = b i j) ∧
      (∀ i j, c (Fin.castAdd r i) (Fin.natAdd p j) = 0) ∧
      (∀ i j, c (Fin.natAdd p i) (Fin.castAdd r j) = 0) :=
  ⟨dsum a b, kronPlus_ok a b, by simp, by simp, by simp, by simp⟩

/-- C12: `kron_plus` respects products, sums, adjoints, and the trace. -/
theorem C12_kron_plus_hom {p r : ℕ} (a a' : Matrix (Fin p) (Fin p) ℂ)
    (b b' : Matrix (Fin r) (Fin r) ℂ) :
    ∃ c c' m s, kronPlus a b = .ok c ∧ kronPlus a' b' = .ok c' ∧
      kronPlus (a * a') (b * b') = .ok m ∧ m = c * c' ∧
      kronPlus (a + a') (b + b') = .ok s ∧ s = c + c' ∧
      kronPlus aᴴ bᴴ = .ok cᴴ ∧ c.trace = a.trace + b.trace := by
  refine ⟨dsum a b, dsum a' b', dsum (a * a') (b * b'), dsum (a + a') (b + b'), kronPlus_ok _ _,
    kronPlus_ok _ _, kronPlus_ok _ _, (dsum_mul _ _ _ _).symm, kronPlus_ok _ _, ?_, ?_, ?_⟩
  · ext i j
    refine Fin.addCases (fun i => ?_) (fun i => ?_) i <;>
      refine Fin.addCases (fun j => ?_) (fun j => ?_) j <;> simp
  · rw [kronPlus_ok]
    congr 1
    ext i j
    refine Fin.addCases (fun i => ?_) (fun i => ?_) i <;>
      refine Fin.addCases (fun j => ?_) (fun j => ?_) j <;> simp
  · simp [Matrix.trace, Fin.sum_univ_add]

/-- C12: `kron_plus` is associative (up to the obvious renumbering). -/
theorem C12_kron_plus_assoc {p q r : ℕ} (a : Matrix (Fin p) (Fin p) ℂ)
    (b : Matrix (Fin q) (Fin q) ℂ) (c : Matrix (Fin r) (Fin r) ℂ) :
    ∃ ab bc l m, kronPlus a b = .ok ab ∧ kronPlus b c = .ok bc ∧ kronPlus ab c = .ok l ∧
      kronPlus a bc = .ok m ∧
      ∀ i j, l i j = m (Fin.cast (Nat.add_assoc p q r) i) (Fin.cast (Nat.add_assoc p q r) j) := by
  refine ⟨dsum a b, dsum b c, dsum (dsum a b) c, dsum a (dsum b c), kronPlus_ok _ _, kronPlus_ok _ _,
    kronPlus_ok _ _, kronPlus_ok _ _, ?_⟩
  have h1 : ∀ i : Fin p, Fin.cast (Nat.add_assoc p q r) (Fin.castAdd r (Fin.castAdd q i))
      = Fin.castAdd (q + r) i := fun i => by ext; simp
  have h2 : ∀ i : Fin q, Fin.cast (Nat.add_assoc p q r) (Fin.castAdd r (Fin.natAdd p i))
      = Fin.natAdd p (Fin.castAdd r i) := fun i => by ext; simp
  have h3 : ∀ i : Fin r, Fin.cast (Nat.add_assoc p q r) (Fin.natAdd (p + q) i)
      = Fin.natAdd p (Fin.natAdd q i) := fun i => by ext; simp [Nat.add_assoc]
  intro i j
  induction i using Fin.addCases with
  | left i =>
    induction i using Fin.addCases <;>
    induction j using Fin.addCases with
    | left j => induction j using Fin.addCases <;> simp [h1, h2]
    | right j => simp only [h1, h2, h3, dsum_lr, dsum_ll, dsum_rr]
  | right i =>
    induction j using Fin.addCases with
    | left j => induction j using Fin.addCases <;> simp only [h1, h2, h3, dsum_rl, dsum_rr]
    | right j => simp only [h3, dsum_rr]

example : kronPlus !![(1 : ℤ), 2; 3, 4] !![(5 : ℤ)] ≠ .error .valueError := by
  rw [kronPlus_ok]; simp

/-! ## C13 -/

/-- C13: the only failures of the partial traces: `d = 0` and `d` not dividing the dimension. -/
theorem C13_partial_trace_errors {D : ℕ} (AB : Matrix (Fin D) (Fin D) ℂ) (d : ℕ) (e : PyErr) :
    (partialTraceOver1 AB d = .error e ↔
      (d = 0 ∧ e = .zeroDivisionError) ∨ (d ≠ 0 ∧ ¬ d ∣ D ∧ e = .assertionError)) ∧
    (partialTraceOver2 AB d = .error e ↔
      (d = 0 ∧ e = .zeroDivisionError) ∨ (d ≠ 0 ∧ ¬ d ∣ D ∧ e = .assertionError)) := by
  unfold partialTraceOver1 partialTraceOver2 blockCount
  by_cases h0 : d = 0
  · subst h0; simp [bind, Except.bind, eq_comm]
  · by_cases hd : d ∣ D
    · simp only [h0, hd, bind, Except.bind, if_false, not_true_eq_false]
      refine ⟨by simp, ?_⟩
      split_ifs <;> simp
    · simp [h0, hd, bind, Except.bind, eq_comm]

/-- C13: `partial_trace_over_1(kron(A, B), dim B) = Tr(A) B`, and in general the trace is kept. -/
theorem C13_partial_trace_over_1 {a b : ℕ} (hb : b ≠ 0) (A : Matrix (Fin a) (Fin a) ℂ)
    (B : Matrix (Fin b) (Fin b) ℂ) (AB : Matrix (Fin (a * b)) (Fin (a * b)) ℂ) :
    partialTraceOver1 (npKron A B) b = .ok (A.trace • B) ∧
    ∃ R, partialTraceOver1 AB b = .ok R ∧ R.trace = AB.trace :=
  ⟨by rw [partialTraceOver1_ok hb, pt1_kron], pt1 AB, partialTraceOver1_ok hb AB, trace_pt1 AB⟩

/-- C13: `partial_trace_over_2(kron(A, B), dim A) = Tr(B) A` up to the final cast to real: the real
part is exact, and the imaginary part is exact unless all of it is below `1e-8`, in which case it is
dropped. The trace is kept in the same sense. -/
theorem C13_partial_trace_over_2 {a b : ℕ} (ha : a ≠ 0) (A : Matrix (Fin a) (Fin a) ℂ)
    (B : Matrix (Fin b) (Fin b) ℂ) :
    ∃ R, partialTraceOver2 (npKron A B) a = .ok R ∧
      (∀ i j, (R i j).re = ((B.trace • A) i j).re) ∧
      (R = B.trace • A ∨
        ∀ i j, |((B.trace • A) i j).im| ≤ 1e-8 ∧ (R i j).im = 0) := by
  refine ⟨_, partialTraceOver2_ok ha _, ?_⟩
  rw [pt2_kron]
  split
  · rename_i h
    exact ⟨fun i j => by simp [reMat], Or.inr fun i j => ⟨h i j, by simp [reMat]⟩⟩
  · exact ⟨fun _ _ => rfl, Or.inl rfl⟩

/-- C13: for every matrix `partial_trace_over_2` keeps the real part of the trace, and for Hermitian
matrices the trace. -/
theorem C13_partial_trace_over_2_trace {a b : ℕ} (ha : a ≠ 0)
    (AB : Matrix (Fin (a * b)) (Fin (a * b)) ℂ) :
    ∃ R, partialTraceOver2 AB a = .ok R ∧ R.trace.re = AB.trace.re ∧
      (AB.IsHermitian → R.trace = AB.trace) := by
  refine ⟨_, partialTraceOver2_ok ha _, ?_⟩
  split
  · refine ⟨?_, fun h => by rw [trace_reMat (pt2_herm h), trace_pt2]⟩
    rw [← trace_pt2]
    simp [Matrix.trace, reMat]
  · exact ⟨by rw [trace_pt2], fun _ => trace_pt2 AB⟩

/-- The rule "sum of block traces" behind C13, for arbitrary matrices, in coordinates. -/
theorem C13_partial_trace_entries {a b : ℕ} (ha : a ≠ 0) (hb : b ≠ 0)
    (AB : Matrix (Fin (a * b)) (Fin (a * b)) ℂ) :
    (∃ R, partialTraceOver1 AB b = .ok R ∧
      ∀ x y, R x y = ∑ j : Fin a, AB (finProdFinEquiv (j, x)) (finProdFinEquiv (j, y))) ∧
    (∃ R, partialTraceOver2 AB a = .ok R ∧
      ∀ x y, (R x y).re =
        (∑ k : Fin b, AB (finProdFinEquiv (x, k)) (finProdFinEquiv (y, k))).re) := by
  refine ⟨⟨_, partialTraceOver1_ok hb AB, fun x y => by rw [pt1, sum_apply2]; rfl⟩,
    ⟨_, partialTraceOver2_ok ha AB, fun x y => ?_⟩⟩
  have : (pt2 AB x y) = ∑ k : Fin b, AB (finProdFinEquiv (x, k)) (finProdFinEquiv (y, k)) := by
    rw [pt2, sum_apply2]; rfl
  rw [← this]
  split
  · simp [reMat]
  · rfl

/-- C13: what `partial_trace_over_2` returns, exactly. With `T` the sums over the second factor: if every imaginary
part of `T` is at most `1e-8` the result is the real part of `T`, otherwise it is `T`. -/
theorem C13_partial_trace_over_2_exact {a b : ℕ} (ha : a ≠ 0) (AB : Matrix (Fin (a * b)) (Fin (a * b)) ℂ)
    (T : Matrix (Fin a) (Fin a) ℂ)
    (hT : ∀ x y, T x y = ∑ k : Fin b, AB (finProdFinEquiv (x, k)) (finProdFinEquiv (y, k))) :
    ∃ R, partialTraceOver2 AB a = .ok R ∧
      ((∀ x y, |(T x y).im| ≤ 1e-8) → ∀ x y, R x y = (((T x y).re : ℝ) : ℂ)) ∧
      ((∃ x y, 1e-8 < |(T x y).im|) → R = T) := by
  have : T = pt2 AB := by
    ext x y
    rw [hT, pt2, sum_apply2]; rfl
  subst this
  refine ⟨_, partialTraceOver2_ok ha AB, fun h x y => ?_, fun ⟨x, y, h⟩ => ?_⟩
  · rw [if_pos h]; rfl
  · rw [if_neg (fun h' => absurd (h' x y) (not_le.2 h))]

/-- The exact equation for `partial_trace_over_2` fails when the imaginary part is tiny. -/
theorem C13_over_2_drops_small_imaginary :
    ∃ (A : Matrix (Fin 1) (Fin 1) ℂ) (B : Matrix (Fin 1) (Fin 1) ℂ) (R : Matrix (Fin 1) (Fin 1) ℂ),
      partialTraceOver2 (npKron A B) 1 = .ok R ∧ R ≠ B.trace • A := by
  refine ⟨!![⟨1, 1e-9⟩], 1, _, partialTraceOver2_ok one_ne_zero _, ?_⟩
  rw [pt2_kron]
  have ht : (1 : Matrix (Fin 1) (Fin 1) ℂ).trace • !![(⟨1, 1e-9⟩ : ℂ)] = !![(⟨1, 1e-9⟩ : ℂ)] := by
    simp
  rw [ht, if_pos]
  · intro h
    have := congrArg Complex.im (congrFun (congrFun h 0) 0)
    simp [reMat] at this
    norm_num at this
  · intro i j
    fin_cases i; fin_cases j
    simp
    norm_num

/-! ## C14 -/

/-- C14: both partial traces send density matrices to density matrices. -/
theorem C14_states_to_states {a b : ℕ} (ha : a ≠ 0) (hb : b ≠ 0)
    (ρ : Matrix (Fin (a * b)) (Fin (a * b)) ℂ) (hρ : Spec.IsDensity ρ) :
    (∃ R, partialTraceOver1 ρ b = .ok R ∧ Spec.IsDensity R) ∧
    (∃ R, partialTraceOver2 ρ a = .ok R ∧ Spec.IsDensity R) := by
  refine ⟨⟨_, partialTraceOver1_ok hb ρ, pt1_psd hρ.psd, by rw [trace_pt1, hρ.trace_one]⟩,
    ⟨_, partialTraceOver2_ok ha ρ, ?_⟩⟩
  split
  · exact ⟨reMat_psd (pt2_psd hρ.psd),
      by rw [trace_reMat (pt2_psd hρ.psd).isHermitian, trace_pt2, hρ.trace_one]⟩
  · exact ⟨pt2_psd hρ.psd, by rw [trace_pt2, hρ.trace_one]⟩

/-- C14: Hermitian matrices go to Hermitian matrices, positive ones to positive ones. -/
theorem C14_hermitian_psd {a b : ℕ} (ha : a ≠ 0) (hb : b ≠ 0)
    (M : Matrix (Fin (a * b)) (Fin (a * b)) ℂ) :
    (∃ R S, partialTraceOver1 M b = .ok R ∧ partialTraceOver2 M a = .ok S ∧
      (M.IsHermitian → R.IsHermitian ∧ S.IsHermitian) ∧
      (M.PosSemidef → R.PosSemidef ∧ S.PosSemidef)) := by
  refine ⟨_, _, partialTraceOver1_ok hb M, partialTraceOver2_ok ha M, fun h => ?_, fun h => ?_⟩
  · refine ⟨pt1_herm h, ?_⟩
    split
    · exact reMat_herm (pt2_herm h)
    · exact pt2_herm h
  · refine ⟨pt1_psd h, ?_⟩
    split
    · exact reMat_psd (pt2_psd h)
    · exact pt2_psd h

theorem partialTraceOver2_near {a b : ℕ} (ha : a ≠ 0)
    (M : Matrix (Fin (a * b)) (Fin (a * b)) ℂ) :
    ∃ R, partialTraceOver2 M a = .ok R ∧ ∀ i j, ‖R i j - pt2 M i j‖ ≤ 1e-8 := by
  refine ⟨_, partialTraceOver2_ok ha M, fun i j => ?_⟩
  split
  · rename_i h
    have : reMat (pt2 M) i j - pt2 M i j = -((pt2 M i j).im : ℂ) * Complex.I := by
      apply Complex.ext <;> simp [reMat]
    rw [this, norm_mul, norm_neg, Complex.norm_I, mul_one, Complex.norm_real]
    exact h i j
  · simp; norm_num

/-- C14: `partial_trace_over_1` is linear; `partial_trace_over_2` is linear up to `1e-8` per entry and
call (its cast to real). -/
theorem C14_linear {a b : ℕ} (ha : a ≠ 0) (hb : b ≠ 0) (c : ℂ)
    (M N : Matrix (Fin (a * b)) (Fin (a * b)) ℂ) :
    (∃ R S, partialTraceOver1 M b = .ok R ∧ partialTraceOver1 N b = .ok S ∧
      partialTraceOver1 (c • M + N) b = .ok (c • R + S)) ∧
    (∃ R S T, partialTraceOver2 M a = .ok R ∧ partialTraceOver2 N a = .ok S ∧
      partialTraceOver2 (c • M + N) a = .ok T ∧
      ∀ i j, ‖T i j - (c * R i j + S i j)‖ ≤ 1e-8 * (2 + ‖c‖)) := by
  have h1 : ∀ (d e : ℕ) (M N : Matrix (Fin (d * e)) (Fin (d * e)) ℂ),
      pt1 (c • M + N) = c • pt1 M + pt1 N := by
    intro d e M N
    ext i j
    simp only [pt1, Matrix.add_apply, Matrix.smul_apply, sum_apply2, submatrix_apply,
      Finset.sum_add_distrib, Finset.smul_sum]
  have h2 : ∀ (d e : ℕ) (M N : Matrix (Fin (d * e)) (Fin (d * e)) ℂ),
      pt2 (c • M + N) = c • pt2 M + pt2 N := by
    intro d e M N
    ext i j
    simp only [pt2, Matrix.add_apply, Matrix.smul_apply, sum_apply2, submatrix_apply,
      Finset.sum_add_distrib, Finset.smul_sum]
  obtain ⟨R', hR, k1⟩ := partialTraceOver2_near ha M
  obtain ⟨S', hS, k2⟩ := partialTraceOver2_near ha N
  obtain ⟨T', hT, k3⟩ := partialTraceOver2_near ha (c • M + N)
  refine ⟨⟨_, _, partialTraceOver1_ok hb M, partialTraceOver1_ok hb N,
    by rw [partialTraceOver1_ok hb, h1]⟩, R', S', T', hR, hS, hT, fun i j => ?_⟩
  replace k1 := k1 i j
  replace k2 := k2 i j
  replace k3 := k3 i j
  generalize R' i j = R at *
  generalize S' i j = S at *
  generalize T' i j = T at *
  have e : T - (c * R + S) = (T - pt2 (c • M + N) i j) - c * (R - pt2 M i j) - (S - pt2 N i j) := by
    rw [h2]; simp; ring
  rw [e]
  calc _ ≤ ‖T - pt2 (c • M + N) i j‖ + ‖c * (R - pt2 M i j)‖ + ‖S - pt2 N i j‖ :=
        (norm_sub_le _ _).trans (add_le_add_left (norm_sub_le _ _) _)
    _ ≤ 1e-8 + ‖c‖ * 1e-8 + 1e-8 := by
        rw [norm_mul]
        exact add_le_add (add_le_add k3 (mul_le_mul_of_nonneg_left k1 (norm_nonneg c))) k2
    _ = 1e-8 * (2 + ‖c‖) := by ring

/-- A concrete state of a 2 x 2 system meets the hypotheses. -/
example : Spec.IsDensity (Spec.proj (fun i : Fin (2 * 2) => if i = 0 then (1 : ℂ) else 0)) := by
  refine ⟨proj_psd _, ?_⟩
  rw [proj_trace]
  simp [Fin.sum_univ_four]

/-! ## C15 -/

/-- What `np.random.choice(n, size=k, replace=False)` may return: `k` different indices below `n`. -/
structure IsChoice (n k : ℕ) (l : List ℕ) : Prop where
  length : l.length = k
  nodup : l.Nodup
  lt : ∀ i ∈ l, i < n

theorem setOnes_spec (l : List ℕ) : ∀ (bs : List ℕ), (∀ i ∈ l, i < bs.length) →
    (l.foldl (fun bs i => bs.set i 1) bs).length = bs.length ∧
    ∀ j, j < bs.length →
      (l.foldl (fun bs i => bs.set i 1) bs).getD j 0 = if j ∈ l then 1 else bs.getD j 0 := by
  induction l with
  | nil => intro bs _; simp
  | cons i l ih =>
    intro bs h
    have h' := ih (bs.set i 1) (fun k hk => by simpa using h k (List.mem_cons_of_mem _ hk))
    refine ⟨by simpa using h'.1, fun j hj => ?_⟩
    simp only [List.foldl_cons]
    rw [h'.2 j (by simpa using hj)]
    by_cases hjl : j ∈ l
    · simp [hjl]
    · by_cases hji : j = i
      · subst hji; simp [hjl, hj]
      · have hij : i ≠ j := Ne.symm hji
        simp [hjl, hji, List.getElem?_set_ne hij]

/-- C15: for every outcome of the random choice the string has length `n`, entries 0/1, with exactly
`k` ones. -/
theorem C15_bitstring (choice : ℕ → ℕ → List ℕ) (n k : ℕ) (hk : k ≤ n)
    (hc : IsChoice n k (choice n k)) :
    ∃ bs, generateRandomBitstring choice n k = some bs ∧ bs.length = n ∧
      (∀ b ∈ bs, b = 0 ∨ b = 1) ∧ bs.count 1 = k := by
  refine ⟨_, by
    unfold generateRandomBitstring
    rw [if_neg (by omega)], ?_⟩
  simp only [Int.toNat_natCast]
  obtain ⟨h1, h2⟩ := setOnes_spec (choice n k) (List.replicate n 0) (by simpa using hc.lt)
  set bs := (choice n k).foldl (fun bs i => bs.set i 1) (List.replicate n 0) with hbs
  have hlen : bs.length = n := by simpa using h1
  have hget : ∀ j (hj : j < bs.length), bs[j] = if j ∈ choice n k then 1 else 0 := by
    intro j hj
    have := h2 j (by simpa [hlen] using hj)
    rw [List.getD_eq_getElem _ _ hj] at this
    rw [this]
    simp [show j < n by omega]
  have hmap : bs = (List.range n).map fun j => if j ∈ choice n k then 1 else 0 := by
    apply List.ext_getElem
    · simp [hlen]
    · intro j h1 h2; simp [hget j h1]
  refine ⟨hlen, ?_, ?_⟩
  · intro b hb
    obtain ⟨j, hj, rfl⟩ := List.getElem_of_mem hb
    rw [hget j hj]
    split <;> simp
  · rw [hmap, List.count, List.countP_map]
    have : ((fun x => x == 1) ∘ fun j => if j ∈ choice n k then 1 else 0)
        = fun j => decide (j ∈ choice n k) := by
      funext j; by_cases h : j ∈ choice n k <;> simp [h]
    rw [this, List.countP_eq_length_filter]
    have hp : ((List.range n).filter fun j => decide (j ∈ choice n k)).Perm (choice n k) := by
      rw [List.perm_ext_iff_of_nodup (List.nodup_range.filter _) hc.nodup]
      intro j
      simp only [List.mem_filter, List.mem_range, decide_eq_true_eq]
      exact ⟨fun h => h.2, fun h => ⟨hc.lt j h, h⟩⟩
    rw [hp.length_eq, hc.length]

/-- C15: every 0/1 string with `k` ones is the result for some outcome of the random choice. -/
theorem C15_reachable (n k : ℕ) (bs : List ℕ) (hlen : bs.length = n) (h01 : ∀ b ∈ bs, b = 0 ∨ b = 1)
    (hk : bs.count 1 = k) :
    ∃ choice : ℕ → ℕ → List ℕ, IsChoice n k (choice n k) ∧
      generateRandomBitstring choice n k = some bs := by
  let l := (List.range n).filter fun j => decide (bs.getD j 0 = 1)
  have hmap : bs = (List.range n).map fun j => bs.getD j 0 := by
    apply List.ext_getElem
    · simp [hlen]
    · intro j h1 h2; simp [h1]
  have hl : l.length = k := by
    rw [← hk]
    conv_rhs => rw [hmap, List.count, List.countP_map]
    rw [List.countP_eq_length_filter]
    congr 1
  have hlt : ∀ i ∈ l, i < n := fun i hi => by
    simp only [l, List.mem_filter, List.mem_range] at hi; exact hi.1
  refine ⟨fun _ _ => l, ⟨hl, List.nodup_range.filter _, hlt⟩, ?_⟩
  unfold generateRandomBitstring
  have hkn : k ≤ n := by rw [← hk, ← hlen]; exact List.count_le_length
  rw [if_neg (by omega)]
  simp only [Option.some.injEq]
  obtain ⟨h1, h2⟩ := setOnes_spec l (List.replicate n 0) (by simpa using hlt)
  apply List.ext_getElem
  · simpa [hlen] using h1
  · intro j hj1 hj2
    have hjn : j < n := by omega
    have := h2 j (by simpa using hjn)
    rw [List.getD_eq_getElem _ _ hj1] at this
    rw [this]
    have hm : j ∈ l ↔ bs[j] = 1 := by
      simp only [l, List.mem_filter, List.mem_range, decide_eq_true_eq,
        List.getD_eq_getElem _ _ hj2]
      exact ⟨fun h => h.2, fun h => ⟨hjn, h⟩⟩
    rcases h01 _ (List.getElem_mem hj2) with h | h
    · rw [if_neg (by rw [hm, h]; simp)]; simp [hjn, h]
    · rw [if_pos (hm.2 h), h]

/-- C15: an invalid weight gives `None`. -/
theorem C15_invalid (choice : ℕ → ℕ → List ℕ) (n : ℕ) (k : ℤ) :
    generateRandomBitstring choice n k = none ↔ k < 0 ∨ k > n := by
  unfold generateRandomBitstring
  split <;> simp_all

example : IsChoice 5 2 [4, 1] := ⟨rfl, by decide, by decide⟩

/-! ## C16 -/

/-- C16: whatever the input, a returned matrix has trace close to 1, is close to Hermitian, and the
Hermitian matrix with its lower triangle has no eigenvalue below `-1e-12`. -/
theorem C16_sound (x : Arr) (d : ℕ) (ρ : Matrix (Fin d) (Fin d) ℂ)
    (h : castToDensityMatrix x = .ok ⟨d, ρ⟩) :
    ‖1 - ρ.trace‖ ≤ 1e-8 + 1e-5 * ‖ρ.trace‖ ∧
    (∀ i j, ‖ρ i j - star (ρ j i)‖ ≤ 1e-8 + 1e-5 * ‖ρ j i‖) ∧
    (∀ H : Matrix (Fin d) (Fin d) ℂ, H.IsHermitian → (∀ i j, j < i → H i j = ρ i j) →
      (∀ i, H i i = ((ρ i i).re : ℂ)) →
      ((1e-12 : ℝ) • (1 : Matrix (Fin d) (Fin d) ℂ) + H).PosSemidef) := by
  have key : ∀ {m n : ℕ} (A : Matrix (Fin m) (Fin n) ℂ), validateDM A = .ok ⟨d, ρ⟩ →
      isclose 1 (npTrace ρ) ∧ allclose ρ ρᴴ ∧ ∀ i, eigvalsh ρ i ≥ -1e-12 := by
    intro m n A hA
    unfold validateDM at hA
    split at hA
    · cases hA
    · dsimp only at hA
      split at hA
      · cases hA
      · split at hA
        · cases hA
        · split at hA
          · cases hA
          · rename_i h1 h2 h3 h4
            injection hA with hA
            injection hA with hA1 hA2
            subst hA1
            subst hA2
            exact ⟨not_not.1 h2, not_not.1 h3, not_not.1 h4⟩
  have hv : isclose 1 (npTrace ρ) ∧ allclose ρ ρᴴ ∧ ∀ i, eigvalsh ρ i ≥ -1e-12 := by
    have kv : ∀ {n : ℕ} (v : Fin n → ℂ), castVector v = .ok ⟨d, ρ⟩ →
        isclose 1 (npTrace ρ) ∧ allclose ρ ρᴴ ∧ ∀ i, eigvalsh ρ i ≥ -1e-12 := by
      intro n v h
      unfold castVector at h
      split at h
      · exact key _ h
      · split at h
        · exact key _ h
        · cases h
    cases x with
    | vec n v => exact kv v h
    | mat m n A =>
      simp only [castToDensityMatrix] at h
      split at h
      · exact kv _ h
      · exact key _ h
  obtain ⟨h1, h2, h3⟩ := hv
  refine ⟨h1, fun i j => ?_, fun H hH hl hd => ?_⟩
  · have := h2 i j
    simp only [isclose, conjTranspose_apply, norm_star] at this
    exact this
  · have hHeq : H = lowerHerm ρ := by
      ext i j
      simp only [lowerHerm, of_apply]
      rcases lt_trichotomy i j with hij | hij | hij
      · rw [if_neg (not_lt.2 hij.le), if_pos hij, ← hl j i hij]; exact (hH.apply i j).symm
      · subst hij; simp only [lt_irrefl, if_false]; exact hd i
      · rw [if_pos hij]; exact hl i j hij
    rw [hHeq]
    set L := lowerHerm ρ
    have hL : L.IsHermitian := lowerHerm_isHermitian ρ
    have hev : ∀ i, -1e-12 ≤ hL.eigenvalues i := by
      intro i
      have := h3 ((Fin.cast (by simp) ((Fintype.equivOfCardEq (Fintype.card_fin _)).symm i)
        : Fin d).rev)
      simpa [eigvalsh, Matrix.IsHermitian.eigenvalues] using this
    have hU := hL.spectral_theorem
    rw [Unitary.conjStarAlgAut_apply] at hU
    set U : Matrix (Fin d) (Fin d) ℂ := (hL.eigenvectorUnitary : Matrix (Fin d) (Fin d) ℂ) with hUdef
    have hUU : U * star U = 1 := Unitary.coe_mul_star_self hL.eigenvectorUnitary
    have : (1e-12 : ℝ) • (1 : Matrix (Fin d) (Fin d) ℂ) + L
        = U * (Matrix.diagonal fun i => ((1e-12 + hL.eigenvalues i : ℝ) : ℂ)) * Uᴴ := by
      have hdiag : (Matrix.diagonal fun i => ((1e-12 + hL.eigenvalues i : ℝ) : ℂ))
          = ((1e-12 : ℝ) : ℂ) • (1 : Matrix (Fin d) (Fin d) ℂ)
            + Matrix.diagonal (RCLike.ofReal ∘ hL.eigenvalues) := by
        ext i j
        by_cases hij : i = j
        · subst hij; simp
        · simp [hij]
      rw [hdiag, Matrix.mul_add, Matrix.add_mul, ← star_eq_conjTranspose, ← hU,
        Matrix.mul_smul, Matrix.mul_one, Matrix.smul_mul, hUU]
      rfl
    rw [this]
    refine PosSemidef.mul_mul_conjTranspose_same ?_ U
    refine diag_psd fun i => ?_
    have := hev i
    linarith

theorem validateDM_eq {m n d : ℕ} (A : Matrix (Fin m) (Fin n) ℂ) (ρ : Matrix (Fin d) (Fin d) ℂ)
    (h : validateDM A = .ok ⟨d, ρ⟩) :
    ∃ (hm : m = d) (hn : n = d), ∀ i j, ρ (Fin.cast hm i) (Fin.cast hn j) = A i j := by
  unfold validateDM at h
  split at h
  · cases h
  · rename_i hmn
    have hmn := not_not.1 hmn
    subst hmn
    dsimp only at h
    split at h
    · cases h
    · split at h
      · cases h
      · split at h
        · cases h
        · injection h with h
          injection h with h1 h2
          subst h1
          cases h2
          exact ⟨rfl, rfl, fun i j => rfl⟩

/-- C16: whenever an array is returned, it is the input itself for an array without a side of length 1. -/
theorem C16_result_matrix {m n d : ℕ} (A : Matrix (Fin m) (Fin n) ℂ) (hs : min m n ≠ 1)
    (ρ : Matrix (Fin d) (Fin d) ℂ) (h : castToDensityMatrix (.mat m n A) = .ok ⟨d, ρ⟩) :
    ∃ (hm : m = d) (hn : n = d), ∀ i j, ρ (Fin.cast hm i) (Fin.cast hn j) = A i j := by
  simp only [castToDensityMatrix, if_neg hs] at h
  exact validateDM_eq A ρ h

theorem castVector_eq {n d : ℕ} (v : Fin n → ℂ) (ρ : Matrix (Fin d) (Fin d) ℂ) (h : castVector v = .ok ⟨d, ρ⟩) :
    ∃ hn : n = d,
      (|Real.sqrt (∑ i, ‖v i‖ ^ 2) - 1| ≤ 1e-8 + 1e-5 ∧
        ∀ i j, ρ (Fin.cast hn i) (Fin.cast hn j) = v i * conj (v j)) ∨
      (1e-8 + 1e-5 < |Real.sqrt (∑ i, ‖v i‖ ^ 2) - 1| ∧ |∑ i, ‖v i‖ - 1| ≤ 1e-8 + 1e-5 ∧
        ∀ i j, ρ (Fin.cast hn i) (Fin.cast hn j) = if i = j then v i else 0) := by
  have h2 : isclose ((l2norm v : ℝ) : ℂ) 1 ↔ |Real.sqrt (∑ i, ‖v i‖ ^ 2) - 1| ≤ 1e-8 + 1e-5 := by
    rw [isclose, l2norm, ← Complex.ofReal_one, ← Complex.ofReal_sub, Complex.norm_real, Complex.norm_real]
    simp
  have h1 : isclose ((l1norm v : ℝ) : ℂ) 1 ↔ |∑ i, ‖v i‖ - 1| ≤ 1e-8 + 1e-5 := by
    rw [isclose, l1norm, ← Complex.ofReal_one, ← Complex.ofReal_sub, Complex.norm_real, Complex.norm_real]
    simp
  unfold castVector at h
  split at h
  · rename_i hc
    obtain ⟨hm, hn, he⟩ := validateDM_eq _ _ h
    exact ⟨hm, Or.inl ⟨h2.1 hc, he⟩⟩
  · rename_i hc
    split at h
    · rename_i hc1
      obtain ⟨hm, hn, he⟩ := validateDM_eq _ _ h
      refine ⟨hm, Or.inr ⟨not_le.1 fun h' => hc (h2.2 h'), h1.1 hc1, fun i j => ?_⟩⟩
      rw [he, Matrix.diagonal_apply]
    · cases h

/-- C16: whenever an array is returned for a vector, it is `|v⟩⟨v|` if the 2-norm is close to one, and otherwise the
diagonal array, the 1-norm then being close to one. -/
theorem C16_result_vector {n d : ℕ} (v : Fin n → ℂ) (ρ : Matrix (Fin d) (Fin d) ℂ)
    (h : castToDensityMatrix (.vec n v) = .ok ⟨d, ρ⟩) :
    ∃ hn : n = d,
      (|Real.sqrt (∑ i, ‖v i‖ ^ 2) - 1| ≤ 1e-8 + 1e-5 ∧
        ∀ i j, ρ (Fin.cast hn i) (Fin.cast hn j) = v i * conj (v j)) ∨
      (1e-8 + 1e-5 < |Real.sqrt (∑ i, ‖v i‖ ^ 2) - 1| ∧ |∑ i, ‖v i‖ - 1| ≤ 1e-8 + 1e-5 ∧
        ∀ i j, ρ (Fin.cast hn i) (Fin.cast hn j) = if i = j then v i else 0) :=
  castVector_eq v ρ h

/-- C16: exact density matrices are returned unchanged. -/
theorem C16_density (n : ℕ) (ρ : Matrix (Fin n) (Fin n) ℂ) (h : Spec.IsDensity ρ) :
    castToDensityMatrix (.mat n n ρ) = .ok ⟨n, ρ⟩ := by
  have htr : isclose 1 ρ.trace := by rw [h.trace_one]; exact isclose_self 1
  by_cases hn : n = 1
  · subst hn
    have h1 : ρ 0 0 = 1 := by have := h.trace_one; simpa [Matrix.trace] using this
    simp only [castToDensityMatrix, min_self, if_true]
    have hflat : (Arr.mat 1 1 ρ).flatten.2 = fun _ => (1 : ℂ) := by
      funext k
      have : ∀ a b : Fin 1, ρ a b = 1 := fun a b => by
        rw [Subsingleton.elim a 0, Subsingleton.elim b 0, h1]
      exact this _ _
    rw [hflat]
    have hl2 : l2norm (fun _ : Fin (1 * 1) => (1 : ℂ)) = 1 := by simp [l2norm]
    have hρ : ρ = fun _ _ => 1 := by
      funext a b; rw [Subsingleton.elim a 0, Subsingleton.elim b 0, h1]
    change castVector (fun _ : Fin (1 * 1) => (1 : ℂ)) = _
    unfold castVector
    rw [if_pos (by rw [hl2]; exact_mod_cast isclose_self 1)]
    have e : (Matrix.of fun (_ _ : Fin (1 * 1)) => (1 : ℂ) * conj (1 : ℂ))
        = (ρ : Matrix (Fin (1 * 1)) (Fin (1 * 1)) ℂ) := by
      rw [hρ]; ext; simp
    rw [e]
    exact validateDM_psd h.psd htr
  · simp only [castToDensityMatrix, min_self, hn, if_false]
    exact validateDM_psd h.psd htr

theorem l2norm_unit {n : ℕ} {ψ : Fin n → ℂ} (h : Spec.IsUnitVec ψ) : l2norm ψ = 1 := by
  rw [l2norm, h, Real.sqrt_one]

/-- C16: unit vectors become `|ψ><ψ|`. -/
theorem C16_unit_vector (n : ℕ) (ψ : Fin n → ℂ) (h : Spec.IsUnitVec ψ) :
    castToDensityMatrix (.vec n ψ) = .ok ⟨n, Spec.proj ψ⟩ := by
  simp only [castToDensityMatrix, castVector]
  rw [if_pos (by rw [l2norm_unit h]; exact_mod_cast isclose_self 1)]
  exact validateDM_psd (A := Spec.proj ψ) (proj_psd ψ)
    (by rw [proj_trace, h]; exact_mod_cast isclose_self 1)

/-- C16: a row or column is treated as the vector of its entries. -/
theorem C16_row_column (m n : ℕ) (A : Matrix (Fin m) (Fin n) ℂ) (h : min m n = 1) :
    castToDensityMatrix (.mat m n A)
      = castToDensityMatrix (.vec (m * n) fun k => A k.divNat k.modNat) := by
  simp only [castToDensityMatrix, h, if_true]
  rfl

/-- C16: probability vectors that cannot be mistaken for a wavefunction become diagonal matrices. -/
theorem C16_prob_vector (n : ℕ) (p : Fin n → ℝ) (hp : Spec.IsProb p)
    (h2 : 1e-8 + 1e-5 < |Real.sqrt (∑ i, p i ^ 2) - 1|) :
    castToDensityMatrix (.vec n fun i => (p i : ℂ)) = .ok ⟨n, Matrix.diagonal fun i => (p i : ℂ)⟩ := by
  simp only [castToDensityMatrix, castVector]
  rw [if_neg, if_pos]
  · refine validateDM_psd (diag_psd hp.nonneg) ?_
    have : (Matrix.diagonal fun i => (p i : ℂ)).trace = 1 := by
      rw [trace_diagonal]
      exact_mod_cast hp.sum_one
    rw [this]; exact isclose_self 1
  · have : l1norm (fun i => (p i : ℂ)) = 1 := by
      simp only [l1norm, Complex.norm_real, Real.norm_eq_abs]
      rw [← hp.sum_one]
      exact Finset.sum_congr rfl fun i _ => abs_of_nonneg (hp.nonneg i)
    rw [this]; exact_mod_cast isclose_self 1
  · have : l2norm (fun i => (p i : ℂ)) = Real.sqrt (∑ i, p i ^ 2) := by
      simp [l2norm]
    rw [this, isclose, not_le]
    rw [← Complex.ofReal_one, ← Complex.ofReal_sub, Complex.norm_real, Complex.norm_real]
    simpa using h2

/-- C16: everything else raises: vectors with neither norm close to 1, non-square matrices
(`ValueError`), matrices with the wrong trace (`AssertionError`). -/
theorem C16_rejects (n : ℕ) (v : Fin n → ℂ) (h1 : 1e-8 + 1e-5 < |∑ i, ‖v i‖ - 1|)
    (h2 : 1e-8 + 1e-5 < |Real.sqrt (∑ i, ‖v i‖ ^ 2) - 1|) :
    castToDensityMatrix (.vec n v) = .error .valueError := by
  simp only [castToDensityMatrix, castVector]
  have key : ∀ x : ℝ, 1e-8 + 1e-5 < |x - 1| → ¬ isclose (x : ℂ) 1 := by
    intro x hx
    rw [isclose, not_le, ← Complex.ofReal_one, ← Complex.ofReal_sub, Complex.norm_real,
      Complex.norm_real]
    simpa using hx
  rw [if_neg (show ¬ isclose (l2norm v) 1 from key _ h2),
    if_neg (show ¬ isclose (l1norm v) 1 from key _ h1)]

theorem C16_rejects_matrix (m n : ℕ) (A : Matrix (Fin m) (Fin n) ℂ) (hmin : min m n ≠ 1) :
    (m ≠ n → castToDensityMatrix (.mat m n A) = .error .valueError) ∧
    (∀ h : n = m, 1e-8 + 1e-5 * ‖(A.submatrix id (Fin.cast h.symm)).trace‖
        < ‖1 - (A.submatrix id (Fin.cast h.symm)).trace‖ →
      castToDensityMatrix (.mat m n A) = .error .assertionError) := by
  simp only [castToDensityMatrix, hmin, if_false]
  constructor
  · intro h
    simp [validateDM, h]
  · rintro rfl htr
    unfold validateDM
    rw [dif_neg (by simp)]
    dsimp only
    rw [if_pos]
    rw [isclose, not_le]
    exact htr

example : Spec.IsUnitVec ![(3 / 5 : ℂ), 4 / 5 * Complex.I] := by
  simp [Spec.IsUnitVec, Fin.sum_univ_two]; norm_num

example : Spec.IsProb ![(1 / 2 : ℝ), 1 / 2] ∧
    1e-8 + 1e-5 < |Real.sqrt (∑ i, ![(1 / 2 : ℝ), 1 / 2] i ^ 2) - 1| := by
  refine ⟨⟨by intro i; fin_cases i <;> simp, by simp [Fin.sum_univ_two]; norm_num⟩, ?_⟩
  have : Real.sqrt (∑ i, ![(1 / 2 : ℝ), 1 / 2] i ^ 2) ≤ 3 / 4 := by
    rw [Real.sqrt_le_left (by norm_num)]
    simp [Fin.sum_univ_two]; norm_num
  rw [abs_of_nonpos (by linarith)]
  norm_num at this ⊢
  linarith

/-! ## C17 -/

theorem castToPdf_of {x : Arr} {n : ℕ} {ρ : Matrix (Fin n) (Fin n) ℂ} {p : Fin n → ℝ}
    (h : castToDensityMatrix x = .ok ⟨n, ρ⟩) (hp : ∀ i, ρ i i = (p i : ℂ)) :
    castToPdf x = .ok ⟨n, p⟩ := by
  unfold castToPdf
  rw [h]
  simp only [bind, Except.bind]
  have : (fun i => (ρ i i).re) = p := by funext i; rw [hp, Complex.ofReal_re]
  rw [if_pos, this]
  intro i
  simp only [hp, Complex.ofReal_re]
  exact isclose_self _

/-- C17: `cast_to_pdf` of a unit wavefunction is the Born distribution, and is a distribution. -/
theorem C17_wavefunction (n : ℕ) (ψ : Fin n → ℂ) (h : Spec.IsUnitVec ψ) :
    castToPdf (.vec n ψ) = .ok ⟨n, fun i => ‖ψ i‖ ^ 2⟩ ∧ Spec.IsProb fun i => ‖ψ i‖ ^ 2 := by
  refine ⟨?_, ⟨fun i => by positivity, h⟩⟩
  have hp : ∀ i, Spec.proj ψ i i = ((‖ψ i‖ ^ 2 : ℝ) : ℂ) := fun i => by
    simp only [Spec.proj, of_apply, Complex.star_def, Complex.mul_conj, Complex.normSq_eq_norm_sq]
  exact castToPdf_of (C16_unit_vector n ψ h) hp

/-- C17: `cast_to_pdf` of a density matrix is its diagonal, and is a distribution. -/
theorem C17_density (n : ℕ) (ρ : Matrix (Fin n) (Fin n) ℂ) (h : Spec.IsDensity ρ) :
    castToPdf (.mat n n ρ) = .ok ⟨n, fun i => (ρ i i).re⟩ ∧ Spec.IsProb fun i => (ρ i i).re := by
  have hre : ∀ i, ((ρ i i).re : ℂ) = ρ i i := fun i =>
    Complex.conj_eq_iff_re.1 (h.psd.isHermitian.apply i i)
  refine ⟨?_, ⟨fun i => ?_, ?_⟩⟩
  · exact castToPdf_of (C16_density n ρ h) fun i => (hre i).symm
  · have := h.psd.diag_nonneg (i := i)
    exact (Complex.le_def.1 this).1
  · have := congrArg Complex.re h.trace_one
    simpa [Matrix.trace] using this

/-- C17 (part): a probability vector is returned as it is, provided its 2-norm is not within
numpy's tolerance of 1. Missing: the remaining probability vectors, for which the claim is false
(`C17_violation`), except the deterministic ones (`C17_deterministic`). -/
theorem C17_prob_vector_partial (n : ℕ) (p : Fin n → ℝ) (hp : Spec.IsProb p)
    (h2 : 1e-8 + 1e-5 < |Real.sqrt (∑ i, p i ^ 2) - 1|) :
    castToPdf (.vec n fun i => (p i : ℂ)) = .ok ⟨n, p⟩ :=
  castToPdf_of (C16_prob_vector n p hp h2) fun i => diagonal_apply_eq _ i

/-- C17: deterministic distributions are returned as they are. -/
theorem C17_deterministic (n : ℕ) (k : Fin n) :
    castToPdf (.vec n fun i => if i = k then 1 else 0) = .ok ⟨n, fun i => if i = k then 1 else 0⟩ := by
  have h : Spec.IsUnitVec (fun i : Fin n => if i = k then (1 : ℂ) else 0) := by
    simp only [Spec.IsUnitVec]
    rw [Finset.sum_eq_single k] <;> simp +contextual
  rw [(C17_wavefunction n _ h).1]
  congr 2
  funext i
  split <;> simp

theorem castToPdf_misread {n : ℕ} (p : Fin n → ℝ)
    (h2 : isclose (l2norm fun i => (p i : ℂ)) 1)
    (htr : isclose 1 ((∑ i, p i ^ 2 : ℝ) : ℂ)) :
    castToPdf (.vec n fun i => (p i : ℂ)) = .ok ⟨n, fun i => p i ^ 2⟩ := by
  have hc : castToDensityMatrix (.vec n fun i => (p i : ℂ))
      = .ok ⟨n, Spec.proj fun i => (p i : ℂ)⟩ := by
    simp only [castToDensityMatrix, castVector]
    rw [if_pos h2]
    exact validateDM_psd (A := Spec.proj fun i => (p i : ℂ)) (proj_psd _) (by
      rw [proj_trace]
      simpa using htr)
  have hp : ∀ i, Spec.proj (fun i => (p i : ℂ)) i i = ((p i ^ 2 : ℝ) : ℂ) := fun i => by
    simp only [Spec.proj, of_apply, Complex.star_def, Complex.conj_ofReal]; push_cast; ring
  exact castToPdf_of hc hp

theorem castToPdf_misread_assert {n : ℕ} (p : Fin n → ℝ)
    (h2 : isclose (l2norm fun i => (p i : ℂ)) 1)
    (htr : ¬ isclose 1 ((∑ i, p i ^ 2 : ℝ) : ℂ)) :
    castToPdf (.vec n fun i => (p i : ℂ)) = .error .assertionError := by
  have hc : castToDensityMatrix (.vec n fun i => (p i : ℂ)) = .error .assertionError := by
    simp only [castToDensityMatrix, castVector]
    rw [if_pos h2]
    have ht : npTrace (Matrix.of fun i j : Fin n => (p i : ℂ) * conj (p j : ℂ))
        = ((∑ i, p i ^ 2 : ℝ) : ℂ) := by
      simp only [npTrace, Matrix.trace]
      push_cast
      refine Finset.sum_congr rfl fun i _ => ?_
      simp only [Matrix.diag_apply, of_apply, Complex.conj_ofReal]
      ring
    unfold validateDM
    rw [dif_neg (by simp)]
    dsimp only
    rw [show (Matrix.of fun i j : Fin n => (p i : ℂ) * conj (p j : ℂ)).submatrix id
      (Fin.cast rfl) = Matrix.of fun i j : Fin n => (p i : ℂ) * conj (p j : ℂ) by ext; simp, ht,
      if_pos htr]
  rw [castToPdf, hc]
  rfl

/-- C17: what becomes of every probability vector. The test of line 227 asks whether the 2-norm is
within `1.001e-5` of one. If it is not, the vector is returned. If it is, the vector is taken for a
wavefunction: its squares are returned, or the call fails because they do not sum to one within
`1e-8 + 1e-5 * sum`. -/
theorem C17_outcome (n : ℕ) (p : Fin n → ℝ) (hp : Spec.IsProb p) :
    (1e-8 + 1e-5 < |Real.sqrt (∑ i, p i ^ 2) - 1| →
      castToPdf (.vec n fun i => (p i : ℂ)) = .ok ⟨n, p⟩) ∧
    (|Real.sqrt (∑ i, p i ^ 2) - 1| ≤ 1e-8 + 1e-5 →
      |1 - ∑ i, p i ^ 2| ≤ 1e-8 + 1e-5 * ∑ i, p i ^ 2 →
      castToPdf (.vec n fun i => (p i : ℂ)) = .ok ⟨n, fun i => p i ^ 2⟩) ∧
    (|Real.sqrt (∑ i, p i ^ 2) - 1| ≤ 1e-8 + 1e-5 →
      1e-8 + 1e-5 * ∑ i, p i ^ 2 < |1 - ∑ i, p i ^ 2| →
      castToPdf (.vec n fun i => (p i : ℂ)) = .error .assertionError) := by
  have hs : (0 : ℝ) ≤ ∑ i, p i ^ 2 := Finset.sum_nonneg fun i _ => sq_nonneg _
  have hl : l2norm (fun i => (p i : ℂ)) = Real.sqrt (∑ i, p i ^ 2) := by simp [l2norm]
  have h2 : isclose (l2norm fun i => (p i : ℂ)) 1 ↔
      |Real.sqrt (∑ i, p i ^ 2) - 1| ≤ 1e-8 + 1e-5 := by
    rw [hl, isclose, ← Complex.ofReal_one, ← Complex.ofReal_sub, Complex.norm_real,
      Complex.norm_real]
    simp
  have htr : isclose 1 ((∑ i, p i ^ 2 : ℝ) : ℂ) ↔
      |1 - ∑ i, p i ^ 2| ≤ 1e-8 + 1e-5 * ∑ i, p i ^ 2 := by
    rw [isclose, ← Complex.ofReal_one, ← Complex.ofReal_sub, Complex.norm_real,
      Complex.norm_real, Real.norm_eq_abs, Real.norm_eq_abs, abs_of_nonneg hs]
  exact ⟨C17_prob_vector_partial n p hp, fun a b => castToPdf_misread p (h2.2 a) (htr.2 b),
    fun a b => castToPdf_misread_assert p (h2.2 a) (fun c => (htr.1 c).not_gt b)⟩

/-- C17, exactly: a probability vector is returned as it is iff its 2-norm is not within `1.001e-5`
of one, or it is deterministic. -/
theorem C17_iff (n : ℕ) (p : Fin n → ℝ) (hp : Spec.IsProb p) :
    castToPdf (.vec n fun i => (p i : ℂ)) = .ok ⟨n, p⟩ ↔
      1e-8 + 1e-5 < |Real.sqrt (∑ i, p i ^ 2) - 1| ∨ ∃ k, p k = 1 := by
  obtain ⟨h1, h2, h3⟩ := C17_outcome n p hp
  constructor
  · intro h
    by_contra hc
    rw [not_or, not_lt] at hc
    obtain ⟨ha, hb⟩ := hc
    rcases le_or_gt |1 - ∑ i, p i ^ 2| (1e-8 + 1e-5 * ∑ i, p i ^ 2) with g | g
    · rw [h2 ha g] at h
      have he : (fun i => p i ^ 2) = p := by simpa using h
      have h01 : ∀ i, p i = 0 := fun i => by
        have hi : p i ^ 2 = p i := congrFun he i
        have : p i * (p i - 1) = 0 := by linear_combination hi
        rcases mul_eq_zero.1 this with h | h
        · exact h
        · exact absurd ⟨i, by linarith⟩ hb
      have := hp.sum_one
      simp [h01] at this
    · rw [h3 ha g] at h
      cases h
  · rintro (h | ⟨k, hk⟩)
    · exact h1 h
    · have h0 : ∀ i, i ≠ k → p i = 0 := by
        intro i hi
        have hs := hp.sum_one
        rw [← Finset.add_sum_erase _ _ (Finset.mem_univ k), hk] at hs
        have hz : ∑ j ∈ Finset.univ.erase k, p j = 0 := by linarith
        exact (Finset.sum_eq_zero_iff_of_nonneg fun j _ => hp.nonneg j).1 hz i
          (Finset.mem_erase.2 ⟨hi, Finset.mem_univ i⟩)
      have hpk : p = fun i => if i = k then 1 else 0 := by
        funext i
        split
        · rename_i h; rw [h, hk]
        · rename_i h; exact h0 i h
      have := C17_deterministic n k
      rw [hpk]
      convert this using 4
      split <;> simpa

example : Spec.IsProb (fun i : Fin 2 => if i = 0 then (1 : ℝ) / 3 else 2 / 3) :=
  ⟨fun i => by split <;> norm_num, by norm_num [Fin.sum_univ_two]⟩

/-- C17 is violated: the probability vector `(1 - 4e-6, 4e-6)` is taken for a wavefunction, and the
result is not the vector but the vector of squares (which does not even sum to one). -/
theorem C17_violation : ∃ p : Fin 2 → ℝ, Spec.IsProb p ∧
    castToPdf (.vec 2 fun i => (p i : ℂ)) = .ok ⟨2, fun i => p i ^ 2⟩ ∧
    (fun i => p i ^ 2) ≠ p ∧ ∑ i, p i ^ 2 ≠ 1 := by
  refine ⟨![1 - 4e-6, 4e-6], ⟨?_, ?_⟩, ?_, ?_, ?_⟩
  · intro i; fin_cases i <;> simp <;> norm_num
  · simp [Fin.sum_univ_two]
  · apply castToPdf_misread
    · have hs : l2norm (fun i => ((![1 - 4e-6, 4e-6] : Fin 2 → ℝ) i : ℂ))
          = Real.sqrt ((1 - 4e-6) ^ 2 + (4e-6) ^ 2) := by
        simp [l2norm, Fin.sum_univ_two]
      rw [hs, isclose, ← Complex.ofReal_one, ← Complex.ofReal_sub, Complex.norm_real,
        Complex.norm_real, Real.norm_eq_abs]
      have hu : Real.sqrt ((1 - 4e-6) ^ 2 + (4e-6) ^ 2) ≤ 1 := by
        rw [Real.sqrt_le_left (by norm_num)]; norm_num
      have hl : 1 - 4e-6 ≤ Real.sqrt ((1 - 4e-6) ^ 2 + (4e-6) ^ 2) := by
        apply Real.le_sqrt_of_sq_le; norm_num
      rw [abs_of_nonpos (by linarith)]
      norm_num at hl ⊢
      linarith
    · simp only [Fin.sum_univ_two, Matrix.cons_val_zero, Matrix.cons_val_one]
      rw [isclose, ← Complex.ofReal_one, ← Complex.ofReal_sub, Complex.norm_real,
        Complex.norm_real, Real.norm_eq_abs, Real.norm_eq_abs]
      rw [abs_of_nonneg (by norm_num), abs_of_nonneg (by norm_num)]
      norm_num
  · intro h
    have := congrFun h 0
    simp at this
    norm_num at this
  · simp [Fin.sum_univ_two]; norm_num

/-- C17 is violated in a second way: the probability vector `(1 - 8e-6, 8e-6)` raises
`AssertionError`. -/
theorem C17_violation_assert : ∃ p : Fin 2 → ℝ, Spec.IsProb p ∧
    castToPdf (.vec 2 fun i => (p i : ℂ)) = .error .assertionError := by
  refine ⟨![1 - 8e-6, 8e-6], ⟨?_, ?_⟩, ?_⟩
  · intro i; fin_cases i <;> simp <;> norm_num
  · simp [Fin.sum_univ_two]
  · have hs : l2norm (fun i => ((![1 - 8e-6, 8e-6] : Fin 2 → ℝ) i : ℂ))
        = Real.sqrt ((1 - 8e-6) ^ 2 + (8e-6) ^ 2) := by
      simp [l2norm, Fin.sum_univ_two]
    have h2 : isclose (l2norm fun i => ((![1 - 8e-6, 8e-6] : Fin 2 → ℝ) i : ℂ)) 1 := by
      rw [hs, isclose, ← Complex.ofReal_one, ← Complex.ofReal_sub, Complex.norm_real,
        Complex.norm_real, Real.norm_eq_abs]
      have hu : Real.sqrt ((1 - 8e-6) ^ 2 + (8e-6) ^ 2) ≤ 1 := by
        rw [Real.sqrt_le_left (by norm_num)]; norm_num
      have hl : 1 - 8e-6 ≤ Real.sqrt ((1 - 8e-6) ^ 2 + (8e-6) ^ 2) := by
        apply Real.le_sqrt_of_sq_le; norm_num
      rw [abs_of_nonpos (by linarith)]
      norm_num at hl ⊢
      linarith
    have hc : castToDensityMatrix (.vec 2 fun i => ((![1 - 8e-6, 8e-6] : Fin 2 → ℝ) i : ℂ))
        = .error .assertionError := by
      simp only [castToDensityMatrix, castVector]
      rw [if_pos h2]
      change validateDM (Spec.proj fun i => ((![1 - 8e-6, 8e-6] : Fin 2 → ℝ) i : ℂ)) = _
      unfold validateDM
      rw [dif_neg (by simp)]
      dsimp only
      rw [if_pos]
      rw [isclose, not_le]
      have htr : npTrace ((Spec.proj fun i => ((![1 - 8e-6, 8e-6] : Fin 2 → ℝ) i : ℂ)).submatrix id
          (Fin.cast rfl)) = (((1 - 8e-6) ^ 2 + (8e-6) ^ 2 : ℝ) : ℂ) := by
        simp only [npTrace, Fin.sum_univ_two, submatrix_apply, Spec.proj, of_apply, id,
          Complex.star_def, Complex.conj_ofReal, Fin.cast_refl]
        simp
        ring
      rw [htr, ← Complex.ofReal_one, ← Complex.ofReal_sub, Complex.norm_real,
        Complex.norm_real, Real.norm_eq_abs, Real.norm_eq_abs]
      rw [abs_of_nonneg (by norm_num), abs_of_nonneg (by norm_num)]
      norm_num
    unfold castToPdf
    rw [hc]
    rfl

end FF.Props
