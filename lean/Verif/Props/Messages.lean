import Verif.Proofs.LibMessages
import Verif.Props.Combinatorics
import Verif.Props.Coefficients
import Verif.Props.Quadratic
import Verif.Props.Stabilizer

/-!
# Property C117: what the functions print

The messages of `ff_lib.py`, `ff_combinatorics.py` and `ff_distance_measures.py` (those of `ff_graph_theory.py` are the
subject of C107 to C109).
-/

namespace FF.Props

open Matrix
open scoped ComplexConjugate

/-- C117. Printing, also with `verbose=True`, has no influence on the value or the exception of these functions. -/
theorem C117_values {m k d n h : ℕ} :
    (∀ p : Fin n → ℤ, (permutationToMatrixTalk p).result = .ok (permutationToMatrix p)) ∧
    (∀ (args : RotArgs m k d) (left verbose : Bool),
      (rotateOperatorsTalk args left verbose).result = rotateOperators args left) ∧
    (∀ U : Op (n + n), (isSympTalk U).result = .ok (isSymp U)) ∧
    (∀ L : Matrix (Fin m) (Fin k) ℂ, (checkCanonicalFormTalk L).result = .ok (checkCanonicalForm L)) ∧
    (∀ (R : Matrix (Fin m) (Fin k) ℂ) (alphas : List (Op d)) (verbose direct : Bool),
      (buildOpTalk n R alphas verbose direct).result = buildOp n R alphas direct) ∧
    (∀ (H : Op h) (alphas : Option (List (Op (2 ^ n)))),
      (generateGaussianStateTalk n H alphas).result = generateGaussianState n H alphas) ∧
    (∀ (M : Matrix (Fin m) (Fin k) ℂ) (verbose : Bool), (isMatchgateTalk M verbose).result = .ok (isMatchgate M)) ∧
    (∀ (eigvals : {n : ℕ} → Matrix (Fin n) (Fin n) ℂ → Except PyErr (List ℂ)) (A : Matrix (Fin m) (Fin k) ℂ),
      (dtEigenTalk eigvals A).result = dtEigen eigvals A) ∧
    (∀ x : Arr, (stabilizerDistributionTalk x).result = stabilizerDistribution x) :=
  ⟨permutationToMatrixTalk_result, rotateOperatorsTalk_result, isSympTalk_result, checkCanonicalFormTalk_result,
    buildOpTalk_result n, generateGaussianStateTalk_result n, isMatchgateTalk_result, fun e A => dtEigenTalk_result e A,
    stabilizerDistributionTalk_result⟩

/-! ## permutation_to_matrix -/

/-- C117. `permutation_to_matrix` prints its message, once, exactly if it returns None. -/
theorem C117_permutation {n : ℕ} (p : Fin n → ℤ) :
    (permutationToMatrixTalk p).lines =
      if permutationToMatrix p = none then [[.str "Invalid permutation"]] else [] := by
  rw [permutationToMatrixTalk_eq]

/-! ## is_symp -/

/-- C117. `is_symp(U)` prints a message exactly if the blocks of `U` have the canonical form but `U` is not symplectic, or
the other way round. -/
theorem C117_is_symp {n : ℕ} (U : Op (n + n)) (canonical : Prop)
    (hc : canonical ↔ ∀ i j : Fin n,
      isclose (U (Fin.castAdd n i) (Fin.castAdd n j)) (conj (U (Fin.natAdd n i) (Fin.natAdd n j))) ∧
      isclose (U (Fin.natAdd n i) (Fin.castAdd n j)) (conj (U (Fin.castAdd n i) (Fin.natAdd n j)))) :
    (canonical → isSymp U = false → (isSympTalk U).lines = [[.str "Error: Canonical form but not symplectic"]]) ∧
    (¬ canonical → isSymp U = true → (isSympTalk U).lines = [[.str "Not canonical but still symplectic"]]) ∧
    ((canonical ↔ isSymp U = true) → (isSympTalk U).lines = []) := by
  classical
  have hc' : canonical ↔ allclose (blk11 U) (cj (blk22 U)) ∧ allclose (blk21 U) (cj (blk12 U)) := by
    rw [hc]
    exact ⟨fun h => ⟨fun i j => (h i j).1, fun i j => (h i j).2⟩, fun h i j => ⟨h.1 i j, h.2 i j⟩⟩
  simp only [isSympTalk, isSymp, hc']
  by_cases h1 : allclose (blk11 U) (cj (blk22 U)) ∧ allclose (blk21 U) (cj (blk12 U)) <;>
    by_cases h2 : allclose (U * swapS n * U.transpose) (swapS n) <;>
    simp [h1, h2, talk_bind_ok, say]

/-- C117. For a unitary symplectic matrix, such as the rotations used in this library, `is_symp` prints nothing. -/
theorem C117_is_symp_silent {n : ℕ} (U : Op (n + n)) (hU : U * Uᴴ = 1) (hs : Spec.IsSymplectic U) :
    (isSympTalk U).lines = [] := by
  have h1 : isSymp U = true := C39_exact U hs
  refine (C117_is_symp U _ Iff.rfl).2.2 ⟨fun _ => h1, fun _ => ?_⟩
  -- `U S Uᵀ = S` and `Uᵀ = (U⁻¹)*` give `U S = S U*`
  have hs' : U * swapS n * Uᵀ = swapS n := by rw [swapS_eq]; exact hs
  have h2 : Uᵀ * cj U = 1 := by
    have h3 : Uᴴ * U = 1 := mul_eq_one_comm.1 hU
    have h4 := congrArg transpose h3
    rw [transpose_mul, transpose_one] at h4
    have h5 : (Uᴴ)ᵀ = cj U := by ext i j; simp [cj]
    rwa [h5] at h4
  have h3 : U * swapS n = swapS n * cj U := by
    calc U * swapS n = U * swapS n * (Uᵀ * cj U) := by rw [h2, mul_one]
      _ = swapS n * cj U := by rw [← Matrix.mul_assoc, hs']
  have h4 : ∀ i j, U i (fl j) = conj (U (fl i) j) := by
    intro i j
    have := congrFun (congrFun h3 i) j
    rw [mul_swapS, swapS_mul] at this
    exact this
  intro i j
  have e1 := h4 (Fin.castAdd n i) (Fin.natAdd n j)
  have e2 := h4 (Fin.natAdd n i) (Fin.natAdd n j)
  rw [fl_right, fl_left] at e1
  rw [fl_right, fl_right] at e2
  rw [e1, e2]
  exact ⟨isclose_self _, isclose_self _⟩

/-- Each of the two messages does occur: for `diag(2, 1/2)` and for `2·1`. -/
example : (isSympTalk (n := 1) (diagonal ![2, 1 / 2])).lines = [[.str "Not canonical but still symplectic"]] ∧
    (isSympTalk (n := 1) (diagonal ![2, 2])).lines = [[.str "Error: Canonical form but not symplectic"]] := by
  have h2 : conj (2 : ℂ) = 2 := Complex.conj_ofNat 2
  constructor
  · refine (C117_is_symp _ _ Iff.rfl).2.1 ?_ (C39_exact _ ?_)
    · intro h
      have := (h 0 0).1
      simp [isclose, h2] at this
      norm_num at this
    · rw [Spec.IsSymplectic]
      ext i j
      fin_cases i <;> fin_cases j <;> simp [Matrix.mul_apply, Fin.sum_univ_two, Spec.swap, diagonal]
  · refine (C117_is_symp _ _ Iff.rfl).1 ?_ (C39_rejects _ 0 1 ?_)
    · intro i j
      fin_cases i; fin_cases j
      simp [isclose, h2]
      norm_num
    · simp [Matrix.mul_apply, Fin.sum_univ_two, Spec.swap, diagonal]
      norm_num

/-! ## check_canonical_form -/

/-- C117. `check_canonical_form(L)` prints nothing if it returns True, and exactly one message if it returns False: which
one depends on the first test that fails. -/
theorem C117_check_canonical {m k : ℕ} (L : Matrix (Fin m) (Fin k) ℂ) (realSkew : Prop)
    (hr : realSkew ↔ ∃ h : k = m, ∀ i j : Fin m,
      isclose (L i (Fin.cast h.symm j)) (conj (L i (Fin.cast h.symm j))) ∧
      isclose (L i (Fin.cast h.symm j)) (-L j (Fin.cast h.symm i))) :
    (checkCanonicalForm L = true → (checkCanonicalFormTalk L).lines = []) ∧
    (¬ Even m → (checkCanonicalFormTalk L).lines = [[.str "Odd dimension for input matrix"]]) ∧
    (Even m → ¬ realSkew → (checkCanonicalFormTalk L).lines = [[.str "Not square, real, and skew-symmetric"]]) ∧
    (Even m → realSkew → checkCanonicalForm L = false →
      (checkCanonicalFormTalk L).lines = [[.str "Too many non-zero elements"]]) := by
  classical
  simp only [checkCanonicalFormTalk, checkCanonicalForm, Nat.even_iff]
  by_cases hm : m % 2 ≠ 0
  · simp only [if_pos hm]
    simp [hm, say, talk_bind_ok]
  rw [if_neg hm, if_neg hm]
  by_cases hk : k = m
  · subst hk
    have hr' : realSkew ↔ ¬ (¬ allclose L (cj L) ∨ ¬ allclose L (-L.transpose)) := by
      rw [hr]
      push Not
      exact ⟨fun ⟨_, h⟩ => ⟨fun i j => (h i j).1, fun i j => (h i j).2⟩, fun h => ⟨rfl, fun i j => ⟨h.1 i j, h.2 i j⟩⟩⟩
    have hL : L.submatrix id (Fin.cast rfl) = L := rfl
    simp only [ne_eq, not_true, dite_false, hL]
    by_cases h1 : ¬ allclose L (cj L) ∨ ¬ allclose L (-L.transpose)
    · simp only [if_pos h1]
      simp [hr', h1, say, talk_bind_ok, hm]
    · simp only [if_neg h1]
      by_cases h2 : allclose (canonicalCopy L (k / 2)) L
      · simp [hr', h1, h2]; omega
      · simp [hr', h1, h2, say, talk_bind_ok]; omega
  · have hr' : ¬ realSkew := by rw [hr]; exact fun ⟨h, _⟩ => hk h
    simp only [ne_eq, hk, not_false_eq_true, dite_true]
    simp [hr', say, talk_bind_ok, hm]

/-! ## generate_gaussian_state and build_op -/

/-- C117. `generate_gaussian_state(n, H)` prints nothing if the number of rows of `H` is `2n` or `2^n`; otherwise it
prints the shape and the two admissible sizes, and returns 0. -/
theorem C117_gaussian {h : ℕ} (n : ℕ) (H : Op h) (alphas : Option (List (Op (2 ^ n)))) :
    (h = 2 * n ∨ h = 2 ^ n → (generateGaussianStateTalk n H alphas).lines = []) ∧
    (h ≠ 2 * n → h ≠ 2 ^ n → generateGaussianStateTalk n H alphas = ⟨[[.shape [h, h]],
      [.str "Invalid Hamiltonian size ", .shape [h, h], .str "\nShould be dim: ", .nat (2 * n), .str " or ",
        .nat (2 ^ n)]], .ok none⟩) := by
  simp only [generateGaussianStateTalk]
  constructor
  · intro hh
    by_cases h1 : h = 2 * n
    · rw [if_pos h1]
      have hl := buildOpTalk_lines n H (alphas.getD (jordanWignerAlphas n)) false
      rw [if_neg (by omega)] at hl
      rcases hb : buildOpTalk n H (alphas.getD (jordanWignerAlphas n)) false false with ⟨ls, r⟩
      rw [hb] at hl
      obtain rfl : ls = [] := hl
      cases r with
      | error e => rfl
      | ok Q =>
        rw [talk_bind_ok]
        simp only [pure_bind]
        by_cases e : h = 2 ^ n
        · simp only [dif_pos e]; rfl
        · simp only [dif_neg e]; rfl
    · have e : h = 2 ^ n := hh.resolve_left h1
      rw [if_neg h1]
      simp only [pure_bind, dif_pos e]
      rfl
  · intro h1 h2
    rw [if_neg h1]
    simp only [pure_bind, dif_neg h2]
    rfl

/-- C117. Without `verbose`, `build_op` prints a warning exactly if the coefficient array has not the shape `(2n, 2n)`. -/
theorem C117_build_op {m k d : ℕ} (n : ℕ) (R : Matrix (Fin m) (Fin k) ℂ) (alphas : List (Op d)) (direct : Bool) :
    (buildOpTalk n R alphas false direct).lines =
      if m = 2 * n ∧ k = 2 * n then [] else [[.str "R incorrectly formmatted. Use `build_H` to create R"]] := by
  rw [buildOpTalk_lines]
  by_cases h : m = 2 * n ∧ k = 2 * n
  · rw [if_pos h, if_neg (by tauto)]
  · rw [if_neg h, if_pos (by tauto)]

/-- C117. With `verbose`, `build_op` prints, for every coefficient that is used, in the order of the loop, the partial sum
of the operator so far; the last one is the result. -/
theorem C117_build_op_verbose {d n : ℕ} (hn : 1 ≤ n) (R : Op (2 * n)) (f : Fin (2 * n) → Op d) (direct : Bool)
    (used : List (Fin (2 * n) × Fin (2 * n)))
    (hu : used = open Classical in
      ((List.finRange (2 * n)).flatMap fun i => (List.finRange (2 * n)).map fun j => (i, j)).filter
        fun p => decide (1e-10 ≤ ‖R p.1 p.2‖)) :
    buildOpTalk n R (List.ofFn f) true direct =
      ⟨used.inits.tail.flatMap fun l => [[.str "\nR_op so far:"],
        [.arr2 (l.map fun p => R p.1 p.2 • ((if direct then f p.1 else (f p.1)ᴴ) * f p.2)).sum]],
        .ok (used.map fun p => R p.1 p.2 • ((if direct then f p.1 else (f p.1)ᴴ) * f p.2)).sum⟩ := by
  classical
  set t : Fin (2 * n) × Fin (2 * n) → Op d := fun p => R p.1 p.2 • ((if direct then f p.1 else (f p.1)ᴴ) * f p.2) with ht
  have hsum : ∀ (l : List (Fin (2 * n) × Fin (2 * n))) (b : Op d),
      l.foldl (fun b p => b + t p) b = b + (l.map t).sum := by
    intro l
    induction l with
    | nil => intro b; simp
    | cons a l ih => intro b; rw [List.foldl_cons, ih, List.map_cons, List.sum_cons, add_assoc]
  rw [buildOpTalk, talk_sayIf_bind, if_neg (by omega), listGet_ofFn f 0 (by omega), silent_ok, talk_bind_ok,
    ← List.map_coe_finRange_eq_range, List.foldlM_map]
  have hstep : ∀ (acc : Op d) (i : Fin (2 * n)),
      ((List.finRange (2 * n)).map (fun i : Fin (2 * n) => (i : ℕ))).foldlM (fun acc j => do
        let r ← silent (get2 R i j)
        if ‖r‖ < 1e-10 then pure acc
        else do
          let ai ← silent (listGet (List.ofFn f) i)
          let aj ← silent (listGet (List.ofFn f) j)
          have acc := if direct then acc + r • (ai * aj) else acc + r • (ai.conjTranspose * aj)
          sayIf (true = true) [.str "\nR_op so far:"]
          sayIf (true = true) [.arr2 acc]
          pure acc) acc =
      ((List.finRange (2 * n)).map fun j => (i, j)).foldlM (fun (acc : Op d) (p : Fin (2 * n) × Fin (2 * n)) =>
        if ‖R p.1 p.2‖ < 1e-10 then pure acc
        else (⟨[[.str "\nR_op so far:"], [.arr2 (acc + t p)]], .ok (acc + t p)⟩ : Talk (Op d))) acc := by
    intro acc i
    rw [List.foldlM_map, List.foldlM_map]
    congr 1
    funext acc j
    rw [get2_lt R i.2 j.2, listGet_ofFn f i i.2, listGet_ofFn f j j.2]
    simp only [silent_ok, talk_bind_ok, List.nil_append, talk_sayIf_bind, ht]
    split_ifs <;> simp_all [talk_pure]
  rw [funext₂ hstep, talk_foldlM_flatMap, talk_foldlM_filter (fun p => decide (1e-10 ≤ ‖R p.1 p.2‖)), ← hu,
    talk_foldlM_prefix (t := fun b p => b + t p) (L := fun b => [[.str "\nR_op so far:"], [.arr2 b]])]
  · simp [hsum]
  · intro b p hp
    rw [hu, List.mem_filter, decide_eq_true_eq] at hp
    rw [if_neg (by linarith [hp.2])]
  · intro b p _ hq
    rw [decide_eq_false_iff_not, not_le] at hq
    rw [if_pos hq]

/-! ## is_matchgate and dt_eigen -/

/-- C117. `is_matchgate` prints a message for arrays of another shape than `(4, 4)`; for the others it prints nothing,
and with `verbose=True` the two determinants it compares, rounded to four digits. -/
theorem C117_matchgate :
    (∀ {m k : ℕ} (M : Matrix (Fin m) (Fin k) ℂ) (verbose : Bool), ¬ (m = 4 ∧ k = 4) →
      isMatchgateTalk M verbose = ⟨[[.str "Wrong size - input must be 4x4 matrix"]], .ok false⟩) ∧
    (∀ M : Op 4, (isMatchgateTalk M false).lines = []) ∧
    (∀ M : Op 4, isMatchgate M = true → (isMatchgateTalk M true).lines =
      [[.str "Satisfies the matchgate condition, det1=det2=", .num (npRoundC 4 (M 1 1 * M 2 2 - M 1 2 * M 2 1))]]) ∧
    (∀ M : Op 4, isMatchgate M = false → (isMatchgateTalk M true).lines =
      [[.str "Not matchgate\n det1=", .num (npRoundC 4 (M 1 1 * M 2 2 - M 1 2 * M 2 1)), .str "; det2=",
        .num (npRoundC 4 (M 0 0 * M 3 3 - M 0 3 * M 3 0))]]) := by
  classical
  have hs : ∀ M : Op 4, (M.submatrix (Fin.cast rfl) (Fin.cast rfl) : Op 4) = M := fun M => rfl
  have hd : ∀ M : Op 4, (M.submatrix ![1, 2] ![1, 2]).det = M 1 1 * M 2 2 - M 1 2 * M 2 1 := fun M => by
    rw [det_fin_two]; rfl
  have hc : ∀ M : Op 4, (!![M 0 0, M 0 3; M 3 0, M 3 3] : Op 2).det = M 0 0 * M 3 3 - M 0 3 * M 3 0 := fun M => by
    rw [det_fin_two_of]
  refine ⟨fun M v h => ?_, fun M => ?_, fun M h => ?_, fun M h => ?_⟩
  · rw [isMatchgateTalk, dif_neg h]; rfl
  · simp only [isMatchgateTalk, and_self, dite_true, talk_sayIf_bind]
    split <;> rfl
  · simp only [isMatchgate, and_self, dite_true, hs, hd, hc] at h
    simp only [isMatchgateTalk, and_self, dite_true, talk_sayIf_bind, hs, hd, hc]
    split at h
    · rename_i hi
      rw [if_pos hi]; rfl
    · cases h
  · simp only [isMatchgate, and_self, dite_true, hs, hd, hc] at h
    simp only [isMatchgateTalk, and_self, dite_true, talk_sayIf_bind, hs, hd, hc]
    split at h
    · cases h
    · rename_i hi
      rw [if_neg hi]; rfl

/-- C117. `dt_eigen` prints a message exactly if it returns None. -/
theorem C117_dt_eigen (eigvals : {n : ℕ} → Matrix (Fin n) (Fin n) ℂ → Except PyErr (List ℂ)) {m k : ℕ}
    (A : Matrix (Fin m) (Fin k) ℂ) :
    (m ≠ k → dtEigenTalk eigvals A = ⟨[[.str "Input matrix must be square."]], .ok none⟩) ∧
    (m = k → dtEigen eigvals A = .ok none → (dtEigenTalk eigvals A).lines = [[.str "Eigenvalue decomposition failed."]]) ∧
    (dtEigen eigvals A ≠ .ok none → (dtEigenTalk eigvals A).lines = []) := by
  simp only [dtEigenTalk, dtEigen]
  by_cases h : m = k
  · rw [dif_neg (not_not.2 h), dif_neg (not_not.2 h)]
    generalize eigvals (A.submatrix id (Fin.cast (not_not.1 (not_not.2 h)))) = r
    refine ⟨fun h' => absurd h h', fun _ => ?_, ?_⟩
    · rcases r with e | l
      · cases e <;> intro h1 <;> first | rfl | cases h1
      · intro h1; cases h1
    · rcases r with e | l
      · cases e <;> intro h1 <;> first | rfl | exact absurd rfl h1
      · intro h1; rfl
  · rw [dif_pos h, dif_pos h]
    exact ⟨fun _ => rfl, fun h' => absurd h' h, fun h1 => absurd rfl h1⟩

/-! ## stabilizer_distribution -/

/-- C117. The warning of `stabilizer_distribution` is printed exactly if the assertion at its end fails; it is not
printed for any state. -/
theorem C117_stabilizer (x : Arr) :
    ((stabilizerDistributionTalk x).lines = [] ∨ ∃ s : ℝ, ¬ isclose (s : ℂ) 1 ∧
      stabilizerDistributionTalk x =
        ⟨[[.str "Warning: stabilizer distribution sum =", .real s]], .error .assertionError⟩) ∧
    ∀ (n : ℕ) (ρ : Op (2 ^ n)), 1 ≤ n → Spec.IsState x ρ → (stabilizerDistributionTalk x).lines = [] := by
  classical
  have main : (stabilizerDistributionTalk x).lines = [] ∨ ∃ s : ℝ, ¬ isclose (s : ℂ) 1 ∧
      stabilizerDistributionTalk x =
        ⟨[[.str "Warning: stabilizer distribution sum =", .real s]], .error .assertionError⟩ := by
    rw [stabilizerDistributionTalk]
    rcases castToDensityMatrix x with e | ⟨N, rho⟩
    · exact .inl rfl
    simp only [silent_ok, talk_bind_ok, List.nil_append]
    rcases realPart (npTrace (rho * rho)) with e | p
    · exact .inl rfl
    simp only [silent_ok, talk_bind_ok, List.nil_append]
    rcases generatePauliGroup (.int (intLog2 N)) false with e | ⟨k, G, q⟩
    · exact .inl rfl
    simp only [silent_ok, talk_bind_ok, List.nil_append]
    by_cases e : N = 2 ^ k
    · simp only [dif_pos e]
      rcases (G.mapM fun Pj => do
        let expectP ← realPart (npTrace (Pj * castOp e rho))
        pure (expectP * expectP / (2 ^ intLog2 N * p)) : Except PyErr (List ℝ)) with e | xi
      · exact .inl rfl
      simp only [silent_ok, talk_bind_ok, List.nil_append, talk_sayIf_bind]
      by_cases h : isclose (xi.sum : ℝ) 1
      · left; simp [h]
      · right
        refine ⟨xi.sum, h, ?_⟩
        simp [h, silent]
    · simp only [dif_neg e]
      exact .inl rfl
  refine ⟨main, fun n ρ hn hx => main.resolve_right ?_⟩
  rintro ⟨s, -, h⟩
  have h1 := stabilizerDistributionTalk_result x
  rw [h, stabilizer_ok hn hx] at h1
  cases h1

/-! ## rotate_operators -/

/-- C117. Without `verbose`, `rotate_operators` prints a warning exactly if neither dimension of the matrix is the number of
operators. -/
theorem C117_rotate {m k d : ℕ} (C : Matrix (Fin m) (Fin k) ℂ) (alphas : List (Op d)) (left : Bool) (args : RotArgs m k d)
    (ha : args = .matrixFirst C alphas ∨ args = .listFirst alphas C) :
    (rotateOperatorsTalk args left false).lines =
      if m ≠ alphas.length ∧ k ≠ alphas.length then [[.str "dimensions are incompatible"]] else [] := by
  have hb : ∀ x : Talk (List (Op d)), x.lines = [] → (x >>= fun r => pure (some r) : Talk _).lines = [] := by
    rintro ⟨ls, r⟩ rfl
    cases r <;> rfl
  have hL := hb _ (performRotationTalk_lines C.conjTranspose alphas)
  have hR := hb _ (performRotationTalk_lines C alphas)
  have key : (rotateOperatorsTalk (.matrixFirst C alphas) left false).lines =
      if m ≠ alphas.length ∧ k ≠ alphas.length then [[.str "dimensions are incompatible"]] else [] := by
    simp only [rotateOperatorsTalk]
    by_cases h1 : m ≠ alphas.length ∧ k ≠ alphas.length
    · rw [if_pos h1, if_pos h1]
      show [_] ++ (if _ then _ else _ : Talk _).lines = _
      by_cases h2 : m > alphas.length ∧ k > alphas.length
      · rw [if_neg (not_not.2 h2)]
        cases left
        · exact congrArg (_ ++ ·) hR
        · exact congrArg (_ ++ ·) hL
      · rw [if_pos h2]; rfl
    · rw [if_neg h1, if_neg h1]
      cases left
      · exact hR
      · exact hL
  rcases ha with rfl | rfl
  · exact key
  · exact key

/-- C117. With `verbose`, `rotate_operators` prints one header for every operator `j` and one line for every coefficient
of operator `j` that is used, in the order of the loop. -/
theorem C117_rotate_verbose {d N : ℕ} (C : Op N) (f : Fin N → Op d) (left : Bool) :
    (rotateOperatorsTalk (.matrixFirst C (List.ofFn f)) left true).lines =
      open Classical in
      (List.finRange N).flatMap fun j : Fin N => [.str "\nj", .nat j, .str "\n----"] ::
        ((List.finRange N).filter fun i : Fin N => decide (1e-9 ≤ ‖if left then conj (C i j) else C j i‖)).map fun i : Fin N =>
          [.str "b[", .nat j, .str "] += C[", .nat j, .str ",", .nat i, .str "]  alpha_", .nat i, .str "= ",
            .num (npRoundC 3 (if left then conj (C i j) else C j i)), .str " alpha_", .nat i, .str "\n"] := by
  classical
  have key : ∀ M : Op N, performRotationTalk M (List.ofFn f) true = ⟨(List.finRange N).flatMap fun j : Fin N =>
      [.str "\nj", .nat j, .str "\n----"] ::
        ((List.finRange N).filter fun i : Fin N => decide (1e-9 ≤ ‖M j i‖)).map fun i : Fin N =>
          [.str "b[", .nat j, .str "] += C[", .nat j, .str ",", .nat i, .str "]  alpha_", .nat i, .str "= ",
            .num (npRoundC 3 (M j i)), .str " alpha_", .nat i, .str "\n"],
      .ok ((List.finRange N).map fun j : Fin N => (List.finRange N).foldl (fun b i => if ‖M j i‖ < 1e-9 then b else b + M j i • f i) 0)⟩ := by
    intro M
    rw [performRotationTalk, List.length_ofFn, ← List.map_coe_finRange_eq_range, talk_mapM_map]
    refine talk_mapM_ok fun j _ => ?_
    rw [talk_sayIf_bind, List.foldlM_map]
    rw [talk_foldlM_ok (g := fun b i => if ‖M j i‖ < 1e-9 then b else b + M j i • f i)
      (L := fun i => if ‖M j i‖ < 1e-9 then [] else [[.str "b[", .nat j, .str "] += C[", .nat j, .str ",", .nat i,
        .str "]  alpha_", .nat i, .str "= ", .num (npRoundC 3 (M j i)), .str " alpha_", .nat i, .str "\n"]])]
    · simp only [if_true, List.singleton_append]
      rw [flatMap_ite_filter]
      simp only [not_lt]
    · intro b i _
      rw [get2_lt M j.2 i.2, listGet_ofFn f i i.2]
      simp only [silent_ok, talk_bind_ok, List.nil_append, talk_sayIf_bind]
      split_ifs <;> rfl
  simp only [rotateOperatorsTalk, List.length_ofFn, ne_eq, not_true, false_and, if_false]
  cases left
  · simp only [Bool.false_eq_true, if_false, key]
    exact List.append_nil _
  · simp only [if_true, key]
    exact List.append_nil _

/-! ## compute_algebra_S -/

theorem eigvals_ne_nil {m : ℕ} (hm : m ≠ 0) {A : Op m} {l : List ℂ} (h : (l : Multiset ℂ) = A.charpoly.roots) : l ≠ [] := by
  rintro rfl
  have hc : A.charpoly.roots.card = m := by
    rw [← (IsAlgClosed.splits A.charpoly).natDegree_eq_card_roots, charpoly_natDegree_eq_dim, Fintype.card_fin]
  rw [← h] at hc
  simp at hc
  omega

/-- C117. The value of `compute_algebra_S` for a list of `2n` operators is the same with and without `verbose`, except that
with `verbose` the eigenvalue routine may fail, and its exception is not caught. -/
theorem C117_algebra_value (eigvals : {m : ℕ} → Op m → Except PyErr (List ℂ)) (hc : EigvalsContract eigvals) {d n : ℕ}
    (hd : 0 < d) (hn : 1 ≤ n) (f : Fin (n + n) → Op d) :
    (computeAlgebraSTalk eigvals (List.ofFn f) false).result = computeAlgebraS (List.ofFn f) ∧
    ((computeAlgebraSTalk eigvals (List.ofFn f) true).result = computeAlgebraS (List.ofFn f) ∨
      (computeAlgebraSTalk eigvals (List.ofFn f) true).result = .error .linAlgError ∧
        ∃ S : Op (n + n), computeAlgebraS (List.ofFn f) = .ok ⟨n, S⟩ ∧ eigvals S = .error .linAlgError) := by
  rw [computeAlgebraSTalk_eq eigvals hd hn, computeAlgebraSTalk_eq eigvals hd hn, computeAlgebraS_eq hd hn]
  refine ⟨rfl, ?_⟩
  rw [talk_bind_ok, if_pos rfl]
  generalize Matrix.of (fun i j : Fin (n + n) => algebraValue hd (f i * f j + f j * f i)) = S
  cases he : eigvals S with
  | error e =>
    obtain rfl := hc.fails S e he
    refine Or.inr ⟨?_, S, rfl, he⟩
    rw [algebraSummary, if_neg (by omega), he]
    rfl
  | ok l =>
    obtain ⟨lo, -, hi, -, h1, h2, -⟩ := extreme_sorted (eigvals_ne_nil (by omega) (hc.roots S l he))
    rw [algebraSummary_ok eigvals (by omega) S he h1 h2]
    exact Or.inl rfl

/-- C117. Without `verbose`, `compute_algebra_S` prints `Error:`, the diagonal and the first entry of the anticommutator
for exactly those pairs, in the order of the loop, whose anticommutator is neither 0 nor a multiple of the identity (within
the tolerance of `np.allclose`). -/
theorem C117_algebra_errors (eigvals : {m : ℕ} → Op m → Except PyErr (List ℂ)) {d n : ℕ} (hd : 0 < d) (hn : 1 ≤ n)
    (f : Fin (n + n) → Op d) (bad : List (Fin (n + n) × Fin (n + n)))
    (hb : bad = open Classical in
      ((List.finRange (n + n)).flatMap fun i => (List.finRange (n + n)).map fun j => (i, j)).filter fun p => decide
        (¬ allclose (f p.1 * f p.2 + f p.2 * f p.1) 0 ∧
         ¬ allclose ((f p.1 * f p.2 + f p.2 * f p.1) ⟨0, hd⟩ ⟨0, hd⟩ • 1) (f p.1 * f p.2 + f p.2 * f p.1))) :
    (computeAlgebraSTalk eigvals (List.ofFn f) false).lines = bad.flatMap fun p =>
      [[.str "Error:"], [.arr1 (List.ofFn fun x => (f p.1 * f p.2 + f p.2 * f p.1) x x)],
        [.num ((f p.1 * f p.2 + f p.2 * f p.1) ⟨0, hd⟩ ⟨0, hd⟩)]] := by
  classical
  rw [computeAlgebraSTalk_eq eigvals hd hn, talk_bind_ok, hb]
  have hfl : ∀ (q : Fin (n + n) × Fin (n + n) → Prop) [DecidablePred q] (g : Fin (n + n) × Fin (n + n) → List (List Item))
      (l : List (Fin (n + n) × Fin (n + n))),
      (l.filter fun p => decide (q p)).flatMap g = l.flatMap fun p => if q p then g p else [] := by
    intro q _ g l
    induction l with
    | nil => rfl
    | cons a l ih => rw [List.filter_cons, List.flatMap_cons, ← ih]; by_cases h : q a <;> simp [h]
  rw [hfl, List.flatMap_assoc]
  simp only [Bool.false_eq_true, if_false, talk_pure, List.append_nil]
  congr 1
  funext i
  rw [List.flatMap_map]
  congr 1
  funext j
  simp only [algebraLines, Bool.false_eq_true, if_false, List.nil_append]
  split_ifs <;> simp_all

/-- C117. With `verbose`, a list of a single operator makes `compute_algebra_S` raise ValueError, after the first two lines
of the summary; without, the result is the empty array. -/
theorem C117_algebra_single (eigvals : {m : ℕ} → Op m → Except PyErr (List ℂ)) {d : ℕ} (A : Op d) :
    computeAlgebraSTalk eigvals [A] true =
      ⟨[[.str "\nAlgebra properties\n"], [.str "Is symmetric?", .bool true]], .error .valueError⟩ ∧
    (computeAlgebraSTalk eigvals [A] false).lines = [] ∧
    ∃ S : Op (0 + 0), (computeAlgebraSTalk eigvals [A] false).result = .ok ⟨0, S⟩ := by
  classical
  have h0 : ∀ S : Op (0 + 0), S = 0 := fun S => by ext i; exact i.elim0
  have key : ∀ v : Bool, computeAlgebraSTalk eigvals [A] v =
      if v then algebraSummary eigvals (0 : Op (0 + 0)) >>= fun _ => pure ⟨0, 0⟩ else pure ⟨0, 0⟩ := by
    intro v
    have hl : [A].length / 2 = 0 := by simp
    rw [computeAlgebraSTalk, show listGet [A] 0 = .ok A from rfl, silent_ok, talk_bind_ok]
    generalize [A].length / 2 = k at hl
    subst hl
    simp only [mul_zero, List.range_zero, List.mapM_nil, pure_bind, List.nil_append]
    rw [h0 (Matrix.of _)]
  rw [key, key, if_pos rfl, if_neg (by simp)]
  refine ⟨?_, rfl, 0, rfl⟩
  have : allclose (0 : Op (0 + 0)) (0 - transpose 0) := fun i => i.elim0
  rw [algebraSummary, if_pos rfl, decide_eq_true this]
  rfl

/-- C117. `compute_algebra_S(jordan_wigner_alphas(n))` prints no error. With `verbose` it prints the value 1 and the shape
once for each of the `2n` pairs of an operator and its adjoint, and then: symmetric, rank `2n`, trace 0, and the
eigenvalues -1 and 1. -/
theorem C117_algebra_jw (eigvals : {m : ℕ} → Op m → Except PyErr (List ℂ)) (hc : EigvalsContract eigvals) (n : ℕ)
    (hn : 1 ≤ n) (l : List ℂ) (hl : eigvals (Spec.swap n) = .ok l) :
    (computeAlgebraSTalk eigvals (jordanWignerAlphas n) false).lines = [] ∧
    computeAlgebraSTalk eigvals (jordanWignerAlphas n) true =
      ⟨(List.replicate (2 * n) [[.str "s_ij=", .num 1], [.str "anticomm_ij.shape", .shape [2 ^ n, 2 ^ n]]]).flatten ++
        [[.str "\nAlgebra properties\n"], [.str "Is symmetric?", .bool true], [.str "Rank:", .nat (2 * n)],
          [.str "Trace:", .num 0], [.str "Eigenvalue max,min:", .num (-1), .num 1]], .ok ⟨n, Spec.swap n⟩⟩ := by
  classical
  have hd : 0 < 2 ^ n := by positivity
  have hone : ∀ (B : List (List Item)) (a : Fin (n + n)),
      (List.finRange (n + n)).flatMap (fun j => if j = a then B else []) = B := by
    intro B a
    have : ∀ l : List (Fin (n + n)), l.Nodup → l.flatMap (fun j => if j = a then B else []) = if a ∈ l then B else [] := by
      intro l
      induction l with
      | nil => simp
      | cons b l ih =>
        intro hb
        rw [List.nodup_cons] at hb
        rw [List.flatMap_cons, ih hb.2]
        by_cases h : b = a
        · subst h; simp [hb.1]
        · simp [h, Ne.symm h]
    rw [this _ (List.nodup_finRange _), if_pos (List.mem_finRange a)]
  have hS : (Matrix.of fun i j => algebraValue hd (al n i * al n j + al n j * al n i)) = Spec.swap n := by
    rw [← swapS_eq]
    ext i j
    rw [of_apply, al_anticomm, algebraValue, allclose_smul_one hd]
    simp only [swapS_apply]
    split_ifs <;> simp_all
    norm_num at *
  have hX : ∀ v, (List.finRange (n + n)).flatMap (fun i => (List.finRange (n + n)).flatMap fun j =>
      algebraLines hd v (al n i * al n j + al n j * al n i)) =
      (List.replicate (2 * n) (if v then [[.str "s_ij=", .num 1], [.str "anticomm_ij.shape", .shape [2 ^ n, 2 ^ n]]]
        else [])).flatten := by
    intro v
    have h1 : ∀ i j, algebraLines hd v (al n i * al n j + al n j * al n i) = if j = fl i then
        if v then [[.str "s_ij=", .num 1], [.str "anticomm_ij.shape", .shape [2 ^ n, 2 ^ n]]] else [] else [] := by
      intro i j
      rw [al_anticomm, swapS_apply, algebraLines, allclose_smul_one hd]
      by_cases h : j = fl i
      · simp only [if_pos h, one_smul]
        rw [if_neg (by norm_num)]
        have h2 : allclose ((1 : Op (2 ^ n)) ⟨0, hd⟩ ⟨0, hd⟩ • (1 : Op (2 ^ n))) 1 := by
          rw [one_apply_eq, one_smul]; exact allclose_self _
        rw [if_pos h2, one_apply_eq, List.append_nil]
      · simp only [if_neg h]
        rw [if_pos (by norm_num)]
    simp only [h1, hone]
    rw [two_mul]
    generalize (if v then _ else _ : List (List Item)) = B
    have : ∀ l : List (Fin (n + n)), l.flatMap (fun _ => B) = (List.replicate l.length B).flatten := by
      intro l
      induction l with
      | nil => rfl
      | cons a l ih => rw [List.flatMap_cons, ih, List.length_cons, List.replicate_succ, List.flatten_cons]
    rw [this, List.length_finRange]
  rw [jordanWignerAlphas_eq, computeAlgebraSTalk_eq eigvals hd hn, computeAlgebraSTalk_eq eigvals hd hn, hX, hX, hS,
    talk_bind_ok, talk_bind_ok, if_pos rfl, if_pos rfl]
  refine ⟨by simp, ?_⟩
  have hsq : Spec.swap n * Spec.swap n = 1 := by rw [← swapS_eq, swapS_sq]
  have htr : (Spec.swap n).trace = 0 := by
    rw [← swapS_eq]
    refine Finset.sum_eq_zero fun i _ => ?_
    rw [diag_apply, swapS_apply, if_neg]
    refine Fin.addCases (fun i => ?_) (fun i => ?_) i
    · rw [fl_left]; exact castAdd_ne_natAdd _ _
    · rw [fl_right]; exact (castAdd_ne_natAdd _ _).symm
  have hroot : ∀ z ∈ l, z = 1 ∨ z = -1 := by
    intro z hz
    have hz' : z ∈ (Spec.swap n).charpoly.roots := by rw [← hc.roots _ l hl]; exact hz
    have he := (Polynomial.mem_roots'.1 hz').2
    rw [Polynomial.IsRoot.def, eval_charpoly] at he
    have hm : (scalar (Fin (n + n)) z - Spec.swap n) * (scalar (Fin (n + n)) z + Spec.swap n) =
        scalar (Fin (n + n)) (z ^ 2 - 1) := by
      rw [sub_mul, mul_add, mul_add, hsq, (scalar_commute z (fun _ => Commute.all _ _) (Spec.swap n)).eq, map_sub, map_pow,
        map_one]
      noncomm_ring
    have hdet := congrArg Matrix.det hm
    rw [det_mul, he, zero_mul, scalar_apply, det_diagonal, Finset.prod_const] at hdet
    have := pow_eq_zero_iff (by simp; omega) |>.1 hdet.symm
    have h3 : (z - 1) * (z + 1) = 0 := by linear_combination this
    rcases mul_eq_zero.1 h3 with h | h
    · exact Or.inl (by linear_combination h)
    · exact Or.inr (by linear_combination h)
  have hne : l ≠ [] := eigvals_ne_nil (by omega) (hc.roots _ l hl)
  have hsum : l.sum = 0 := by
    have := trace_eq_sum_roots_charpoly (Spec.swap n)
    rw [htr, ← hc.roots _ l hl, Multiset.sum_coe] at this
    exact this.symm
  have hall : ∀ c : ℂ, c ≠ 0 → ¬ ∀ z ∈ l, z = c := by
    intro c hc0 h
    rw [List.eq_replicate_of_mem h, List.sum_replicate, nsmul_eq_mul, mul_eq_zero] at hsum
    rcases hsum with h' | h'
    · exact hne (List.length_eq_zero_iff.1 (by exact_mod_cast h'))
    · exact hc0 h'
  obtain ⟨lo, hlo, hi, hhi, h1, h2, h3⟩ := extreme_sorted hne
  have elo : lo = -1 := by
    refine (hroot lo hlo).resolve_left fun h => hall 1 one_ne_zero fun z hz => (hroot z hz).resolve_right fun h' => ?_
    have := (h3 z hz).1
    rw [h, h', Prod.Lex.toLex_le_toLex] at this
    norm_num at this
  have ehi : hi = 1 := by
    refine (hroot hi hhi).resolve_right fun h => hall (-1) (by norm_num) fun z hz => (hroot z hz).resolve_left fun h' => ?_
    have := (h3 z hz).2
    rw [h, h', Prod.Lex.toLex_le_toLex] at this
    norm_num at this
  rw [algebraSummary_ok eigvals (by omega) _ hl h1 h2, talk_bind_ok, elo, ehi]
  have hsym : allclose 0 (Spec.swap n - (Spec.swap n).transpose) := by
    rw [← swapS_eq, swapS_transpose, sub_self]; exact allclose_self _
  have hrank : (Spec.swap n).rank = 2 * n := by
    rw [rank_of_isUnit _ (IsUnit.of_mul_eq_one _ hsq), Fintype.card_fin, two_mul]
  rw [hrank, decide_eq_true hsym]
  have htr' : npTrace (Spec.swap n) = 0 := htr
  simp [htr']

/-- The hypotheses of `C117_algebra_jw` can be met. -/
example : ∃ eigvals : {m : ℕ} → Op m → Except PyErr (List ℂ), EigvalsContract eigvals ∧
    ∀ n, ∃ l, eigvals (Spec.swap n) = .ok l :=
  ⟨fun A => .ok A.charpoly.roots.toList,
    ⟨fun A l h => by cases h; exact Multiset.coe_toList _, fun A e h => by cases h⟩, fun _ => ⟨_, rfl⟩⟩

/-- An operator list for which `compute_algebra_S` prints the error: `diag(1, 2)` twice. -/
example : ∃ f : Fin (1 + 1) → Op 2, ¬ allclose (f 0 * f 0 + f 0 * f 0) 0 ∧
    ¬ allclose ((f 0 * f 0 + f 0 * f 0) 0 0 • 1) (f 0 * f 0 + f 0 * f 0) := by
  refine ⟨fun _ => diagonal ![1, 2], fun h => ?_, fun h => ?_⟩
  · have := h 0 0
    simp [isclose] at this
    norm_num at this
  · have := h 1 1
    simp [isclose] at this
    norm_num at this

end FF.Props
