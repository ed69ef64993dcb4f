import Verif.Proofs.Shapes
import Verif.Proofs.Coefficients3

/-!
# Arrays of unexpected shapes: correlations, Gaussian states, partial traces, eigenvectors
-/

namespace FF

open Spec

/-! ## correlation matrices -/

theorem fillArray_first_error {n : ℕ} (hn : 1 ≤ n) {f : ℕ → ℕ → Except PyErr ℂ} {e : PyErr}
    (h : f 0 0 = .error e) : fillArray n f = .error e := by
  obtain ⟨k, hk⟩ : ∃ k, 2 * n = k + 1 := ⟨2 * n - 1, by omega⟩
  unfold fillArray
  rw [hk, List.range_succ_eq_map, List.mapM_cons, List.mapM_cons, h]
  rfl

theorem compute2CorrS_eq {d : ℕ} (rho : Arr2) (hc : rho.cols = d) (n : ℕ) (alphas : List (Op d))
    (conjugation : Option ℤ) :
    compute2CorrS rho n alphas conjugation = compute2Corr (resize rho d) n alphas conjugation := by
  unfold compute2CorrS compute2Corr
  congr 1; funext i j
  cases hi : listGet alphas i with
  | error e => rfl
  | ok ai =>
    cases conjugation with
    | none =>
      obtain ⟨B, C, hB, hC, hT⟩ := trace_two rho hc ai
        (match listGet alphas j with | .ok aj => aj | .error _ => 0)
      simp only [bind, Except.bind, hB]
      cases hj : listGet alphas j with
      | error e => rfl
      | ok aj =>
        rw [hj] at hC hT
        simp only [hC, hT]
    | some c =>
      simp only [bind, Except.bind]
      split
      · obtain ⟨B, C, hB, hC, hT⟩ := trace_two rho hc ai.conjTranspose
          (match listGet alphas j with | .ok aj => aj | .error _ => 0)
        simp only [hB]
        cases hj : listGet alphas j with
        | error e => rfl
        | ok aj =>
          rw [hj] at hC hT
          simp only [hC, hT]
      · obtain ⟨B, C, hB, hC, hT⟩ := trace_two rho hc ai
          (match listGet alphas j with | .ok aj => aj.conjTranspose | .error _ => 0)
        simp only [hB]
        cases hj : listGet alphas j with
        | error e => rfl
        | ok aj =>
          rw [hj] at hC hT
          simp only [hC, hT]

theorem computeCovMatrixS_eq {d : ℕ} (rho : Arr2) (hc : rho.cols = d) (n : ℕ) (alphas : List (Op d)) :
    (computeCovMatrixS rho n alphas >>= fun G => pure ⟨n, G⟩) =
      computeCovMatrix (resize rho d) (some n) alphas := by
  unfold computeCovMatrixS computeCovMatrix
  dsimp only
  congr 2; funext i j
  cases hi : listGet alphas i with
  | error e => rfl
  | ok ai =>
    obtain ⟨B, C, hB, hC, hT⟩ := trace_two rho hc ai
      (match listGet alphas j with | .ok aj => aj | .error _ => 0)
    simp only [bind, Except.bind, hB]
    cases hj : listGet alphas j with
    | error e => rfl
    | ok aj =>
      rw [hj] at hC hT
      obtain ⟨B', C', hB', hC', hT'⟩ := trace_two rho hc aj ai
      simp only [hC, hT, hB', hC', hT']

theorem compute2CorrS_error {d : ℕ} (rho : Arr2) (hc : rho.cols ≠ d) {n : ℕ} (hn : 1 ≤ n)
    {alphas : List (Op d)} (ha : alphas ≠ []) (conjugation : Option ℤ) :
    compute2CorrS rho n alphas conjugation = .error .valueError := by
  obtain ⟨a, l, rfl⟩ := List.exists_cons_of_ne_nil ha
  refine fillArray_first_error hn ?_
  have h1 : ∀ X : Op d, rho.matmul (.ofMat X) = .error .valueError := fun X => matmul_error hc
  cases conjugation with
  | none => simp [listGet, h1, bind, Except.bind]
  | some c => simp [listGet, h1, bind, Except.bind]

theorem computeCovMatrixS_error {d : ℕ} (rho : Arr2) (hc : rho.cols ≠ d) {n : ℕ} (hn : 1 ≤ n)
    {alphas : List (Op d)} (ha : alphas ≠ []) :
    computeCovMatrixS rho n alphas = .error .valueError := by
  obtain ⟨a, l, rfl⟩ := List.exists_cons_of_ne_nil ha
  refine fillArray_first_error hn ?_
  have h1 : ∀ X : Op d, rho.matmul (.ofMat X) = .error .valueError := fun X => matmul_error hc
  simp [listGet, h1, bind, Except.bind]

theorem resize_holds {d : ℕ} {rho : Arr2} {M : Op d} (h : Holds rho M) : resize rho d = M := by
  ext i j
  simp only [resize, Matrix.of_apply]
  rw [if_pos ⟨h.1 ▸ i.2, h.2.1 ▸ j.2⟩, h.2.2]

/-! ## Gaussian states -/

theorem foldlM_congr' {α β : Type} {F G : β → α → Except PyErr β} {l : List α}
    (h : ∀ a ∈ l, ∀ b, F b a = G b a) (b : β) : l.foldlM F b = l.foldlM G b := by
  induction l generalizing b with
  | nil => rfl
  | cons x l ih =>
    rw [List.foldlM_cons, List.foldlM_cons, h x (by simp)]
    congr 1; funext b'
    exact ih (fun a ha b => h a (List.mem_cons_of_mem _ ha) b) b'

theorem buildOp_congr {m k m' k' d : ℕ} (n : ℕ) (R : Matrix (Fin m) (Fin k) ℂ) (R' : Matrix (Fin m') (Fin k') ℂ)
    (alphas : List (Op d)) (direct : Bool) (h : ∀ i < 2 * n, ∀ j < 2 * n, get2 R i j = get2 R' i j) :
    buildOp n R alphas direct = buildOp n R' alphas direct := by
  unfold buildOp
  congr 1; funext _
  refine foldlM_congr' (fun i hi b => foldlM_congr' (fun j hj b => ?_) b) _
  rw [h i (List.mem_range.1 hi) j (List.mem_range.1 hj)]

theorem buildOp_narrow {m k d : ℕ} (n : ℕ) (R : Matrix (Fin m) (Fin k) ℂ) (alphas : List (Op d)) (direct : Bool)
    (h : m < 2 * n ∨ k < 2 * n) : buildOp n R alphas direct = .error .indexError := by
  have hl : ∀ i, (∃ a, listGet alphas i = .ok a) ∨ listGet alphas i = .error .indexError := by
    intro i
    unfold listGet
    split
    · exact .inl ⟨_, rfl⟩
    · exact .inr rfl
  have hg : ∀ i j, (∃ a, get2 R i j = .ok a) ∨ get2 R i j = .error .indexError := by
    intro i j
    unfold get2
    split
    · exact .inl ⟨_, rfl⟩
    · exact .inr rfl
  have step : ∀ (i j : ℕ) (acc : Op d), (∃ b, (open Classical in (do
      let r ← get2 R i j
      if ‖r‖ < 1e-10 then pure acc
      else do
        let ai ← listGet alphas i
        let aj ← listGet alphas j
        if direct then pure (acc + r • (ai * aj))
        else pure (acc + r • (ai.conjTranspose * aj)) : Except PyErr (Op d))) = .ok b) ∨
      (open Classical in (do
      let r ← get2 R i j
      if ‖r‖ < 1e-10 then pure acc
      else do
        let ai ← listGet alphas i
        let aj ← listGet alphas j
        if direct then pure (acc + r • (ai * aj))
        else pure (acc + r • (ai.conjTranspose * aj)) : Except PyErr (Op d))) = .error .indexError := by
    intro i j acc
    rcases hg i j with ⟨r, hr⟩ | hr
    · rw [hr]
      simp only [bind, Except.bind]
      split
      · exact .inl ⟨_, rfl⟩
      · rcases hl i with ⟨a, ha⟩ | ha
        · rw [ha]
          rcases hl j with ⟨c, hc⟩ | hc
          · rw [hc]
            dsimp only
            split
            · exact .inl ⟨_, rfl⟩
            · exact .inl ⟨_, rfl⟩
          · rw [hc]; exact .inr rfl
        · rw [ha]; exact .inr rfl
    · rw [hr]; exact .inr rfl
  have row : ∀ (l : List ℕ) (i : ℕ) (acc : Op d), (∃ b, l.foldlM (fun acc j => (open Classical in (do
      let r ← get2 R i j
      if ‖r‖ < 1e-10 then pure acc
      else do
        let ai ← listGet alphas i
        let aj ← listGet alphas j
        if direct then pure (acc + r • (ai * aj))
        else pure (acc + r • (ai.conjTranspose * aj)) : Except PyErr (Op d)))) acc = .ok b) ∨
      l.foldlM (fun acc j => (open Classical in (do
      let r ← get2 R i j
      if ‖r‖ < 1e-10 then pure acc
      else do
        let ai ← listGet alphas i
        let aj ← listGet alphas j
        if direct then pure (acc + r • (ai * aj))
        else pure (acc + r • (ai.conjTranspose * aj)) : Except PyErr (Op d)))) acc = .error .indexError := by
    intro l
    induction l with
    | nil => intro i acc; exact .inl ⟨acc, rfl⟩
    | cons j l ih =>
      intro i acc
      rw [List.foldlM_cons]
      rcases step i j acc with ⟨b, hb⟩ | hb
      · rw [hb]; exact ih i b
      · rw [hb]; exact .inr rfl
  unfold buildOp
  rcases hl 0 with ⟨a, ha⟩ | ha
  · rw [ha]
    change (List.range (2 * n)).foldlM _ _ = _
    obtain ⟨i, j, hi, hj, hij⟩ : ∃ i j, i < 2 * n ∧ j < 2 * n ∧ ¬ (i < m ∧ j < k) := by
      rcases h with h | h
      · exact ⟨m, m, h, h, by omega⟩
      · exact ⟨k, k, h, h, by omega⟩
    refine foldlM_error (fun i' _ b => row _ i' b) i (List.mem_range.2 hi) (fun b => ?_) _
    refine foldlM_error (fun j' _ b => step i j' b) j (List.mem_range.2 hj) (fun b => ?_) _
    have : get2 R i j = .error .indexError := by unfold get2; rw [dif_neg hij]
    rw [this]; rfl
  · rw [ha]; rfl

/-! ## partial traces -/

theorem blockCount_spec {D d q : ℕ} (h : blockCount D d = .ok q) : 1 ≤ d ∧ D = d * q := by
  unfold blockCount at h
  split at h
  · cases h
  · split at h
    · cases h
    · rename_i h1 h2
      injection h with h
      exact ⟨by omega, by rw [← h, Nat.mul_div_cancel' (not_not.1 h2)]⟩

theorem addInPlace_step {d : ℕ} (A B : Arr2) (hr : A.rows = d) (hc : A.cols = d) (hB : B.rows = d)
    (h : B.cols = 1 ∨ B.cols = d) : A.addInPlace B = .ok ⟨d, d, fun i j =>
      A.val i j + B.val (pick1 d i) (pick1 B.cols j)⟩ := by
  unfold Arr2.addInPlace
  rw [hr, hc, hB, if_pos (by simpa [fits1] using h)]

/-- The columns of the `j`-th block on the diagonal that lie inside an array with `E` columns. -/
def blockWidth (d E j : ℕ) : ℕ := min (j * d + d) E - min (j * d) E

theorem slice_block_rows (AB : Arr2) {d q j : ℕ} (hD : AB.rows = d * q) (hj : j < q) :
    (AB.slice (j * d) (j * d + d) (j * d) (j * d + d)).rows = d := by
  have h1 : (j + 1) * d ≤ q * d := Nat.mul_le_mul_right d hj
  have h2 : AB.rows = q * d := by rw [hD, mul_comm]
  have h3 : (j + 1) * d = j * d + d := by ring
  simp only [Arr2.slice]
  omega

theorem trace1_fold (AB : Arr2) {d q : ℕ} (hD : AB.rows = d * q)
    (hw : ∀ j < q, blockWidth d AB.cols j = 1 ∨ blockWidth d AB.cols j = d) (p : ℕ) (hp : p ≤ q) :
    ∃ A : Arr2, (List.range p).foldlM (fun A j =>
      A.addInPlace (AB.slice (j * d) (j * d + d) (j * d) (j * d + d))) (Arr2.zeros d d) = .ok A ∧
      A.rows = d ∧ A.cols = d ∧ ∀ x < d, ∀ y < d, A.val x y =
        ∑ j ∈ Finset.range p, AB.val (j * d + x) (j * d + pick1 (blockWidth d AB.cols j) y) := by
  induction p with
  | zero => exact ⟨Arr2.zeros d d, rfl, rfl, rfl, fun x _ y _ => by simp [Arr2.zeros]⟩
  | succ p ih =>
    obtain ⟨A, hA, h1, h2, h3⟩ := ih (by omega)
    rw [List.range_succ, List.foldlM_append, hA]
    have hstep := addInPlace_step A (AB.slice (p * d) (p * d + d) (p * d) (p * d + d)) h1 h2
      (slice_block_rows AB hD (by omega)) (hw p (by omega))
    refine ⟨_, by change (A.addInPlace _ >>= fun a => pure a) = _; rw [hstep]; rfl, rfl, rfl, fun x hx y hy => ?_⟩
    rw [Finset.sum_range_succ, ← h3 x hx y hy]
    dsimp only
    rw [pick1_lt hx]
    rfl

theorem trace1_error (AB : Arr2) {d q : ℕ} (hd : 1 ≤ d) (hD : AB.rows = d * q) {j : ℕ} (hj : j < q)
    (hw : ¬ (blockWidth d AB.cols j = 1 ∨ blockWidth d AB.cols j = d)) :
    partialTraceOver1S AB d = .error .valueError := by
  have hb : blockCount AB.rows d = .ok q := by
    unfold blockCount
    rw [if_neg (by omega), if_neg (by rw [hD]; simp), hD, Nat.mul_div_cancel_left q (by omega)]
  unfold partialTraceOver1S
  rw [hb]
  change (List.range q).foldlM _ _ = _
  -- every intermediate array has `d` columns
  have : ∀ (l : List ℕ) (A : Arr2), A.cols = d → j ∈ l → l.foldlM (fun A j =>
      A.addInPlace (AB.slice (j * d) (j * d + d) (j * d) (j * d + d))) A = .error .valueError := by
    intro l
    induction l with
    | nil => intro A _ h; simp at h
    | cons x l ih =>
      intro A hA hx
      rw [List.foldlM_cons]
      by_cases hf : (fits1 (AB.slice (x * d) (x * d + d) (x * d) (x * d + d)).rows A.rows &&
          fits1 (AB.slice (x * d) (x * d + d) (x * d) (x * d + d)).cols A.cols) = true
      · have hne : j ≠ x := by
          rintro rfl
          rw [hA] at hf
          simp only [fits1, Bool.and_eq_true, Bool.or_eq_true, beq_iff_eq] at hf
          exact hw hf.2
        have hm : j ∈ l := (List.mem_cons.1 hx).resolve_left hne
        unfold Arr2.addInPlace
        rw [if_pos hf]
        exact ih _ hA hm
      · unfold Arr2.addInPlace
        rw [if_neg hf]; rfl
  exact this _ _ rfl (List.mem_range.2 hj)

theorem widths {d E q : ℕ} (hd : 1 ≤ d) (hq : 1 ≤ q) :
    (∀ j < q, blockWidth d E j = 1 ∨ blockWidth d E j = d) ↔ d * q ≤ E ∨ E = d * (q - 1) + 1 := by
  constructor
  · intro h
    obtain ⟨p, rfl⟩ : ∃ p, q = p + 1 := ⟨q - 1, by omega⟩
    have := h p (by omega)
    unfold blockWidth at this
    have e1 : d * (p + 1) = p * d + d := by ring
    have e2 : d * (p + 1 - 1) = p * d := by simp [mul_comm]
    rw [e1, e2]
    omega
  · intro h j hj
    obtain ⟨p, rfl⟩ : ∃ p, q = p + 1 := ⟨q - 1, by omega⟩
    have e1 : d * (p + 1) = p * d + d := by ring
    have e2 : d * (p + 1 - 1) = p * d := by simp [mul_comm]
    rw [e1, e2] at h
    unfold blockWidth
    rcases Nat.lt_or_ge j p with hjp | hjp
    · have e3 : (j + 1) * d ≤ p * d := Nat.mul_le_mul_right d hjp
      have e4 : (j + 1) * d = j * d + d := by ring
      omega
    · have : j = p := by omega
      subst this
      omega

theorem foldl_entry_sum {D E : ℕ} (AB : Matrix (Fin D) (Fin E) ℂ) (a b q : ℕ) :
    (List.range q).foldl (fun t k => t + entry AB (a + k) (b + k)) 0 =
      ∑ k ∈ Finset.range q, entry AB (a + k) (b + k) := by
  induction q with
  | zero => simp
  | succ q ih => rw [List.range_succ, List.foldl_append, ih, Finset.sum_range_succ]; rfl

theorem trace2_entry (AB : Arr2) {d q : ℕ} (hD : AB.rows = d * q) (i j : Fin d) :
    (AB.slice (i * q) (i * q + q) (j * q) (j * q + q)).trace =
      (List.range q).foldl (fun t k => t + entry (resize AB AB.rows) (i * q + k) (j * q + k)) 0 := by
  rw [foldl_entry_sum]
  have hi : (i + 1 : ℕ) * q ≤ d * q := Nat.mul_le_mul_right q i.2
  have hj : (j + 1 : ℕ) * q ≤ d * q := Nat.mul_le_mul_right q j.2
  have ei : (i + 1 : ℕ) * q = i * q + q := by ring
  have ej : (j + 1 : ℕ) * q = j * q + q := by ring
  unfold Arr2.trace
  have hle : min (AB.slice (i * q) (i * q + q) (j * q) (j * q + q)).rows
      (AB.slice (i * q) (i * q + q) (j * q) (j * q + q)).cols ≤ q := by
    simp only [Arr2.slice]; omega
  rw [← Finset.sum_subset (Finset.range_subset_range.2 hle)]
  · refine Finset.sum_congr rfl fun k hk => ?_
    simp only [Finset.mem_range, Arr2.slice] at hk
    unfold entry
    rw [dif_pos (by omega)]
    simp only [resize, Matrix.of_apply, Arr2.slice]
    rw [if_pos (by omega)]
  · intro k hk hk'
    simp only [Finset.mem_range, Arr2.slice] at hk hk'
    unfold entry
    rw [dif_pos (by omega)]
    simp only [resize, Matrix.of_apply]
    rw [if_neg (by omega)]

/-! ## eigenvectors -/

theorem eighSpS_holds {n : ℕ} {A : Arr2} {H : Op (n + n)} (hA : Holds A H)
    (schur : (n : ℕ) → RMat (n + n) → RMat (n + n) × RMat (n + n)) (argsort : (n : ℕ) → (Fin n → ℝ) → Fin n → ℕ) :
    eighSpS A schur argsort = (eighSp (schur n) (argsort n) H >>= fun r => pure ⟨n, r⟩) := by
  have hn : A.rows / 2 = n := by rw [hA.1]; omega
  unfold eighSpS
  dsimp only
  rw [hn, toMat_of_holds hA]
  obtain ⟨B, hB, hB'⟩ := matmul_holds (holds_ofMat (Complex.I • buildOmega n)) hA
  obtain ⟨C, hC, -⟩ := matmul_holds hB' (holds_transpose (holds_conj (holds_ofMat (buildOmega n))))
  rw [hB]
  change (B.matmul _ >>= _) = _
  rw [hC]
  rfl

theorem eighSpS_error {A : Arr2} (h : ¬ (A.rows = A.cols ∧ A.rows % 2 = 0))
    (schur : (n : ℕ) → RMat (n + n) → RMat (n + n) × RMat (n + n)) (argsort : (n : ℕ) → (Fin n → ℝ) → Fin n → ℕ) :
    eighSpS A schur argsort = .error .valueError := by
  unfold eighSpS
  dsimp only
  by_cases h1 : A.rows / 2 + A.rows / 2 = A.rows
  · obtain ⟨B, hB, hB'⟩ := (matmul_ofMat_left (Complex.I • buildOmega (A.rows / 2)) A).1 h1.symm
    rw [hB]
    change (B.matmul _ >>= _) = _
    rw [matmul_error]
    · rfl
    · rw [hB'.2.1]
      intro h2
      have h2 : A.cols = A.rows / 2 + A.rows / 2 := h2
      exact h ⟨by omega, by omega⟩
  · rw [(matmul_ofMat_left (Complex.I • buildOmega (A.rows / 2)) A).2 (Ne.symm h1)]
    rfl

end FF
