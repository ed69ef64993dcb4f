import Verif.Model.LibMessages
import Verif.Proofs.Coefficients3

/-!
# Lemmas on calls that print
-/

namespace FF

variable {α β : Type}

@[simp] theorem talk_pure (a : α) : (pure a : Talk α) = ⟨[], .ok a⟩ := rfl

theorem talk_bind_ok {ls : List (List Item)} {a : α} (f : α → Talk β) :
    ((⟨ls, .ok a⟩ : Talk α) >>= f) = ⟨ls ++ (f a).lines, (f a).result⟩ := rfl

theorem talk_bind_error {ls : List (List Item)} {e : PyErr} (f : α → Talk β) :
    ((⟨ls, .error e⟩ : Talk α) >>= f) = ⟨ls, .error e⟩ := rfl

theorem talk_result_bind (x : Talk α) (f : α → Talk β) : (x >>= f).result = x.result >>= fun a => (f a).result := by
  obtain ⟨ls, r⟩ := x
  cases r <;> rfl

theorem talk_result_foldlM (f : β → α → Talk β) : ∀ (l : List α) (b : β),
    (l.foldlM f b).result = l.foldlM (fun b a => (f b a).result) b
  | [], _ => rfl
  | a :: l, b => by
    rw [List.foldlM_cons, List.foldlM_cons, talk_result_bind]
    congr 1
    funext c
    exact talk_result_foldlM f l c

instance : LawfulMonad Talk := LawfulMonad.mk'
  (id_map := fun x => by
    obtain ⟨ls, r⟩ := x
    cases r with
    | error e => rfl
    | ok a => show (⟨ls ++ [], .ok a⟩ : Talk _) = _; rw [List.append_nil])
  (pure_bind := fun a f => rfl)
  (bind_assoc := fun x f g => by
    obtain ⟨ls, r⟩ := x
    cases r with
    | error e => rfl
    | ok a =>
      rw [talk_bind_ok, talk_bind_ok]
      rcases h : f a with ⟨ls', r'⟩
      cases r' with
      | error e => rfl
      | ok b => simp only [talk_bind_ok, List.append_assoc])

theorem talk_result_mapM (f : α → Talk β) : ∀ l : List α, (l.mapM f).result = l.mapM fun a => (f a).result
  | [] => by simp; rfl
  | a :: l => by
    rw [List.mapM_cons, List.mapM_cons, talk_result_bind]
    congr 1
    funext b
    rw [talk_result_bind, talk_result_mapM f l]
    rfl

@[simp] theorem sayIf_result (c : Prop) [Decidable c] (l : List Item) : (sayIf c l).result = .ok () := by
  unfold sayIf; split <;> rfl

theorem sayIf_eq (c : Prop) [Decidable c] (l : List Item) : sayIf c l = ⟨if c then [l] else [], .ok ()⟩ := by
  unfold sayIf; split <;> rfl

theorem talk_sayIf_bind (c : Prop) [Decidable c] (l : List Item) (x : Talk β) :
    ((sayIf c l >>= fun _ => x) : Talk β) = ⟨(if c then [l] else []) ++ x.lines, x.result⟩ := by
  rw [sayIf_eq, talk_bind_ok]

@[simp] theorem silent_result (x : Except PyErr α) : (silent x).result = x := rfl
@[simp] theorem silent_ok (a : α) : silent (.ok a) = ⟨[], .ok a⟩ := rfl

/-- A loop none of whose steps raises and whose steps print something independent of the accumulator. -/
theorem talk_foldlM_ok {f : β → α → Talk β} {g : β → α → β} {L : α → List (List Item)} : ∀ {l : List α} {b : β},
    (∀ b, ∀ a ∈ l, f b a = ⟨L a, .ok (g b a)⟩) → l.foldlM f b = ⟨l.flatMap L, .ok (l.foldl g b)⟩
  | [], _, _ => rfl
  | a :: l, b, h => by
    rw [List.foldlM_cons, h b a (by simp), talk_bind_ok,
      talk_foldlM_ok (l := l) (fun b a ha => h b a (by simp [ha])), List.flatMap_cons, List.foldl_cons]

theorem talk_mapM_ok {f : α → Talk β} {g : α → β} {L : α → List (List Item)} : ∀ {l : List α},
    (∀ a ∈ l, f a = ⟨L a, .ok (g a)⟩) → l.mapM f = ⟨l.flatMap L, .ok (l.map g)⟩
  | [], _ => by simp
  | a :: l, h => by
    rw [List.mapM_cons, h a (by simp), talk_bind_ok, talk_mapM_ok (l := l) (fun a ha => h a (by simp [ha])), talk_bind_ok]
    simp

theorem talk_lines_silent_bind {x : Except PyErr α} {f : α → Talk β} (h : ∀ a, x = .ok a → (f a).lines = []) :
    (silent x >>= f).lines = [] := by
  cases x with
  | error e => rfl
  | ok a => exact h a rfl

/-- A loop whose steps print nothing prints nothing. -/
theorem talk_foldlM_silent {f : β → α → Talk β} (h : ∀ b a, (f b a).lines = []) : ∀ (l : List α) (b : β),
    (l.foldlM f b).lines = []
  | [], _ => rfl
  | a :: l, b => by
    rw [List.foldlM_cons]
    have h1 := h b a
    rcases hf : f b a with ⟨ls, r⟩
    rw [hf] at h1
    obtain rfl : ls = [] := h1
    cases r with
    | error e => rfl
    | ok c => exact talk_foldlM_silent h l c

theorem talk_mapM_silent {f : α → Talk β} (h : ∀ a, (f a).lines = []) (l : List α) : (l.mapM f).lines = [] := by
  induction l with
  | nil => simp
  | cons a l ih =>
    rw [List.mapM_cons]
    have h1 := h a
    rcases hf : f a with ⟨ls, r⟩
    rw [hf] at h1
    obtain rfl : ls = [] := h1
    cases r with
    | error e => rfl
    | ok c =>
      rw [talk_bind_ok]
      show [] ++ (_ >>= _ : Talk _).lines = []
      rcases hm : l.mapM f with ⟨ls', r'⟩
      rw [hm] at ih
      obtain rfl : ls' = [] := ih
      cases r' <;> rfl

/-! ## The values -/

theorem permutationToMatrixTalk_eq {n : ℕ} (p : Fin n → ℤ) : permutationToMatrixTalk p =
    ⟨if permutationToMatrix p = none then [[.str "Invalid permutation"]] else [], .ok (permutationToMatrix p)⟩ := by
  rw [permutationToMatrixTalk, permutationToMatrix]
  generalize (0 : Matrix (Fin n) (Fin n) ℤ) = M
  induction List.finRange n generalizing M with
  | nil => rfl
  | cons i l ih =>
    rw [List.foldlM_cons, permutationLoopTalk]
    by_cases h : 0 ≤ p i ∧ p i < n
    · rw [dif_pos h, dif_pos h]
      exact ih _
    · rw [dif_neg h, dif_neg h]
      rfl

theorem permutationToMatrixTalk_result {n : ℕ} (p : Fin n → ℤ) :
    (permutationToMatrixTalk p).result = .ok (permutationToMatrix p) := by
  rw [permutationToMatrixTalk_eq]

theorem performRotationTalk_result {m k d : ℕ} (C : Matrix (Fin m) (Fin k) ℂ) (alphas : List (Op d)) (verbose : Bool) :
    (performRotationTalk C alphas verbose).result = performRotation C alphas := by
  classical
  rw [performRotationTalk, performRotation, talk_result_mapM]
  congr 1
  funext j
  rw [talk_sayIf_bind, talk_result_foldlM]
  congr 1
  funext b i
  rw [talk_result_bind, silent_result]
  congr 1
  funext c
  by_cases h : ‖c‖ < 1e-9
  · rw [if_pos h, if_pos h]; rfl
  · rw [if_neg h, if_neg h, talk_result_bind, silent_result]
    congr 1
    funext a
    rw [talk_sayIf_bind]
    rfl

theorem rotateOperatorsTalk_result {m k d : ℕ} (args : RotArgs m k d) (left verbose : Bool) :
    (rotateOperatorsTalk args left verbose).result = rotateOperators args left := by
  have key : ∀ (C : Matrix (Fin m) (Fin k) ℂ) (alphas : List (Op d)),
      (rotateOperatorsTalk (.matrixFirst C alphas) left verbose).result = rotateOperators (.matrixFirst C alphas) left := by
    intro C alphas
    have hL : (do let r ← performRotationTalk C.conjTranspose alphas verbose; return some r : Talk _).result =
        (do let r ← performRotation C.conjTranspose alphas; return some r) := by
      rw [talk_result_bind, performRotationTalk_result]; rfl
    have hR : (do let r ← performRotationTalk C alphas verbose; return some r : Talk _).result =
        (do let r ← performRotation C alphas; return some r) := by
      rw [talk_result_bind, performRotationTalk_result]; rfl
    simp only [rotateOperatorsTalk, rotateOperators]
    by_cases h1 : m ≠ alphas.length ∧ k ≠ alphas.length
    · rw [if_pos h1]
      by_cases h2 : m > alphas.length ∧ k > alphas.length
      · have h3 : ¬ (m ≠ alphas.length ∧ k ≠ alphas.length ∧ ¬ (m > alphas.length ∧ k > alphas.length)) :=
          fun h => h.2.2 h2
        rw [if_neg h3, if_neg (not_not.2 h2)]
        cases left
        · exact (talk_result_bind _ _).trans hR
        · exact (talk_result_bind _ _).trans hL
      · have h3 : m ≠ alphas.length ∧ k ≠ alphas.length ∧ ¬ (m > alphas.length ∧ k > alphas.length) :=
          ⟨h1.1, h1.2, h2⟩
        rw [if_pos h3, if_pos h2]
        rfl
    · have h3 : ¬ (m ≠ alphas.length ∧ k ≠ alphas.length ∧ ¬ (m > alphas.length ∧ k > alphas.length)) :=
        fun h => h1 ⟨h.1, h.2.1⟩
      rw [if_neg h1, if_neg h3]
      cases left
      · exact hR
      · exact hL
  cases args with
  | matrixFirst C alphas => exact key C alphas
  | listFirst alphas C => exact key C alphas

theorem isSympTalk_result {n : ℕ} (U : Op (n + n)) : (isSympTalk U).result = .ok (isSymp U) := by
  classical
  simp only [isSympTalk, isSymp]
  split_ifs <;> rfl

theorem checkCanonicalFormTalk_result {m k : ℕ} (L : Matrix (Fin m) (Fin k) ℂ) :
    (checkCanonicalFormTalk L).result = .ok (checkCanonicalForm L) := by
  classical
  simp only [checkCanonicalFormTalk, checkCanonicalForm]
  split_ifs <;> rfl

theorem buildOpTalk_result {m k d : ℕ} (nSites : ℕ) (R : Matrix (Fin m) (Fin k) ℂ) (alphas : List (Op d))
    (verbose direct : Bool) : (buildOpTalk nSites R alphas verbose direct).result = buildOp nSites R alphas direct := by
  classical
  rw [buildOpTalk, buildOp, talk_sayIf_bind, talk_result_bind, silent_result]
  congr 1
  funext _
  rw [talk_result_foldlM]
  congr 1
  funext acc i
  rw [talk_result_foldlM]
  congr 1
  funext acc j
  rw [talk_result_bind, silent_result]
  congr 1
  funext r
  by_cases h : ‖r‖ < 1e-10
  · rw [if_pos h, if_pos h]; rfl
  · rw [if_neg h, if_neg h, talk_result_bind, silent_result]
    congr 1
    funext ai
    rw [talk_result_bind, silent_result]
    congr 1
    funext aj
    show (sayIf _ _ >>= fun _ => _ : Talk _).result = _
    rw [talk_sayIf_bind, talk_sayIf_bind]
    cases direct <;> rfl

theorem generateGaussianStateTalk_result {h : ℕ} (n : ℕ) (H : Op h) (alphas : Option (List (Op (2 ^ n)))) :
    (generateGaussianStateTalk n H alphas).result = generateGaussianState n H alphas := by
  simp only [generateGaussianStateTalk, generateGaussianState]
  by_cases h1 : h = 2 * n
  · rw [if_pos h1, if_pos h1, talk_result_bind, buildOpTalk_result]
    congr 1
    funext hop
    simp only [pure_bind]
    by_cases e : h = 2 ^ n
    · simp only [dif_pos e]; rfl
    · simp only [dif_neg e]; rfl
  · rw [if_neg h1, if_neg h1]
    simp only [pure_bind]
    by_cases e : h = 2 ^ n
    · simp only [dif_pos e]; rfl
    · simp only [dif_neg e]; rfl

open Classical in
theorem algebraEntry_result {d : ℕ} (alphas : List (Op d)) (verbose : Bool) (i j : ℕ) :
    (algebraEntry alphas verbose i j).result = (do
      let ai ← listGet alphas i
      let aj ← listGet alphas j
      let anticomm := ai * aj + aj * ai
      if allclose anticomm 0 then pure 0
      else get2 anticomm 0 0) := by
  classical
  rw [algebraEntry, talk_result_bind, silent_result]
  congr 1
  funext ai
  rw [talk_result_bind, silent_result]
  congr 1
  funext aj
  show (if _ then _ else _ : Talk _).result = _
  by_cases h : allclose (ai * aj + aj * ai) 0
  · rw [if_pos h]; simp only [if_pos h]; rfl
  · rw [if_neg h]
    simp only [if_neg h]
    rw [talk_result_bind, silent_result]
    cases get2 (ai * aj + aj * ai) 0 0 with
    | error e => rfl
    | ok s =>
      show (sayIf _ _ >>= fun _ => _ : Talk _).result = _
      rw [talk_sayIf_bind, talk_sayIf_bind]
      show (if _ then _ else _ : Talk _).result = _
      split <;> rfl

theorem isMatchgateTalk_result {m k : ℕ} (M : Matrix (Fin m) (Fin k) ℂ) (verbose : Bool) :
    (isMatchgateTalk M verbose).result = .ok (isMatchgate M) := by
  classical
  simp only [isMatchgateTalk, isMatchgate, talk_sayIf_bind]
  split_ifs <;> rfl

theorem dtEigenTalk_result (eigvals : {n : ℕ} → Matrix (Fin n) (Fin n) ℂ → Except PyErr (List ℂ))
    {rows cols : ℕ} (A : Matrix (Fin rows) (Fin cols) ℂ) : (dtEigenTalk eigvals A).result = dtEigen eigvals A := by
  simp only [dtEigenTalk, dtEigen]
  by_cases h : rows = cols
  · rw [dif_neg (not_not.2 h), dif_neg (not_not.2 h)]
    generalize eigvals (A.submatrix id (Fin.cast (not_not.1 (not_not.2 h)))) = r
    rcases r with e | l
    · cases e <;> rfl
    · rfl
  · rw [dif_pos h, dif_pos h]; rfl

theorem stabilizerDistributionTalk_result (x : Arr) :
    (stabilizerDistributionTalk x).result = stabilizerDistribution x := by
  classical
  rw [stabilizerDistributionTalk, stabilizerDistribution, talk_result_bind, silent_result]
  congr 1
  funext ⟨N, rho⟩
  show (_ >>= _ : Talk _).result = _
  rw [talk_result_bind, silent_result]
  congr 1
  funext pur
  show (_ >>= _ : Talk _).result = _
  rw [talk_result_bind, silent_result]
  congr 1
  funext ⟨k, G, q⟩
  show (if e : _ then _ else _ : Talk _).result = _
  by_cases e : N = 2 ^ k
  · simp only [dif_pos e]
    rw [talk_result_bind, silent_result]
    congr 1
    funext xi
    rw [talk_sayIf_bind]
    by_cases h : isclose (xi.sum : ℝ) 1
    · rw [if_pos h]; simp only [if_pos h]; rfl
    · rw [if_neg h]; simp only [if_neg h]; rfl
  · simp only [dif_neg e]; rfl

/-! ## The messages -/

theorem buildOpTalk_lines {m k d : ℕ} (nSites : ℕ) (R : Matrix (Fin m) (Fin k) ℂ) (alphas : List (Op d)) (direct : Bool) :
    (buildOpTalk nSites R alphas false direct).lines =
      if m ≠ 2 * nSites ∨ k ≠ 2 * nSites then [[.str "R incorrectly formmatted. Use `build_H` to create R"]] else [] := by
  classical
  rw [buildOpTalk, talk_sayIf_bind, talk_lines_silent_bind, List.append_nil]
  intro _ _
  refine talk_foldlM_silent (fun acc i => talk_foldlM_silent (fun acc j => ?_) _ _) _ _
  refine talk_lines_silent_bind fun r _ => ?_
  split
  · rfl
  · refine talk_lines_silent_bind fun ai _ => talk_lines_silent_bind fun aj _ => ?_
    show (sayIf _ _ >>= fun _ => _ : Talk _).lines = _
    rw [talk_sayIf_bind, talk_sayIf_bind]
    rfl

theorem performRotationTalk_lines {m k d : ℕ} (C : Matrix (Fin m) (Fin k) ℂ) (alphas : List (Op d)) :
    (performRotationTalk C alphas false).lines = [] := by
  classical
  refine talk_mapM_silent (fun j => ?_) _
  rw [talk_sayIf_bind]
  refine talk_foldlM_silent (fun b i => talk_lines_silent_bind fun c _ => ?_) _ _
  split
  · rfl
  · refine talk_lines_silent_bind fun a _ => ?_
    rw [talk_sayIf_bind]
    rfl

/-- A loop none of whose steps raises and whose steps may print what they computed. -/
theorem talk_foldlM_prefix {f : β → α → Talk β} {t : β → α → β} {L : β → List (List Item)} : ∀ {l : List α} {b : β},
    (∀ b, ∀ a ∈ l, f b a = ⟨L (t b a), .ok (t b a)⟩) →
      l.foldlM f b = ⟨l.inits.tail.flatMap fun p => L (p.foldl t b), .ok (l.foldl t b)⟩
  | [], _, _ => rfl
  | a :: l, b, h => by
    rw [List.foldlM_cons, h b a (by simp), talk_bind_ok,
      talk_foldlM_prefix (l := l) (t := t) (fun b a ha => h b a (by simp [ha]))]
    have e : (a :: l).inits.tail = l.inits.map (a :: ·) := by simp
    have e2 : l.inits = [] :: l.inits.tail := by cases l <;> simp
    rw [e, List.flatMap_map]
    conv_rhs => rw [e2]
    simp [List.flatMap_cons]

/-- Nested loops without exceptions are one loop over all pairs. -/
theorem talk_foldlM_flatMap {γ : Type} (f : β → γ → Talk β) (g : α → List γ) : ∀ (l : List α) (b : β),
    l.foldlM (fun b a => (g a).foldlM f b) b = (l.flatMap g).foldlM f b
  | [], _ => rfl
  | a :: l, b => by
    rw [List.foldlM_cons, List.flatMap_cons, List.foldlM_append]
    congr 1
    funext c
    exact talk_foldlM_flatMap f g l c

/-- Steps that neither print nor change anything can be left out. -/
theorem talk_foldlM_filter {f : β → α → Talk β} (q : α → Bool) : ∀ (l : List α) (b : β),
    (∀ b, ∀ a ∈ l, q a = false → f b a = pure b) → l.foldlM f b = (l.filter q).foldlM f b
  | [], _, _ => rfl
  | a :: l, b, h => by
    have ih := fun c => talk_foldlM_filter (f := f) q l c (fun b a ha => h b a (by simp [ha]))
    rw [List.foldlM_cons]
    cases hq : q a with
    | true => rw [List.filter_cons_of_pos hq, List.foldlM_cons]; congr 1; funext c; exact ih c
    | false => rw [List.filter_cons_of_neg (by simp [hq]), h b a (by simp) hq, pure_bind]; exact ih b

theorem talk_mapM_map {γ : Type} (f : γ → Talk β) (g : α → γ) (l : List α) :
    (l.map g).mapM f = l.mapM fun a => f (g a) := by
  induction l with
  | nil => rfl
  | cons a l ih => rw [List.map_cons, List.mapM_cons, List.mapM_cons, ih]

theorem flatMap_ite_filter {γ : Type} (q : α → Prop) [DecidablePred q] (g : α → γ) (l : List α) :
    (l.flatMap fun a => if q a then [] else [g a]) = (l.filter fun a => decide (¬ q a)).map g := by
  induction l with
  | nil => rfl
  | cons a l ih =>
    rw [List.flatMap_cons, ih, List.filter_cons]
    by_cases h : q a <;> simp [h]

/-! ## compute_algebra_S -/

/-- The entry computed by `compute_algebra_S` from the anticommutator `X`. -/
noncomputable def algebraValue {d : ℕ} (hd : 0 < d) (X : Op d) : ℂ :=
  open Classical in if allclose X 0 then 0 else X ⟨0, hd⟩ ⟨0, hd⟩

/-- The messages of `compute_algebra_S` about the anticommutator `X`. -/
noncomputable def algebraLines {d : ℕ} (hd : 0 < d) (verbose : Bool) (X : Op d) : List (List Item) :=
  open Classical in
  if allclose X 0 then [] else
    (if verbose then [[.str "s_ij=", .num (X ⟨0, hd⟩ ⟨0, hd⟩)], [.str "anticomm_ij.shape", .shape [d, d]]] else []) ++
    (if allclose (X ⟨0, hd⟩ ⟨0, hd⟩ • 1) X then [] else
      [[.str "Error:"], [.arr1 (List.ofFn fun x => X x x)], [.num (X ⟨0, hd⟩ ⟨0, hd⟩)]])

theorem algebraEntry_eq {d N : ℕ} (hd : 0 < d) (f : Fin N → Op d) (verbose : Bool) (i j : Fin N) :
    algebraEntry (List.ofFn f) verbose i j =
      ⟨algebraLines hd verbose (f i * f j + f j * f i), .ok (algebraValue hd (f i * f j + f j * f i))⟩ := by
  classical
  rw [algebraEntry, listGet_ofFn f i i.2, listGet_ofFn f j j.2]
  simp only [silent_ok, talk_bind_ok, List.nil_append, get2_lt _ hd hd, talk_sayIf_bind, algebraLines, algebraValue, Fin.eta]
  by_cases h : allclose (f i * f j + f j * f i) 0
  · simp only [if_pos h]; rfl
  · simp only [if_neg h]
    by_cases h2 : allclose ((f i * f j + f j * f i) ⟨0, hd⟩ ⟨0, hd⟩ • 1) (f i * f j + f j * f i)
    · simp only [h2, not_true, if_false, if_true]
      cases verbose <;> rfl
    · simp only [h2, not_false_eq_true, if_false, if_true]
      cases verbose <;> rfl

theorem computeAlgebraSTalk_eq (eigvals : {m : ℕ} → Op m → Except PyErr (List ℂ)) {d n : ℕ} (hd : 0 < d) (hn : 1 ≤ n)
    (f : Fin (n + n) → Op d) (verbose : Bool) :
    computeAlgebraSTalk eigvals (List.ofFn f) verbose =
      (⟨(List.finRange (n + n)).flatMap fun i => (List.finRange (n + n)).flatMap fun j =>
          algebraLines hd verbose (f i * f j + f j * f i), .ok ()⟩ : Talk Unit) >>= fun _ =>
        if verbose then algebraSummary eigvals (Matrix.of fun i j : Fin (n + n) => algebraValue hd (f i * f j + f j * f i)) >>=
          fun _ => pure ⟨n, Matrix.of fun i j => algebraValue hd (f i * f j + f j * f i)⟩
        else pure ⟨n, Matrix.of fun i j => algebraValue hd (f i * f j + f j * f i)⟩ := by
  classical
  rw [computeAlgebraSTalk, listGet_ofFn f 0 (by omega), silent_ok, talk_bind_ok]
  have hl : (List.ofFn f).length / 2 = n := by rw [List.length_ofFn]; omega
  have hr : List.range (2 * n) = (List.finRange (n + n)).map Fin.val := by
    rw [two_mul]; exact (List.map_coe_finRange_eq_range).symm
  have hrows : (List.range (2 * n)).mapM (fun i => (List.range (2 * n)).mapM fun j => algebraEntry (List.ofFn f) verbose i j) =
      ⟨(List.finRange (n + n)).flatMap fun i => (List.finRange (n + n)).flatMap fun j =>
          algebraLines hd verbose (f i * f j + f j * f i), .ok ((List.finRange (n + n)).map fun i =>
            (List.finRange (n + n)).map fun j => algebraValue hd (f i * f j + f j * f i))⟩ := by
    rw [hr, talk_mapM_map]
    refine talk_mapM_ok fun i _ => ?_
    rw [talk_mapM_map]
    exact talk_mapM_ok fun j _ => algebraEntry_eq hd f verbose i j
  generalize (List.ofFn f).length / 2 = k at hl
  subst hl
  simp only [hrows, talk_bind_ok, List.nil_append]
  have hS : (Matrix.of fun i j : Fin (k + k) => (((List.finRange (k + k)).map fun i =>
      (List.finRange (k + k)).map fun j => algebraValue hd (f i * f j + f j * f i)).getD i []).getD j 0) =
      Matrix.of fun i j : Fin (k + k) => algebraValue hd (f i * f j + f j * f i) := by
    ext i j
    simp
  rw [hS]

theorem computeAlgebraS_eq {d n : ℕ} (hd : 0 < d) (hn : 1 ≤ n) (f : Fin (n + n) → Op d) :
    computeAlgebraS (List.ofFn f) = .ok ⟨n, Matrix.of fun i j => algebraValue hd (f i * f j + f j * f i)⟩ := by
  classical
  rw [computeAlgebraS, listGet_ofFn f 0 (by omega)]
  have hl : (List.ofFn f).length / 2 = n := by rw [List.length_ofFn]; omega
  generalize (List.ofFn f).length / 2 = k at hl
  subst hl
  change (fillArray k _ >>= _) = _
  rw [fillArray_ok (g := Matrix.of fun i j => algebraValue hd (f i * f j + f j * f i))]
  · rfl
  · intro i j
    rw [listGet_ofFn f i i.2, listGet_ofFn f j j.2]
    change (if allclose (f i * f j + f j * f i) 0 then (pure 0 : Except PyErr ℂ)
      else get2 (f i * f j + f j * f i) 0 0) = _
    rw [get2_lt _ hd hd, Matrix.of_apply, algebraValue]
    split_ifs <;> rfl

/-- For a linear order of keys, the fold finds an element with the least key. -/
theorem extreme_mem {κ : Type} [LinearOrder κ] (key : ℂ → κ) {lt : ℂ → ℂ → Bool}
    (hlt : ∀ z w, lt z w = true ↔ key z < key w) {l : List ℂ} (hl : l ≠ []) :
    ∃ z ∈ l, extreme lt l = .ok z ∧ ∀ w ∈ l, key z ≤ key w := by
  have hf : ∀ (l : List ℂ) (z : ℂ), ∃ y ∈ z :: l, l.foldl (fun m w => if lt w m then w else m) z = y ∧
      ∀ w ∈ z :: l, key y ≤ key w := by
    intro l
    induction l with
    | nil => intro z; exact ⟨z, by simp, rfl, by simp⟩
    | cons a l ih =>
      intro z
      obtain ⟨y, hy, he, hm⟩ := ih (if lt a z then a else z)
      refine ⟨y, ?_, by rw [List.foldl_cons, he], ?_⟩
      · rcases List.mem_cons.1 hy with h | h
        · split_ifs at h <;> simp [h]
        · simp [h]
      · have h0 := hm _ (List.mem_cons_self)
        have h1 : key (if lt a z then a else z) ≤ key a ∧ key (if lt a z then a else z) ≤ key z := by
          split_ifs with h
          · exact ⟨le_rfl, ((hlt _ _).1 h).le⟩
          · exact ⟨not_lt.1 fun h' => h ((hlt _ _).2 h'), le_rfl⟩
        intro w hw
        rcases List.mem_cons.1 hw with rfl | hw
        · exact h0.trans h1.2
        · rcases List.mem_cons.1 hw with rfl | hw
          · exact h0.trans h1.1
          · exact hm w (List.mem_cons_of_mem _ hw)
  cases l with
  | nil => exact absurd rfl hl
  | cons z l =>
    obtain ⟨y, hy, he, hm⟩ := hf l z
    exact ⟨y, hy, by rw [extreme, he], hm⟩

theorem lexLt_iff (z w : ℂ) : lexLt z w = true ↔ toLex (z.re, z.im) < toLex (w.re, w.im) := by
  rw [lexLt, decide_eq_true_eq, Prod.Lex.toLex_lt_toLex]

/-- What is printed as the extreme eigenvalues. -/
theorem extreme_sorted {l : List ℂ} (hl : l ≠ []) :
    ∃ lo ∈ l, ∃ hi ∈ l, extreme lexLt (l.mergeSort fun z w => !lexLt w z) = .ok lo ∧
      extreme (fun z w => lexLt w z) (l.mergeSort fun z w => !lexLt w z) = .ok hi ∧
      ∀ w ∈ l, toLex (lo.re, lo.im) ≤ toLex (w.re, w.im) ∧ toLex (w.re, w.im) ≤ toLex (hi.re, hi.im) := by
  have hne : (l.mergeSort fun z w => !lexLt w z) ≠ [] := by
    intro h
    apply hl
    have := congrArg List.length h
    rw [List.length_mergeSort] at this
    simpa using this
  obtain ⟨lo, hlo, e1, h1⟩ := extreme_mem (fun z : ℂ => toLex (z.re, z.im)) lexLt_iff hne
  obtain ⟨hi, hhi, e2, h2⟩ := extreme_mem (fun z : ℂ => OrderDual.toDual (toLex (z.re, z.im)))
    (lt := fun z w => lexLt w z) (fun z w => by rw [lexLt_iff, OrderDual.toDual_lt_toDual]) hne
  simp only [List.mem_mergeSort] at hlo hhi h1 h2
  exact ⟨lo, hlo, hi, hhi, e1, e2, fun w hw => ⟨h1 w hw, h2 w hw⟩⟩

theorem algebraSummary_ok (eigvals : {m : ℕ} → Op m → Except PyErr (List ℂ)) {m : ℕ} (hm : m ≠ 0) (S : Op m)
    {l : List ℂ} (hl : eigvals S = .ok l) {lo hi : ℂ}
    (h1 : extreme lexLt (l.mergeSort fun z w => !lexLt w z) = .ok lo)
    (h2 : extreme (fun z w => lexLt w z) (l.mergeSort fun z w => !lexLt w z) = .ok hi) :
    algebraSummary eigvals S = ⟨open Classical in [[.str "\nAlgebra properties\n"],
      [.str "Is symmetric?", .bool (decide (allclose 0 (S - S.transpose)))], [.str "Rank:", .nat S.rank],
      [.str "Trace:", .num (npTrace S)], [.str "Eigenvalue max,min:", .num lo, .num hi]], .ok ()⟩ := by
  rw [algebraSummary, if_neg hm, hl]
  simp only [say, silent_ok, talk_bind_ok, h1, h2, List.nil_append, List.singleton_append]

end FF
