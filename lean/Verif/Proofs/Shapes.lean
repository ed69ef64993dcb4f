import Verif.Spec.Shapes

/-!
# Arrays of unexpected shapes
-/

namespace FF

open Spec

theorem fitsRev_nil (s : List ℕ) : fitsRev s [] = true ↔ s = List.replicate s.length 1 := by
  induction s with
  | nil => simp [fitsRev]
  | cons d s ih => simp [fitsRev, ih, List.replicate_succ]

theorem pickRev_nil (s : List ℕ) : pickRev s [] = List.replicate s.length 0 := by
  induction s with
  | nil => simp [pickRev]
  | cons d s ih => simp [pickRev, ih, List.replicate_succ]

theorem fitsRev_ones (k : ℕ) (t : List ℕ) : fitsRev (List.replicate k 1) t = true := by
  induction k generalizing t with
  | zero => simp [fitsRev]
  | succ k ih => cases t <;> simp [List.replicate_succ, fitsRev, ih]

theorem pickRev_ones (k : ℕ) (t : List ℕ) : pickRev (List.replicate k 1) t = List.replicate k 0 := by
  induction k generalizing t with
  | zero => simp [pickRev]
  | succ k ih => cases t <;> simp [List.replicate_succ, pickRev, ih]

theorem rep_snoc {α : Type} (k : ℕ) (a : α) (l : List α) :
    List.replicate k a ++ a :: l = List.replicate (k + 1) a ++ l := by
  rw [List.replicate_succ', List.append_assoc]; rfl

theorem assign_eq {A : NdArr} {r c : ℕ} (h : fitsRev A.shape.reverse [c, r] = true) :
    A.assign r c = .ok (Matrix.of fun i j => A.val (pickRev A.shape.reverse [j, i]).reverse) := by
  unfold NdArr.assign; rw [if_pos h]

theorem assign_ok (A : NdArr) (n : ℕ) (M : Op n) : A.assign n n = .ok M ↔ Fills n A M := by
  constructor
  · intro h
    unfold NdArr.assign at h
    split at h
    case isFalse => cases h
    case isTrue hf =>
      have hM : M = Matrix.of fun i j : Fin n => A.val (pickRev A.shape.reverse [j, i]).reverse := by
        injection h with h; exact h.symm
      have hs : A.shape = A.shape.reverse.reverse := by simp
      generalize A.shape.reverse = s at *
      match s with
      | [] => exact .const 0 (by simpa using hs) (by intro i j; rw [hM]; simp [pickRev])
      | [d] =>
        by_cases h1 : d = 1
        · exact .const 1 (by simpa [h1] using hs) (by intro i j; rw [hM]; simp [pickRev, h1])
        · have h2 : d = n := by simpa [fitsRev, h1] using hf
          subst h2
          exact .row 0 (by simpa using hs) (by intro i j; rw [hM]; simp [pickRev, h1])
      | d :: e :: r =>
        simp only [fitsRev, Bool.and_eq_true, Bool.or_eq_true, beq_iff_eq, fitsRev_nil] at hf
        obtain ⟨hd, he, hr⟩ := hf
        rw [hr] at hs hM
        have hrev : ∀ x : ℕ, (List.replicate r.length x).reverse = List.replicate r.length x := by simp
        by_cases h1 : d = 1
        · by_cases h2 : e = 1
          · refine .const (r.length + 2) ?_ ?_
            · rw [hs, h1, h2]
              simp only [List.reverse_cons, hrev, List.append_assoc, List.cons_append, List.nil_append]
              rw [rep_snoc, rep_snoc, List.append_nil]
            · intro i j
              rw [hM]
              simp only [Matrix.of_apply, pickRev, h1, h2, if_true, pickRev_nil, List.length_replicate,
                List.reverse_cons, hrev, List.append_assoc, List.cons_append, List.nil_append]
              rw [rep_snoc, rep_snoc, List.append_nil]
          · have h2' : e = n := by simpa [h2] using he
            subst h2'
            refine .column r.length ?_ ?_
            · rw [hs, h1]
              simp only [List.reverse_cons, hrev, List.append_assoc, List.cons_append, List.nil_append]
            · intro i j
              rw [hM]
              simp only [Matrix.of_apply, pickRev, h1, if_true, if_neg h2, pickRev_nil,
                List.length_replicate, List.reverse_cons, hrev, List.append_assoc, List.cons_append,
                List.nil_append]
        · have h1' : d = n := by simpa [h1] using hd
          subst h1'
          by_cases h2 : e = 1
          · refine .row (r.length + 1) ?_ ?_
            · rw [hs, h2]
              simp only [List.reverse_cons, hrev, List.append_assoc, List.cons_append, List.nil_append]
              rw [rep_snoc]
            · intro i j
              rw [hM]
              simp only [Matrix.of_apply, pickRev, h2, if_true, if_neg h1, pickRev_nil,
                List.length_replicate, List.reverse_cons, hrev, List.append_assoc, List.cons_append,
                List.nil_append]
              rw [rep_snoc]
          · have h2' : e = d := by simpa [h2] using he
            subst h2'
            refine .full r.length ?_ ?_
            · rw [hs]
              simp only [List.reverse_cons, hrev, List.append_assoc, List.cons_append, List.nil_append]
            · intro i j
              rw [hM]
              simp only [Matrix.of_apply, pickRev, if_neg h1, pickRev_nil,
                List.length_replicate, List.reverse_cons, hrev, List.append_assoc, List.cons_append,
                List.nil_append]
  · have key : ∀ i : Fin n, (if n = 1 then 0 else (i : ℕ)) = i := by
      intro i
      split
      · have := i.2; omega
      · rfl
    rintro (⟨k, hs, hv⟩ | ⟨k, hs, hv⟩ | ⟨k, hs, hv⟩ | ⟨k, hs, hv⟩)
    · rw [assign_eq (by rw [hs]; simp [fitsRev, fitsRev_ones])]
      congr 1; ext i j
      rw [hv, Matrix.of_apply, hs]
      simp [pickRev, pickRev_ones, key]
    · rw [assign_eq (by rw [hs]; simp [fitsRev, fitsRev_ones])]
      congr 1; ext i j
      rw [hv, Matrix.of_apply, hs]
      simp [pickRev, pickRev_ones, key]
    · rw [assign_eq (by rw [hs]; simp [fitsRev, fitsRev_ones])]
      congr 1; ext i j
      rw [hv, Matrix.of_apply, hs]
      simp [pickRev, pickRev_ones, key]
    · rw [assign_eq (by rw [hs, List.reverse_replicate, fitsRev_ones])]
      congr 1; ext i j
      rw [hv, Matrix.of_apply, hs, List.reverse_replicate, pickRev_ones, List.reverse_replicate]

theorem assign_cases (A : NdArr) (n : ℕ) :
    (∃ M, A.assign n n = .ok M ∧ Fills n A M) ∨ (A.assign n n = .error .valueError ∧ ∀ M, ¬ Fills n A M) := by
  by_cases h : ∃ M, Fills n A M
  · obtain ⟨M, hM⟩ := h; exact .inl ⟨M, (assign_ok A n M).2 hM, hM⟩
  · refine .inr ⟨?_, fun M hM => h ⟨M, hM⟩⟩
    unfold NdArr.assign
    split
    · rename_i hf
      exact absurd ⟨_, (assign_ok A n _).1 (assign_eq hf)⟩ h
    · rfl

theorem Spec.Fills.neg_conj {n : ℕ} {A : NdArr} {M : Op n} (h : Fills n A M) : Fills n A.conj.neg (-(cj M)) := by
  rcases h with ⟨k, hs, hv⟩ | ⟨k, hs, hv⟩ | ⟨k, hs, hv⟩ | ⟨k, hs, hv⟩
  · exact .full k hs fun i j => by simp [NdArr.conj, NdArr.neg, cj, hv]
  · exact .column k hs fun i j => by simp [NdArr.conj, NdArr.neg, cj, hv]
  · exact .row k hs fun i j => by simp [NdArr.conj, NdArr.neg, cj, hv]
  · exact .const k hs fun i j => by simp [NdArr.conj, NdArr.neg, cj, hv]

theorem Spec.Fills.zeros {n : ℕ} {A : NdArr} {M : Op n} (h : Fills n A M) : Fills n A.zerosLike 0 := by
  rcases h with ⟨k, hs, hv⟩ | ⟨k, hs, hv⟩ | ⟨k, hs, hv⟩ | ⟨k, hs, hv⟩
  · exact .full k hs fun i j => by simp [NdArr.zerosLike]
  · exact .column k hs fun i j => by simp [NdArr.zerosLike]
  · exact .row k hs fun i j => by simp [NdArr.zerosLike]
  · exact .const k hs fun i j => by simp [NdArr.zerosLike]

theorem Spec.Fills.unique {n : ℕ} {A : NdArr} {M M' : Op n} (h : Fills n A M) (h' : Fills n A M') : M = M' := by
  have := ((assign_ok A n M).2 h).symm.trans ((assign_ok A n M').2 h')
  injection this

theorem assign_fills {n : ℕ} {A : NdArr} {M : Op n} (h : Fills n A M) : A.assign n n = .ok M :=
  (assign_ok A n M).2 h

/-- If the shape of `A` does not fit, neither do the shapes of `-A.conj()`. -/
theorem not_fills_neg_conj {n : ℕ} {A : NdArr} (h : ∀ M, ¬ Fills n A M) (M : Op n) :
    ¬ Fills n A.conj.neg M := by
  intro hM
  have h2 := hM.neg_conj
  refine h (-(cj M)) ?_
  have : A.conj.neg.conj.neg = A := by
    cases A; simp [NdArr.conj, NdArr.neg]
  rwa [this] at h2

end FF

namespace FF

open Spec

/-! ## two axes -/

/-- The only exception is `ValueError`. -/
def OnlyVE {α : Type} (x : Except PyErr α) : Prop := ∀ e, x = .error e → e = .valueError

theorem OnlyVE.ok {α : Type} (a : α) : OnlyVE (.ok a : Except PyErr α) := fun _ h => nomatch h

theorem OnlyVE.pure {α : Type} (a : α) : OnlyVE (Pure.pure a : Except PyErr α) := fun _ h => nomatch h

theorem OnlyVE.bind {α β : Type} {x : Except PyErr α} {f : α → Except PyErr β} (hx : OnlyVE x)
    (hf : ∀ a, OnlyVE (f a)) : OnlyVE (x >>= f) := by
  intro e h
  cases x with
  | error e' => injection h with h; exact h ▸ hx e' rfl
  | ok a => exact hf a e h

theorem bind_ok_iff {α β : Type} {x : Except PyErr α} {f : α → Except PyErr β} {b : β} :
    (x >>= f) = .ok b ↔ ∃ a, x = .ok a ∧ f a = .ok b := by
  cases x with
  | error e => exact ⟨fun h => (nomatch h), fun ⟨a, h, _⟩ => (nomatch h)⟩
  | ok a => exact ⟨fun h => ⟨a, rfl, h⟩, fun ⟨a', h, h'⟩ => by injection h with h; subst h; exact h'⟩

theorem holds_ofMat {m k : ℕ} (M : Matrix (Fin m) (Fin k) ℂ) : Holds (.ofMat M) M :=
  ⟨rfl, rfl, fun i j => by simp [Arr2.ofMat, entry]⟩

theorem holds_transpose {m k : ℕ} {A : Arr2} {M : Matrix (Fin m) (Fin k) ℂ} (h : Holds A M) :
    Holds A.transpose M.transpose :=
  ⟨h.2.1, h.1, fun i j => h.2.2 j i⟩

theorem holds_conj {m k : ℕ} {A : Arr2} {M : Matrix (Fin m) (Fin k) ℂ} (h : Holds A M) :
    Holds A.conj (cj M) :=
  ⟨h.1, h.2.1, fun i j => by simp [Arr2.conj, cj, h.2.2]⟩

theorem matmul_holds {m k l : ℕ} {A B : Arr2} {M : Matrix (Fin m) (Fin k) ℂ} {N : Matrix (Fin k) (Fin l) ℂ}
    (hA : Holds A M) (hB : Holds B N) : ∃ C, A.matmul B = .ok C ∧ Holds C (M * N) := by
  obtain ⟨hA1, hA2, hA3⟩ := hA
  obtain ⟨hB1, hB2, hB3⟩ := hB
  refine ⟨_, if_pos (hA2.trans hB1.symm), hA1, hB2, fun i j => ?_⟩
  rw [Matrix.mul_apply]
  dsimp only
  rw [hA2, Finset.sum_range]
  exact Finset.sum_congr rfl fun x _ => by rw [hA3, hB3]

theorem matmul_ok {A B C : Arr2} (h : A.matmul B = .ok C) : A.cols = B.rows ∧ C.rows = A.rows ∧ C.cols = B.cols := by
  unfold Arr2.matmul at h
  split at h
  · rename_i h'
    injection h with h; subst h
    exact ⟨h', rfl, rfl⟩
  · cases h

theorem matmul_error {A B : Arr2} (h : A.cols ≠ B.rows) : A.matmul B = .error .valueError := if_neg h

theorem matmul_ve (A B : Arr2) : OnlyVE (A.matmul B) := by
  unfold Arr2.matmul
  split
  · exact .ok _
  · intro e h; injection h with h; exact h.symm

theorem pick1_lt {d i : ℕ} (h : i < d) : pick1 d i = i := by
  unfold pick1; split <;> omega

theorem allclose_holds {m k : ℕ} {A B : Arr2} {M N : Matrix (Fin m) (Fin k) ℂ}
    (hA : Holds A M) (hB : Holds B N) :
    A.allclose B = .ok (open Classical in decide (allclose M N)) := by
  classical
  obtain ⟨hA1, hA2, hA3⟩ := hA
  obtain ⟨hB1, hB2, hB3⟩ := hB
  unfold Arr2.allclose
  rw [hA1, hA2, hB1, hB2]
  simp only [common1, if_true]
  congr 1
  rw [decide_eq_decide]
  constructor
  · intro h i j
    have := h i i.2 j j.2
    rwa [pick1_lt i.2, pick1_lt j.2, hA3, hB3] at this
  · intro h i hi j hj
    have := h ⟨i, hi⟩ ⟨j, hj⟩
    rw [pick1_lt hi, pick1_lt hj]
    rwa [← hA3, ← hB3] at this

theorem allclose_ve (A B : Arr2) : OnlyVE (A.allclose B) := by
  unfold Arr2.allclose
  split
  · exact .ok _
  · intro e h; injection h with h; exact h.symm

theorem allclose_total {A B : Arr2} (hr : A.rows = B.rows ∨ A.rows = 1 ∨ B.rows = 1)
    (hc : A.cols = B.cols ∨ A.cols = 1 ∨ B.cols = 1) : ∃ b, A.allclose B = .ok b := by
  have h1 : ∀ a b : ℕ, (a = b ∨ a = 1 ∨ b = 1) → ∃ c, common1 a b = some c := by
    intro a b h
    unfold common1
    split_ifs with h1 h2 h3
    · exact ⟨_, rfl⟩
    · exact ⟨_, rfl⟩
    · exact ⟨_, rfl⟩
    · tauto
  obtain ⟨r, hr⟩ := h1 _ _ hr
  obtain ⟨c, hc⟩ := h1 _ _ hc
  unfold Arr2.allclose
  rw [hr, hc]
  exact ⟨_, rfl⟩

theorem setSlice_ve (S : Arr2) (r0 r1 c0 c1 : ℕ) (B : Arr2) : OnlyVE (S.setSlice r0 r1 c0 c1 B) := by
  unfold Arr2.setSlice
  dsimp only
  split
  · exact .ok _
  · intro e h; injection h with h; exact h.symm

theorem setSlice_ok {S : Arr2} {r0 r1 c0 c1 : ℕ} {B T : Arr2} (h : S.setSlice r0 r1 c0 c1 B = .ok T) :
    (B.rows = 1 ∨ B.rows = min r1 S.rows - min r0 S.rows) ∧
      (B.cols = 1 ∨ B.cols = min c1 S.cols - min c0 S.cols) ∧ T.rows = S.rows ∧ T.cols = S.cols := by
  unfold Arr2.setSlice at h
  dsimp only at h
  split at h
  · rename_i h'
    injection h with h; subst h
    simp only [fits1, Bool.and_eq_true, Bool.or_eq_true, beq_iff_eq] at h'
    exact ⟨h'.1, h'.2, rfl, rfl⟩
  · cases h

theorem sympTest_ve (U S : Arr2) : OnlyVE (sympTestS U S) :=
  .bind (matmul_ve _ _) fun _ => .bind (matmul_ve _ _) fun _ => allclose_ve _ _

theorem sympTest_holds {m : ℕ} {U S : Arr2} {M T : Op m} (hU : Holds U M) (hS : Holds S T) :
    sympTestS U S = .ok (open Classical in decide (allclose (M * T * M.transpose) T)) := by
  obtain ⟨C, hC, hC'⟩ := matmul_holds hU hS
  obtain ⟨D, hD, hD'⟩ := matmul_holds hC' (holds_transpose hU)
  unfold sympTestS
  rw [hC]
  change (C.matmul U.transpose >>= _) = _
  rw [hD]
  exact allclose_holds hD' hS

theorem ite_bool_bind (x : Except PyErr Bool) :
    (x >>= fun b => if b = true then (pure true : Except PyErr Bool) else pure false) = x := by
  cases x with
  | error e => rfl
  | ok b => cases b <;> rfl

/-- The two arrays `S` of `is_symp`. -/
noncomputable def sympS (U : Arr2) : Except PyErr Arr2 := do
  let n := U.rows / 2
  let S ← (Arr2.zeros U.rows U.cols).setSlice 0 n n U.cols (Arr2.eye n)
  S.setSlice n U.rows 0 n (Arr2.eye n)

/-- The comparison of the blocks in `is_symp`. -/
noncomputable def sympCanonical (U : Arr2) : Except PyErr Bool := do
  let n := U.rows / 2
  if (← (U.slice 0 n 0 n).allclose (U.slice n U.rows n U.cols).conj) then
    (U.slice n U.rows 0 n).allclose (U.slice 0 n n U.cols).conj
  else pure false

theorem isSympS_eq (U : Arr2) :
    isSympS U = (sympS U >>= fun S => sympCanonical U >>= fun _ => sympTestS U S) := by
  unfold isSympS sympS sympCanonical
  dsimp only
  simp only [bind_assoc]
  congr 1; funext S
  congr 1; funext S'
  congr 1; funext b
  simp only [ite_bool_bind]
  cases b <;> simp

theorem sympCanonical_ve (U : Arr2) : OnlyVE (sympCanonical U) := by
  unfold sympCanonical
  refine .bind (allclose_ve _ _) fun b => ?_
  split
  · exact allclose_ve _ _
  · exact .pure _

theorem isSympS_ve (U : Arr2) : OnlyVE (isSympS U) := by
  rw [isSympS_eq]
  exact .bind (.bind (setSlice_ve _ _ _ _ _ _) fun _ => setSlice_ve _ _ _ _ _ _) fun _ =>
    .bind (sympCanonical_ve _) fun _ => sympTest_ve _ _

theorem isSympS_shape {U : Arr2} {b : Bool} (h : isSympS U = .ok b) :
    U.rows = U.cols ∧ (U.rows % 2 = 0 ∨ U.rows = 3) := by
  rw [isSympS_eq] at h
  obtain ⟨S, hS, h⟩ := bind_ok_iff.1 h
  obtain ⟨c, -, h⟩ := bind_ok_iff.1 h
  unfold sympS at hS
  obtain ⟨S0, hS0, hS⟩ := bind_ok_iff.1 hS
  obtain ⟨h1, h2, h3, h4⟩ := setSlice_ok hS0
  obtain ⟨g1, g2, g3, g4⟩ := setSlice_ok hS
  unfold sympTestS at h
  obtain ⟨T, hT, -⟩ := bind_ok_iff.1 h
  have := (matmul_ok hT).1
  simp only [Arr2.zeros, Arr2.eye] at *
  omega

theorem sympCanonical_total {U : Arr2} (h : U.rows = U.cols) (h' : U.rows % 2 = 0 ∨ U.rows = 3) :
    ∃ b, sympCanonical U = .ok b := by
  have hr : ∀ a b c d, (U.slice a b c d).rows = min b U.rows - min a U.rows := fun _ _ _ _ => rfl
  have hc : ∀ a b c d, (U.slice a b c d).cols = min d U.cols - min c U.cols := fun _ _ _ _ => rfl
  have kr : ∀ A : Arr2, A.conj.rows = A.rows := fun _ => rfl
  have kc : ∀ A : Arr2, A.conj.cols = A.cols := fun _ => rfl
  obtain ⟨b, hb⟩ := allclose_total (A := U.slice 0 (U.rows / 2) 0 (U.rows / 2))
    (B := (U.slice (U.rows / 2) U.rows (U.rows / 2) U.cols).conj)
    (by rw [kr, hr, hr]; omega) (by rw [kc, hc, hc]; omega)
  obtain ⟨c, hc⟩ := allclose_total (A := U.slice (U.rows / 2) U.rows 0 (U.rows / 2))
    (B := (U.slice 0 (U.rows / 2) (U.rows / 2) U.cols).conj)
    (by rw [kr, hr, hr]; omega) (by rw [kc, hc, hc]; omega)
  unfold sympCanonical
  dsimp only
  rw [hb, hc]
  cases b
  · exact ⟨_, rfl⟩
  · exact ⟨_, rfl⟩

theorem isSympS_of {m : ℕ} {U S : Arr2} {M T : Op m} (hU : Holds U M) (hm : m % 2 = 0 ∨ m = 3)
    (hS : sympS U = .ok S) (hT : Holds S T) :
    isSympS U = .ok (open Classical in decide (allclose (M * T * M.transpose) T)) := by
  obtain ⟨b, hb⟩ := sympCanonical_total (U := U) (hU.1.trans hU.2.1.symm) (by rw [hU.1]; exact hm)
  rw [isSympS_eq, hS]
  change (sympCanonical U >>= fun _ => sympTestS U S) = _
  rw [hb]
  exact sympTest_holds hU hT

theorem sympS_even {n : ℕ} {U : Arr2} (h1 : U.rows = n + n) (h2 : U.cols = n + n) :
    ∃ S, sympS U = .ok S ∧ Holds S (swapS n) := by
  have hn : (n + n) / 2 = n := by omega
  unfold sympS Arr2.setSlice
  simp only [h1, h2, hn, Arr2.zeros, Arr2.eye, fits1, bind, Except.bind]
  rw [if_pos (by simp)]
  simp only
  rw [if_pos (by simp)]
  refine ⟨_, rfl, rfl, rfl, fun i j => ?_⟩
  dsimp only
  refine Fin.addCases (fun i' => ?_) (fun i' => ?_) i <;>
    refine Fin.addCases (fun j' => ?_) (fun j' => ?_) j <;>
    (have hi' := i'.2
     have hj' := j'.2
     simp only [swapS, blk, Matrix.submatrix_apply, finSumFinEquiv_symm_apply_castAdd,
       finSumFinEquiv_symm_apply_natAdd, Matrix.fromBlocks_apply₁₁, Matrix.fromBlocks_apply₁₂,
       Matrix.fromBlocks_apply₂₁, Matrix.fromBlocks_apply₂₂, Fin.val_castAdd, Fin.val_natAdd,
       Matrix.zero_apply, Matrix.one_apply, Fin.ext_iff])
  · rw [if_neg (by omega), if_neg (by omega)]
  · rw [if_neg (by omega), if_pos (by omega)]
    refine if_congr ?_ rfl rfl
    rw [pick1_lt (by omega), pick1_lt (by omega)]
    omega
  · rw [if_pos (by omega)]
    refine if_congr ?_ rfl rfl
    rw [pick1_lt (by omega), pick1_lt (by omega)]
    omega
  · rw [if_neg (by omega), if_neg (by omega)]


/-- The array `S` of `is_symp` for a 3 x 3 array. -/
def sympThree : Op 3 := !![0, 1, 1; 1, 0, 0; 1, 0, 0]

theorem sympS_three {U : Arr2} (h1 : U.rows = 3) (h2 : U.cols = 3) :
    ∃ S, sympS U = .ok S ∧ Holds S sympThree := by
  unfold sympS Arr2.setSlice
  simp only [h1, h2, Arr2.zeros, Arr2.eye, fits1, bind, Except.bind]
  refine ⟨_, rfl, rfl, rfl, fun i j => ?_⟩
  fin_cases i <;> fin_cases j <;> simp [sympThree, pick1]

/-! ## products with matrices of fixed size -/

theorem matmul_ofMat_left {m k : ℕ} (M : Matrix (Fin m) (Fin k) ℂ) (A : Arr2) :
    (A.rows = k → ∃ C, (Arr2.ofMat M).matmul A = .ok C ∧ Holds C (M * A.toMat k A.cols)) ∧
      (A.rows ≠ k → (Arr2.ofMat M).matmul A = .error .valueError) := by
  constructor
  · intro h
    exact matmul_holds (holds_ofMat M) (k := k) ⟨h, rfl, fun i j => rfl⟩
  · intro h
    exact matmul_error (fun h' => h h'.symm)

theorem holds_toMat {A : Arr2} {m k : ℕ} (hr : A.rows = m) (hc : A.cols = k) : Holds A (A.toMat m k) :=
  ⟨hr, hc, fun _ _ => rfl⟩

theorem toMat_of_holds {A : Arr2} {m k : ℕ} {M : Matrix (Fin m) (Fin k) ℂ} (h : Holds A M) :
    A.toMat m k = M := by
  ext i j; exact h.2.2 i j

theorem trace_holds {m k d : ℕ} {A : Arr2} {M : Matrix (Fin m) (Fin k) ℂ} (h : Holds A M) (hk : k = d) :
    A.trace = ∑ i ∈ Finset.range d, if h' : i < m ∧ i < k then M ⟨i, h'.1⟩ ⟨i, h'.2⟩ else 0 := by
  subst hk
  unfold Arr2.trace
  rw [h.1, h.2.1]
  rw [← Finset.sum_subset (Finset.range_subset_range.2 (min_le_right m k))]
  · refine Finset.sum_congr rfl fun i hi => ?_
    have hi' := Finset.mem_range.1 hi
    rw [dif_pos (by omega)]
    exact h.2.2 ⟨i, by omega⟩ ⟨i, by omega⟩
  · intro i hi hi'
    rw [dif_neg]
    simp only [Finset.mem_range] at hi hi'
    omega

/-- The trace of `rho @ X` for an array `rho` with any number of rows. -/
theorem trace_resize {d : ℕ} (rho : Arr2) (hc : rho.cols = d) (X : Op d) {C : Arr2}
    (hC : Holds C (rho.toMat rho.rows d * X)) : C.trace = npTrace (resize rho d * X) := by
  rw [trace_holds hC rfl, npTrace, Finset.sum_range]
  refine Finset.sum_congr rfl fun i _ => ?_
  rw [Matrix.mul_apply]
  split
  · rename_i h
    rw [Matrix.mul_apply]
    refine Finset.sum_congr rfl fun x _ => ?_
    simp only [Arr2.toMat, resize, Matrix.of_apply]
    rw [if_pos ⟨h.1, hc ▸ x.2⟩]
  · rename_i h
    symm
    refine Finset.sum_eq_zero fun x _ => ?_
    simp only [resize, Matrix.of_apply]
    rw [if_neg (fun h' => h ⟨h'.1, i.2⟩), zero_mul]

/-- `np.trace(rho @ X @ Y)`. -/
theorem trace_two {d : ℕ} (rho : Arr2) (hc : rho.cols = d) (X Y : Op d) :
    ∃ B C, rho.matmul (.ofMat X) = .ok B ∧ B.matmul (.ofMat Y) = .ok C ∧
      C.trace = npTrace (resize rho d * X * Y) := by
  obtain ⟨B, hB, hB'⟩ := matmul_holds (holds_toMat rfl hc) (holds_ofMat X)
  obtain ⟨C, hC, hC'⟩ := matmul_holds hB' (holds_ofMat Y)
  rw [Matrix.mul_assoc] at hC'
  exact ⟨B, C, hB, hC, by rw [trace_resize rho hc _ hC', Matrix.mul_assoc]⟩

end FF
