import Verif.Proofs.Nan
import Verif.Props.Coefficients
import Verif.Props.Quadratic

/-! # Property C132: nan is not swallowed -/

namespace FF.Props

open Matrix

/-- C132. The casts reject every array that contains nan: vectors with ValueError, matrices with AssertionError (ValueError if they
are not square or have a side of length one), whatever `np.linalg.eigvalsh` does. Every measure that starts with a cast fails
in the same way. -/
theorem C132_cast (pos : Bool) :
    (∀ {n : ℕ} (v : Fin n → Option ℂ), (∃ i, v i = none) → castVecNan pos v = .error .valueError) ∧
    (∀ {m n : ℕ} (A : Matrix (Fin m) (Fin n) (Option ℂ)), (∃ i j, A i j = none) →
      castMatNan pos A = .error (if m = n ∧ m ≠ 1 then .assertionError else .valueError)) := by
  refine ⟨fun v h => castVectorNan_nan pos v h, fun {m n} A h => ?_⟩
  obtain ⟨i, j, h⟩ := h
  rw [castMatNan]
  by_cases h1 : min m n = 1
  · rw [if_pos h1, castVectorNan_nan, if_neg]
    · rintro ⟨rfl, h2⟩; exact h2 (by simpa using h1)
    · have hn : 0 < n := lt_of_le_of_lt (Nat.zero_le _) j.2
      refine ⟨finProdFinEquiv (i, j), ?_⟩
      have e := finProdFinEquiv.symm_apply_apply (i, j)
      rw [finProdFinEquiv_symm_apply] at e
      rw [show Fin.divNat (finProdFinEquiv (i, j)) = i from congrArg Prod.fst e,
        show Fin.modNat (finProdFinEquiv (i, j)) = j from congrArg Prod.snd e, h]
  · rw [if_neg h1, validateDMNan_nan pos A ⟨i, j, h⟩]
    congr 1
    by_cases h2 : m = n
    · subst h2
      rw [if_pos rfl, if_pos ⟨rfl, by simpa using h1⟩]
    · rw [if_neg h2, if_neg fun h => h2 h.1]

/-- C132. On arrays without nan this is the cast of the other properties. -/
theorem C132_cast_finite (pos : Bool) :
    (∀ {n : ℕ} (v : Fin n → ℂ), castVecNan pos (fun i => some (v i)) = (castToDensityMatrix (.vec n v)).map liftSq) ∧
    (∀ {m n : ℕ} (A : Matrix (Fin m) (Fin n) ℂ), castMatNan pos (A.map some) = (castToDensityMatrix (.mat m n A)).map liftSq) := by
  refine ⟨fun v => castVectorNan_fin pos v, fun {m n} A => ?_⟩
  rw [castMatNan, castToDensityMatrix]
  by_cases h1 : min m n = 1
  · rw [if_pos h1, if_pos h1, ← castVectorNan_fin pos]; rfl
  · rw [if_neg h1, if_neg h1, validateDMNan_fin]

/-- C132. `dt` and `pt` return nan exactly if some entry is nan, and are the functions of the other properties otherwise. -/
theorem C132_dt_pt {n : ℕ} :
    (∀ A : Matrix (Fin n) (Fin n) (Option ℂ), (dtNan A = .ok none ↔ ∃ i j, A i j = none) ∧
      (ptNan A = .ok none ↔ ∃ i j, A i j = none)) ∧
    ∀ A : Matrix (Fin n) (Fin n) ℂ, dtNan (A.map some) = (dt A).map some ∧ ptNan (A.map some) = (pt A).map some :=
  ⟨fun A => ⟨dtNan_none A, ptNan_none A⟩, fun A => ⟨dtNan_fin A, ptNan_fin A⟩⟩

/-- C132. For an even number of rows `pf` and `hf` return nan exactly if some entry off the diagonal is nan; nan on the diagonal is
ignored. -/
theorem C132_pf_hf {m : ℕ} (A : Matrix (Fin (2 * m)) (Fin (2 * m)) (Option ℂ)) :
    (pfNan A = .ok none ↔ ∃ i j, i ≠ j ∧ A i j = none) ∧ (hfNan A = .ok none ↔ ∃ i j, i ≠ j ∧ A i j = none) ∧
    ((∀ i j, i ≠ j → A i j ≠ none) → pfNan A = (pf (A.map fun z => z.getD 0)).map some ∧
      hfNan A = (hf (A.map fun z => z.getD 0)).map some) :=
  ⟨pfNan_none A, hfNan_none A, fun h => ⟨pfNan_fin A h, hfNan_fin A h⟩⟩

/-- C132 is violated: for an odd number of rows `pf` and `hf` return 0 although every entry is nan. -/
theorem C132_odd {n : ℕ} (hn : Odd n) (A : Matrix (Fin n) (Fin n) (Option ℂ)) :
    pfNan A = .ok (some 0) ∧ hfNan A = .ok (some 0) := by
  have hodd : n % 2 ≠ 0 := by rw [Nat.odd_iff] at hn; omega
  letI := nanZero
  rw [pfNan, hfNan, pfOn, hfOn, if_pos hodd, if_pos hodd]
  exact ⟨rfl, rfl⟩

theorem matmulNan_none {a b c : ℕ} (A : Matrix (Fin a) (Fin b) (Option ℂ)) (B : Matrix (Fin b) (Fin c) (Option ℂ)) (i : Fin a)
    (j : Fin c) : matmulNan A B i j = none ↔ ∃ k, A i k = none ∨ B k j = none := by
  rw [matmulNan, of_apply, sumNan_none]
  simp only [Option.map₂_eq_none_iff]

theorem matmulNan_some {a b c : ℕ} (A : Matrix (Fin a) (Fin b) ℂ) (B : Matrix (Fin b) (Fin c) ℂ) :
    matmulNan (A.map some) (B.map some) = (A * B).map some := by
  ext i j : 2
  simp only [matmulNan, of_apply, Matrix.map_apply, Option.map₂_some_some, sumNan_some, Matrix.mul_apply]

/-- C132. `is_symp` returns False for every array that contains nan, and is the function of C39 otherwise. -/
theorem C132_is_symp {n : ℕ} :
    (∀ U : Matrix (Fin (n + n)) (Fin (n + n)) (Option ℂ), (∃ i j, U i j = none) → isSympNan U = false) ∧
    ∀ U : Op (n + n), isSympNan (U.map some) = isSymp U := by
  classical
  constructor
  · rintro U ⟨i, j, h⟩
    have key : ¬ allcloseNan (matmulNan (matmulNan U ((swapS n).map some)) U.transpose) ((swapS n).map some) := by
      intro hc
      have := hc i i
      rw [(matmulNan_none _ _ i i).2 ⟨j, .inr h⟩] at this
      exact iscloseNan_none_left _ this
    simp only [isSympNan]
    rw [if_neg key]
    split_ifs <;> rfl
  · intro U
    have key : allcloseNan (matmulNan (matmulNan (U.map some) ((swapS n).map some)) (U.map some).transpose) ((swapS n).map some) ↔
        allclose (U * swapS n * Uᵀ) (swapS n) := by
      rw [show (U.map some).transpose = Uᵀ.map some from rfl, matmulNan_some, matmulNan_some]
      rfl
    rw [Bool.eq_iff_iff]
    have e1 : isSympNan (U.map some) = true ↔
        allcloseNan (matmulNan (matmulNan (U.map some) ((swapS n).map some)) (U.map some).transpose) ((swapS n).map some) := by
      simp only [isSympNan]; split_ifs <;> simp_all
    have e2 : isSymp U = true ↔ allclose (U * swapS n * Uᵀ) (swapS n) := by
      simp only [isSymp]; split_ifs <;> simp_all
    rw [e1, e2, key]

theorem fold_pair {α ι : Type} (l l' : List ι) (step : α → ι → ι → α) (P : α → Prop)
    (hP : ∀ a i j, P a → P (step a i j)) (a : α) (h : P a) :
    P (l.foldl (fun a i => l'.foldl (fun a j => step a i j) a) a) := by
  induction l generalizing a with
  | nil => exact h
  | cons i l ih =>
    refine ih _ ?_
    clear ih
    induction l' generalizing a with
    | nil => exact h
    | cons j l' ih' => exact ih' _ (hP _ _ _ h)

/-- C132. If a coefficient is nan then every entry of the result of `build_op` is nan; otherwise the result is that of C33. -/
theorem C132_build_op {n d : ℕ} (f : Fin (n + n) → Op d) :
    (∀ R : Matrix (Fin (n + n)) (Fin (n + n)) (Option ℂ), (∃ i j, R i j = none) → ∀ x y, buildOpNan R f x y = none) ∧
    ∀ R : Op (n + n), 1 ≤ n → ∃ M, buildOp n R (List.ofFn f) false = .ok M ∧ buildOpNan (R.map some) f = M.map some := by
  classical
  constructor
  · rintro R ⟨i, j, h⟩ x y
    set step : Matrix (Fin d) (Fin d) (Option ℂ) → Fin (n + n) → Fin (n + n) → Matrix (Fin d) (Fin d) (Option ℂ) := fun acc i j =>
      if (∃ r, R i j = some r ∧ ‖r‖ < 1e-10) then acc
      else Matrix.of fun x y =>
        Option.map₂ (· + ·) (acc x y) (Option.map₂ (· * ·) (R i j) (some (((f i).conjTranspose * f j) x y))) with hstep
    have hk : ∀ acc i j, acc x y = none → step acc i j x y = none := by
      intro acc i j ha
      simp only [hstep]
      split_ifs
      · exact ha
      · rw [of_apply, ha]; rfl
    have hij : ∀ acc, step acc i j x y = none := by
      intro acc
      simp only [hstep]
      rw [if_neg (by rintro ⟨r, hr, -⟩; rw [h] at hr; cases hr), of_apply, h]
      simp
    have inner : ∀ (l : List (Fin (n + n))) acc, j ∈ l → l.foldl (fun a j => step a i j) acc x y = none := by
      intro l
      induction l with
      | nil => intro _ h; simp at h
      | cons k l ih =>
        intro acc hm
        rw [List.foldl_cons]
        rcases List.mem_cons.1 hm with rfl | hm
        · have : ∀ (l : List (Fin (n + n))) acc, acc x y = none → l.foldl (fun a j => step a i j) acc x y = none := by
            intro l
            induction l with
            | nil => exact fun _ h => h
            | cons k l ih => exact fun acc ha => ih _ (hk _ _ _ ha)
          exact this l _ (hij acc)
        · exact ih _ hm
    have outer : ∀ (l : List (Fin (n + n))) acc, i ∈ l →
        l.foldl (fun a i => (List.finRange (n + n)).foldl (fun a j => step a i j) a) acc x y = none := by
      intro l
      induction l with
      | nil => intro _ h; simp at h
      | cons k l ih =>
        intro acc hm
        rw [List.foldl_cons]
        rcases List.mem_cons.1 hm with rfl | hm
        · exact fold_pair l _ step (fun a => a x y = none) (fun a i j ha => hk a i j ha) _ (inner _ acc (List.mem_finRange j))
        · exact ih _ hm
    exact outer _ _ (List.mem_finRange i)
  · intro R hn
    refine ⟨_, buildOp_square R f hn, ?_⟩
    have key : ∀ (l l' : List (Fin (n + n))) (M : Op d),
        l.foldl (fun acc i => l'.foldl (fun acc j =>
          if (∃ r, R.map some i j = some r ∧ ‖r‖ < 1e-10) then acc
          else Matrix.of fun x y =>
            Option.map₂ (· + ·) (acc x y) (Option.map₂ (· * ·) (R.map some i j) (some (((f i).conjTranspose * f j) x y)))) acc)
          (M.map some) =
        (M + (l.map fun i => (l'.map fun j => Spec.dropSmall 1e-10 R i j • ((f i)ᴴ * f j)).sum).sum).map some := by
      intro l l'
      have inner : ∀ (l' : List (Fin (n + n))) (i : Fin (n + n)) (M : Op d),
          l'.foldl (fun acc j =>
            if (∃ r, R.map some i j = some r ∧ ‖r‖ < 1e-10) then acc
            else Matrix.of fun x y =>
              Option.map₂ (· + ·) (acc x y) (Option.map₂ (· * ·) (R.map some i j) (some (((f i).conjTranspose * f j) x y))))
            (M.map some) =
          (M + (l'.map fun j => Spec.dropSmall 1e-10 R i j • ((f i)ᴴ * f j)).sum).map some := by
        intro l' i
        induction l' with
        | nil => intro M; simp
        | cons j l' ih =>
          intro M
          rw [List.foldl_cons, List.map_cons, List.sum_cons, ← add_assoc, ← ih]
          congr 1
          by_cases hs : ‖R i j‖ < 1e-10
          · rw [if_pos ⟨R i j, rfl, hs⟩, Spec.dropSmall, of_apply, if_pos hs, zero_smul, add_zero]
          · rw [if_neg (by rintro ⟨r, hr, h'⟩; rw [Matrix.map_apply, Option.some.injEq] at hr; exact hs (hr ▸ h')), Spec.dropSmall,
              of_apply, if_neg hs]
            ext x y : 2
            simp
      induction l with
      | nil => intro M; simp
      | cons i l ih =>
        intro M
        rw [List.foldl_cons, inner, ih, List.map_cons, List.sum_cons, add_assoc]
    rw [buildOpNan, show (Matrix.of fun _ _ => some 0 : Matrix (Fin d) (Fin d) (Option ℂ)) = (0 : Op d).map some from rfl, key, zero_add,
      Spec.quad]
    rfl

/-- Non-vacuity: arrays with one nan, on and off the diagonal. -/
example : pfNan (!![none, some 1; some (-1), none] : Matrix (Fin (2 * 1)) (Fin (2 * 1)) (Option ℂ)) ≠ .ok none ∧
    pfNan (!![some 0, none; some (-1), some 0] : Matrix (Fin (2 * 1)) (Fin (2 * 1)) (Option ℂ)) = .ok none := by
  constructor
  · intro h
    obtain ⟨i, j, hij, h⟩ := (C132_pf_hf (m := 1) _).1.1 h
    fin_cases i <;> fin_cases j <;> simp_all
  · exact (C132_pf_hf (m := 1) _).1.2 ⟨0, 1, by decide, rfl⟩

end FF.Props
