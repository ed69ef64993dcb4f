import Verif.Model.Nan
import Verif.Proofs.Machine

/-! # Helper lemmas on arrays that contain nan -/

namespace FF

open Equiv Matrix
open scoped ComplexConjugate

theorem foldl_map₂_none (f : ℂ → ℂ → ℂ) (l : List (Option ℂ)) : l.foldl (Option.map₂ f) none = none := by
  induction l with
  | nil => rfl
  | cons x l ih => simpa using ih

theorem foldl_map₂_iff (f : ℂ → ℂ → ℂ) (l : List (Option ℂ)) (b : ℂ) :
    l.foldl (Option.map₂ f) (some b) = none ↔ none ∈ l := by
  induction l generalizing b with
  | nil => simp
  | cons x l ih =>
    cases x with
    | none => simp [foldl_map₂_none]
    | some x => simpa using ih (f b x)

theorem foldl_map₂_some (f : ℂ → ℂ → ℂ) (l : List ℂ) (b : ℂ) :
    (l.map some).foldl (Option.map₂ f) (some b) = some (l.foldl f b) := by
  induction l generalizing b with
  | nil => rfl
  | cons x l ih => simpa using ih (f b x)

theorem prodOn_nan (l : List (Option ℂ)) : prodOn nanArith l = none ↔ none ∈ l := foldl_map₂_iff _ l _
theorem sumOn_nan (l : List (Option ℂ)) : sumOn nanArith l = none ↔ none ∈ l := foldl_map₂_iff _ l _
theorem prodOn_fin (l : List ℂ) : prodOn nanArith (l.map some) = some (prodOn (exactArith ℂ) l) :=
  foldl_map₂_some _ l _
theorem sumOn_fin (l : List ℂ) : sumOn nanArith (l.map some) = some (sumOn (exactArith ℂ) l) := foldl_map₂_some _ l _

theorem nan_mul_none (z : ℤ) (x : Option ℂ) : nanArith.mul (nanArith.ofInt z) x = none ↔ x = none := by
  cases x <;> simp [nanArith]

theorem exists_perm_pair {n : ℕ} {a b i j : Fin n} (hab : a ≠ b) (hij : i ≠ j) : ∃ σ : Perm (Fin n), σ a = i ∧ σ b = j := by
  refine ⟨swap (swap a i b) j * swap a i, ?_, ?_⟩
  · rw [Perm.mul_apply, swap_apply_left]
    refine swap_apply_of_ne_of_ne ?_ hij
    intro h
    exact hab ((swap a i).injective (by rw [swap_apply_left]; exact h))
  · rw [Perm.mul_apply, swap_apply_left]

/-- The numbers of an array, 0 in place of nan. -/
noncomputable def finPart {m n : ℕ} (A : Matrix (Fin m) (Fin n) (Option ℂ)) : Matrix (Fin m) (Fin n) ℂ := A.map fun z => z.getD 0

theorem some_finPart {m n : ℕ} {A : Matrix (Fin m) (Fin n) (Option ℂ)} {i : Fin m} {j : Fin n} (h : A i j ≠ none) :
    A i j = some (finPart A i j) := by
  obtain ⟨z, hz⟩ := Option.ne_none_iff_exists'.1 h
  simp [finPart, hz]

theorem dtNan_none {n : ℕ} (A : Matrix (Fin n) (Fin n) (Option ℂ)) : dtNan A = .ok none ↔ ∃ i j, A i j = none := by
  obtain ⟨L, -, hc, hL⟩ := exists_perms n
  rw [dtNan, dtOn_ok _ _ hL, Except.ok.injEq, sumOn_nan]
  simp only [List.mem_map, nan_mul_none, prodOn_nan, List.mem_ofFn]
  constructor
  · rintro ⟨σ, -, i, hi⟩; exact ⟨i, _, hi⟩
  · rintro ⟨i, j, h⟩; exact ⟨swap i j, hc _, i, by simpa using h⟩

theorem ptNan_none {n : ℕ} (A : Matrix (Fin n) (Fin n) (Option ℂ)) : ptNan A = .ok none ↔ ∃ i j, A i j = none := by
  obtain ⟨L, -, hc, hL⟩ := exists_perms n
  rw [ptNan, ptOn_ok _ _ hL, Except.ok.injEq, sumOn_nan]
  simp only [List.mem_map, prodOn_nan, List.mem_ofFn]
  constructor
  · rintro ⟨σ, -, i, hi⟩; exact ⟨i, _, hi⟩
  · rintro ⟨i, j, h⟩; exact ⟨swap i j, hc _, i, by simpa using h⟩

theorem nanDiv_none (s : Option ℂ) (k : ℤ) : nanDiv s k = none ↔ s = none := by simp [nanDiv]

theorem off_diag {m : ℕ} {A : Matrix (Fin (2 * m)) (Fin (2 * m)) (Option ℂ)} {L : List (Perm (Fin (2 * m)))} (hc : ∀ σ, σ ∈ L) :
    (∃ σ ∈ L, ∃ i : Fin m, A (σ (ev i)) (σ (od i)) = none) ↔ ∃ i j, i ≠ j ∧ A i j = none := by
  have ho : ∀ i : Fin m, ev i ≠ od i := fun i h => by
    have := congrArg Fin.val h
    simp [ev, od] at this
  constructor
  · rintro ⟨σ, -, i, hi⟩
    exact ⟨_, _, fun h => ho i (σ.injective h), hi⟩
  · rintro ⟨i, j, hij, h⟩
    have hm : 0 < m := by have := i.2; omega
    obtain ⟨σ, h1, h2⟩ := exists_perm_pair (ho ⟨0, hm⟩) hij
    exact ⟨σ, hc σ, ⟨0, hm⟩, by rw [h1, h2, h]⟩

theorem pfNan_none {m : ℕ} (A : Matrix (Fin (2 * m)) (Fin (2 * m)) (Option ℂ)) :
    pfNan A = .ok none ↔ ∃ i j, i ≠ j ∧ A i j = none := by
  obtain ⟨L, -, hc, hL⟩ := exists_perms (2 * m)
  letI := nanZero
  rw [← off_diag hc, pfNan, pfOn_ok _ _ _ hL, Except.ok.injEq, nanDiv_none, sumOn_nan]
  simp only [List.mem_map, nan_mul_none, prodOn_nan, List.mem_ofFn]

theorem hfNan_none {m : ℕ} (A : Matrix (Fin (2 * m)) (Fin (2 * m)) (Option ℂ)) :
    hfNan A = .ok none ↔ ∃ i j, i ≠ j ∧ A i j = none := by
  obtain ⟨L, -, hc, hL⟩ := exists_perms (2 * m)
  letI := nanZero
  rw [← off_diag hc, hfNan, hfOn_ok _ _ _ hL, Except.ok.injEq, nanDiv_none, sumOn_nan]
  simp only [List.mem_map, prodOn_nan, List.mem_ofFn]

theorem dtNan_fin {n : ℕ} (A : Matrix (Fin n) (Fin n) ℂ) : dtNan (A.map some) = (dt A).map some := by
  obtain ⟨L, -, hc, hL⟩ := exists_perms n
  rw [← dtOn_exact, dtNan, dtOn_ok _ _ hL, dtOn_ok _ _ hL]
  change _ = Except.ok (some _)
  rw [← sumOn_fin, List.map_map]
  congr 3
  funext σ
  simp only [Function.comp]
  rw [show (List.ofFn fun i => A.map some i (σ i)) = (List.ofFn fun i => A i (σ i)).map some by rw [List.map_ofFn]; rfl, prodOn_fin]
  simp [nanArith, exactArith]

theorem ptNan_fin {n : ℕ} (A : Matrix (Fin n) (Fin n) ℂ) : ptNan (A.map some) = (pt A).map some := by
  obtain ⟨L, -, hc, hL⟩ := exists_perms n
  rw [← ptOn_exact, ptNan, ptOn_ok _ _ hL, ptOn_ok _ _ hL]
  change _ = Except.ok (some _)
  rw [← sumOn_fin, List.map_map]
  congr 3
  funext σ
  simp only [Function.comp]
  rw [show (List.ofFn fun i => A.map some i (σ i)) = (List.ofFn fun i => A i (σ i)).map some by rw [List.map_ofFn]; rfl, prodOn_fin]

theorem ofFn_off {m : ℕ} {A : Matrix (Fin (2 * m)) (Fin (2 * m)) (Option ℂ)} (h : ∀ i j, i ≠ j → A i j ≠ none) (σ : Perm (Fin (2 * m))) :
    (List.ofFn fun i : Fin m => A (σ (ev i)) (σ (od i))) = (List.ofFn fun i : Fin m => finPart A (σ (ev i)) (σ (od i))).map some := by
  have ho : ∀ i : Fin m, ev i ≠ od i := fun i h => by
    have := congrArg Fin.val h
    simp [ev, od] at this
  rw [List.map_ofFn]
  congr 1
  funext i
  exact some_finPart (h _ _ fun e => ho i (σ.injective e))

theorem pfNan_fin {m : ℕ} (A : Matrix (Fin (2 * m)) (Fin (2 * m)) (Option ℂ)) (h : ∀ i j, i ≠ j → A i j ≠ none) :
    pfNan A = (pf (finPart A)).map some := by
  obtain ⟨L, -, hc, hL⟩ := exists_perms (2 * m)
  rw [← pfOn_exact, pfOn_ok _ _ _ hL, pfNan]
  letI := nanZero
  rw [pfOn_ok _ _ _ hL]
  change _ = Except.ok (some _)
  congr 1
  rw [nanDiv, ← Option.map_some (f := fun s : ℂ => s / (((2 ^ m * m.factorial : ℤ)) : ℂ)), ← sumOn_fin, List.map_map]
  congr 3
  funext σ
  simp only [Function.comp]
  rw [ofFn_off h, prodOn_fin]
  simp [nanArith, exactArith]

theorem hfNan_fin {m : ℕ} (A : Matrix (Fin (2 * m)) (Fin (2 * m)) (Option ℂ)) (h : ∀ i j, i ≠ j → A i j ≠ none) :
    hfNan A = (hf (finPart A)).map some := by
  obtain ⟨L, -, hc, hL⟩ := exists_perms (2 * m)
  rw [← hfOn_exact, hfOn_ok _ _ _ hL, hfNan]
  letI := nanZero
  rw [hfOn_ok _ _ _ hL]
  change _ = Except.ok (some _)
  congr 1
  rw [nanDiv, ← Option.map_some (f := fun s : ℂ => s / (((2 ^ m * m.factorial : ℤ)) : ℂ)), ← sumOn_fin, List.map_map]
  congr 3
  funext σ
  simp only [Function.comp]
  rw [ofFn_off h, prodOn_fin]

/-! ## the casts -/

theorem sumNan_some {ι : Type} [Fintype ι] (v : ι → ℂ) : sumNan (fun i => some (v i)) = some (∑ i, v i) := by
  simp [sumNan]

theorem sumNan_none {ι : Type} [Fintype ι] (v : ι → Option ℂ) : sumNan v = none ↔ ∃ i, v i = none := by
  rw [sumNan]
  by_cases h : ∀ i, (v i).isSome
  · rw [if_pos h]
    simp only [reduceCtorEq, false_iff, not_exists]
    intro i hi
    have := h i
    rw [hi] at this
    simp at this
  · rw [if_neg h]
    push Not at h
    obtain ⟨i, hi⟩ := h
    exact ⟨fun _ => ⟨i, by simpa using hi⟩, fun _ => rfl⟩

theorem iscloseNan_none_left (b : Option ℂ) : ¬ iscloseNan none b := by simp [iscloseNan]
theorem iscloseNan_none_right (a : Option ℂ) : ¬ iscloseNan a none := by cases a <;> simp [iscloseNan]

/-- A matrix without nan as an array that may contain nan. -/
def liftSq (r : Σ d : ℕ, Matrix (Fin d) (Fin d) ℂ) : Σ d : ℕ, Matrix (Fin d) (Fin d) (Option ℂ) := ⟨r.1, r.2.map some⟩

theorem validateDMNan_fin (pos : Bool) {m n : ℕ} (A : Matrix (Fin m) (Fin n) ℂ) :
    validateDMNan pos (A.map some) = (validateDM A).map liftSq := by
  classical
  rw [validateDMNan, validateDM]
  by_cases h : m ≠ n
  · rw [dif_pos h, dif_pos h]; rfl
  rw [dif_neg h, dif_neg h]
  obtain rfl := not_not.1 h
  have e0 : (A.map some).submatrix id (Fin.cast (not_not.mp h)) = A.map some := rfl
  have e0' : A.submatrix id (Fin.cast (not_not.mp h)) = A := rfl
  simp only [e0, e0']
  have e1 : iscloseNan (some 1) (sumNan fun i => A.map some i i) ↔ isclose 1 (npTrace A) := by
    simp only [Matrix.map_apply, sumNan_some, iscloseNan, npTrace]
  have e2 : allcloseNan (A.map some) (ctNan (A.map some)) ↔ allclose A Aᴴ := by
    simp only [allcloseNan, allclose, ctNan, Matrix.map_apply, Matrix.of_apply, Option.map_some, iscloseNan]
    rfl
  have e3 : ∀ i j, (A.map some i j).isSome := by simp
  have e4 : (Matrix.of fun i j => (A.map some i j).getD 0) = A := by ext; simp
  by_cases h1 : isclose 1 (npTrace A)
  · rw [if_neg (not_not.2 (e1.2 h1)), if_neg (not_not.2 h1)]
    by_cases h2 : allclose A Aᴴ
    · rw [if_neg (not_not.2 (e2.2 h2)), if_neg (not_not.2 h2)]
      have e5 : (if ∀ i j, (A.map some i j).isSome then
          ¬ (∀ i, eigvalsh (Matrix.of fun i j => (A.map some i j).getD 0) i ≥ -1e-12) else pos = false) ↔
          ¬ ∀ i, eigvalsh A i ≥ -1e-12 := by rw [if_pos e3, e4]
      by_cases h3 : ∀ i, eigvalsh A i ≥ -1e-12
      · rw [if_neg (fun h => e5.1 h h3), if_neg (not_not.2 h3)]; rfl
      · rw [if_pos (e5.2 h3), if_pos h3]; rfl
    · rw [if_pos (fun h => h2 (e2.1 h)), if_pos h2]; rfl
  · rw [if_pos (fun h => h1 (e1.1 h)), if_pos h1]; rfl

theorem castVectorNan_fin (pos : Bool) {n : ℕ} (v : Fin n → ℂ) :
    castVectorNan pos (fun i => some (v i)) = (castVector v).map liftSq := by
  classical
  rw [castVectorNan, castVector]
  have e1 : iscloseNan ((sumNan fun i => (some (v i)).map fun z => ((‖z‖ ^ 2 : ℝ) : ℂ)).map fun z => ((Real.sqrt z.re : ℝ) : ℂ)) (some 1)
      ↔ isclose (l2norm v) 1 := by
    simp only [Option.map_some, sumNan_some, iscloseNan, l2norm]
    rw [← Complex.ofReal_sum, Complex.ofReal_re]
  have e2 : iscloseNan (sumNan fun i => (some (v i)).map fun z => ((‖z‖ : ℝ) : ℂ)) (some 1) ↔ isclose (l1norm v) 1 := by
    simp only [Option.map_some, sumNan_some, iscloseNan, l1norm]
    rw [← Complex.ofReal_sum]
  by_cases h1 : isclose (l2norm v) 1
  · rw [if_pos (e1.2 h1), if_pos h1, ← validateDMNan_fin]
    rfl
  · rw [if_neg (fun h => h1 (e1.1 h)), if_neg h1]
    by_cases h2 : isclose (l1norm v) 1
    · rw [if_pos (e2.2 h2), if_pos h2, ← validateDMNan_fin pos]
      congr 1
      ext i j : 2
      simp only [Matrix.of_apply, Matrix.map_apply, Matrix.diagonal_apply]
      split_ifs <;> rfl
    · rw [if_neg (fun h => h2 (e2.1 h)), if_neg h2]; rfl

theorem castVectorNan_nan (pos : Bool) {n : ℕ} (v : Fin n → Option ℂ) (h : ∃ i, v i = none) :
    castVectorNan pos v = .error .valueError := by
  classical
  obtain ⟨i, hi⟩ := h
  rw [castVectorNan, (sumNan_none _).2 ⟨i, by rw [hi]; rfl⟩, (sumNan_none _).2 ⟨i, by rw [hi]; rfl⟩, if_neg, if_neg]
  · exact iscloseNan_none_left _
  · exact iscloseNan_none_left _

theorem validateDMNan_nan (pos : Bool) {m n : ℕ} (A : Matrix (Fin m) (Fin n) (Option ℂ)) (h : ∃ i j, A i j = none) :
    validateDMNan pos A = .error (if m = n then .assertionError else .valueError) := by
  classical
  rw [validateDMNan]
  by_cases hmn : m ≠ n
  · rw [dif_pos hmn, if_neg hmn]
  rw [dif_neg hmn, if_pos (not_not.1 hmn)]
  obtain rfl := not_not.1 hmn
  have e0 : A.submatrix id (Fin.cast (not_not.mp hmn)) = A := rfl
  simp only [e0]
  obtain ⟨i, j, h⟩ := h
  split_ifs with h1 h2 <;> first | rfl | skip
  all_goals
    exfalso
    first
      | exact absurd (h2 i j) (by rw [h]; exact iscloseNan_none_left _)
      | (rename_i h3 _; exact absurd (h3 i j) (by rw [h]; exact iscloseNan_none_left _))

end FF
