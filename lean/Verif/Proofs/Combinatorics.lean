import Verif.Model.Combinatorics
import Verif.Proofs.Loops
import Mathlib.GroupTheory.Perm.Fin
import Mathlib.LinearAlgebra.Matrix.Permanent
import Mathlib.LinearAlgebra.Matrix.Determinant.Basic
import Mathlib.Order.Interval.Finset.Nat
import Mathlib.Order.Interval.Finset.Fin

/-! # Helper lemmas on the combinatorial functions: loops as sums over the symmetric group -/

namespace FF

open Equiv

theorem sgn_eq_pow (l : List ℕ) :
    sgn l = (-1) ^ (∑ i ∈ Finset.range l.length, ∑ j ∈ Finset.Ico (i + 1) l.length,
      if l.getD i 0 > l.getD j 0 then 1 else 0) := by
  have h1 : ∀ (i c : ℕ), (List.range' (i + 1) (l.length - (i + 1))).foldl (fun c j =>
        if l.getD i 0 > l.getD j 0 then c + 1 else c) c
      = c + ∑ j ∈ Finset.Ico (i + 1) l.length, if l.getD i 0 > l.getD j 0 then 1 else 0 := by
    intro i c
    have : (fun (c j : ℕ) => if l.getD i 0 > l.getD j 0 then c + 1 else c)
        = fun c j => c + (if l.getD i 0 > l.getD j 0 then 1 else 0) := by
      funext c j; split <;> simp
    rw [this, foldl_add_eq_sum, Finset.sum_eq_multiset_sum, Nat.Ico_eq_range']
    rfl
  unfold sgn
  simp only [h1, foldl_add_eq_sum]
  set N := ∑ i ∈ Finset.range l.length, ∑ j ∈ Finset.Ico (i + 1) l.length,
      if l.getD i 0 > l.getD j 0 then 1 else 0 with hN
  have h2 : (0 : ℕ) + (List.map (fun a => ∑ j ∈ Finset.Ico (a + 1) l.length,
      if l.getD a 0 > l.getD j 0 then 1 else 0) (List.range l.length)).sum = N := by
    rw [sum_map_range, zero_add, hN, Finset.sum_range]
  rw [h2]
  split
  · rename_i h; rw [Even.neg_one_pow (Nat.even_iff.2 h)]
  · rename_i h; rw [Odd.neg_one_pow (Nat.odd_iff.2 (by omega))]

theorem sgn_permList {n : ℕ} (σ : Perm (Fin n)) : sgn (permList σ) = (Perm.sign σ : ℤ) := by
  rw [sgn_eq_pow, Perm.sign_eq_prod_prod_Ioi, length_permList, Finset.sum_range]
  rw [← Finset.prod_pow_eq_pow_sum]
  push_cast
  refine Finset.prod_congr rfl fun i _ => ?_
  rw [← Finset.prod_pow_eq_pow_sum]
  symm
  refine Finset.prod_bij (fun j _ => (j : ℕ)) ?_ ?_ ?_ ?_
  · intro j hj; simpa using hj
  · intro a _ b _ h; exact Fin.ext h
  · intro b hb
    rw [Finset.mem_Ico] at hb
    exact ⟨⟨b, hb.2⟩, by simp [Fin.lt_def]; omega, rfl⟩
  · intro j hj
    have hij : i ≠ j := by rintro rfl; simp at hj
    have hne : σ i ≠ σ j := fun h => hij (σ.injective h)
    have e1 : (permList σ).getD i 0 = (σ i : ℕ) := by simp [permList]
    have e2 : (permList σ).getD j 0 = (σ j : ℕ) := by simp [permList]
    rw [e1, e2]
    rcases lt_or_gt_of_ne hne with h | h
    · have : ¬ ((σ j : ℕ) < σ i) := by have := Fin.lt_def.1 h; omega
      simp [h, this]
    · have : ((σ j : ℕ) < σ i) := Fin.lt_def.1 h
      simp [this, not_lt.2 h.le]

variable {K : Type}

theorem permProd_ok [CommRing K] {n : ℕ} (A : Matrix (Fin n) (Fin n) K) (σ : Perm (Fin n)) :
    permProd A (permList σ) n = .ok (∏ i, A i (σ i)) := by
  unfold permProd
  rw [foldlM_ok (g := fun prod i => prod * (if h : i < n then A ⟨i, h⟩ (σ ⟨i, h⟩) else 1))]
  · rw [foldl_mul_eq_prod, prod_map_range]
    simp
  · intro i hi b
    rw [List.mem_range] at hi
    rw [listGet_permList σ hi]
    simp only [bind, Except.bind, pure, Except.pure]
    rw [get2_lt A hi (σ ⟨i, hi⟩).2]
    simp [hi]

/-- Index `2 i` (resp. `2 i + 1`) of a set of size `2 m`. -/
def ev {m : ℕ} (i : Fin m) : Fin (2 * m) := ⟨2 * i, by omega⟩
def od {m : ℕ} (i : Fin m) : Fin (2 * m) := ⟨2 * i + 1, by omega⟩

theorem matchProd_ok [CommRing K] {m : ℕ} (A : Matrix (Fin (2 * m)) (Fin (2 * m)) K)
    (σ : Perm (Fin (2 * m))) :
    matchProd A (permList σ) m = .ok (∏ i : Fin m, A (σ (ev i)) (σ (od i))) := by
  unfold matchProd
  rw [foldlM_ok (g := fun prod i => prod *
    (if h : i < m then A (σ (ev ⟨i, h⟩)) (σ (od ⟨i, h⟩)) else 1))]
  · rw [foldl_mul_eq_prod, prod_map_range]
    simp
  · intro i hi b
    rw [List.mem_range] at hi
    rw [listGet_permList σ (show 2 * i < 2 * m by omega),
      listGet_permList σ (show 2 * i + 1 < 2 * m by omega)]
    simp only [bind, Except.bind, pure, Except.pure]
    rw [get2_lt A (Fin.is_lt _) (Fin.is_lt _)]
    simp [hi, ev, od]

theorem permMem {n : ℕ} {p : List ℕ} (hp : p ∈ permutations (List.range n)) :
    ∃ σ : Perm (Fin n), permList σ = p := mem_permList_iff.1 (mem_permutations.1 hp)

open Classical in
theorem sumLoop_ok [CommRing K] {n : ℕ} (f : List ℕ → Except PyErr K) (c : List ℕ → K)
    (v : Perm (Fin n) → K) (hf : ∀ σ, f (permList σ) = .ok (v σ)) :
    (permutations (List.range n)).foldlM (fun s perm => do
      let prod ← f perm
      pure (s + c perm * prod)) 0 = (.ok (∑ σ, c (permList σ) * v σ) : Except PyErr K) := by
  rw [foldlM_ok (g := fun s perm => s + c perm * (match f perm with | .ok x => x | .error _ => 0))]
  · rw [foldl_add_eq_sum, sum_permutations, zero_add]
    simp [hf]
  · intro p hp b
    obtain ⟨σ, rfl⟩ := permMem hp
    rw [hf]
    rfl

theorem dt_ok [CommRing K] {n : ℕ} (A : Matrix (Fin n) (Fin n) K) : dt A = .ok A.det := by
  unfold dt
  rw [sumLoop_ok (fun p => permProd A p n) (fun p => (sgn p : K)) _ (permProd_ok A)]
  rw [← Matrix.det_transpose, Matrix.det_apply']
  simp [sgn_permList]

theorem pt_ok [CommRing K] {n : ℕ} (A : Matrix (Fin n) (Fin n) K) : pt A = .ok A.permanent := by
  unfold pt
  have := sumLoop_ok (fun p => permProd A p n) (fun p => (1 : K)) _ (permProd_ok A)
  simp only [one_mul] at this
  rw [this, ← Matrix.permanent_transpose, Matrix.permanent]
  simp

/-- The sum `pf` computes. -/
noncomputable def pfVal [Field K] {m : ℕ} (A : Matrix (Fin (2 * m)) (Fin (2 * m)) K) : K :=
  (∑ σ : Perm (Fin (2 * m)), ((Perm.sign σ : ℤ) : K) * ∏ i : Fin m, A (σ (ev i)) (σ (od i)))
    / (2 ^ m * (m.factorial : K))

/-- The sum `hf` computes. -/
noncomputable def hfVal [Field K] {m : ℕ} (A : Matrix (Fin (2 * m)) (Fin (2 * m)) K) : K :=
  (∑ σ : Perm (Fin (2 * m)), ∏ i : Fin m, A (σ (ev i)) (σ (od i))) / (2 ^ m * (m.factorial : K))

theorem pf_ok [Field K] {m : ℕ} (A : Matrix (Fin (2 * m)) (Fin (2 * m)) K) :
    pf A = .ok (pfVal A) := by
  unfold pf
  have h : 2 * m / 2 = m := by omega
  rw [if_neg (by omega)]
  simp only [h]
  rw [sumLoop_ok (fun p => matchProd A p m) (fun p => (sgn p : K)) _ (matchProd_ok A)]
  simp [sgn_permList, pfVal, bind, Except.bind, pure, Except.pure]

theorem hf_ok [Field K] {m : ℕ} (A : Matrix (Fin (2 * m)) (Fin (2 * m)) K) :
    hf A = .ok (hfVal A) := by
  unfold hf
  have h : 2 * m / 2 = m := by omega
  rw [if_neg (by omega)]
  simp only [h]
  have := sumLoop_ok (fun p => matchProd A p m) (fun p => (1 : K)) _ (matchProd_ok A)
  simp only [one_mul] at this
  rw [this]
  simp [hfVal, bind, Except.bind, pure, Except.pure]

theorem pf_odd [Field K] {n k : ℕ} (hn : n % 2 = 1) (A : Matrix (Fin n) (Fin k) K) :
    pf A = .ok 0 := by
  unfold pf; rw [if_pos (by omega)]

theorem hf_odd [Field K] {n k : ℕ} (hn : n % 2 = 1) (A : Matrix (Fin n) (Fin k) K) :
    hf A = .ok 0 := by
  unfold hf; rw [if_pos (by omega)]

end FF
