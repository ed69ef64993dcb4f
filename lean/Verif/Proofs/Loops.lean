import Verif.Model.Basic
import Mathlib.Algebra.BigOperators.Fin
import Mathlib.Data.List.FinRange
import Mathlib.Data.Fintype.Perm
import Mathlib.Data.List.Perm.Basic

/-! # Loops: folds in the exception monad, folds as sums and products, enumeration of permutations -/

namespace FF

theorem foldlM_ok {ε α β : Type} {f : β → α → Except ε β} {g : β → α → β} {l : List α}
    (h : ∀ a ∈ l, ∀ b, f b a = .ok (g b a)) (b : β) :
    l.foldlM f b = .ok (l.foldl g b) := by
  induction l generalizing b with
  | nil => rfl
  | cons a l ih =>
    rw [List.foldlM_cons, h a (by simp) b]
    exact ih (fun a ha b => h a (List.mem_cons_of_mem _ ha) b) _

theorem foldl_add_eq_sum {α M : Type} [AddCommMonoid M] (l : List α) (g : α → M) (b : M) :
    l.foldl (fun s a => s + g a) b = b + (l.map g).sum := by
  induction l generalizing b with
  | nil => simp
  | cons a l ih => simp [ih, add_assoc]

theorem foldl_mul_eq_prod {α M : Type} [CommMonoid M] (l : List α) (g : α → M) (b : M) :
    l.foldl (fun s a => s * g a) b = b * (l.map g).prod := by
  induction l generalizing b with
  | nil => simp
  | cons a l ih => simp [ih, mul_assoc]

theorem sum_map_range {M : Type} [AddCommMonoid M] (n : ℕ) (g : ℕ → M) :
    ((List.range n).map g).sum = ∑ i : Fin n, g i := by
  rw [← Finset.sum_range, Finset.sum_eq_multiset_sum]; rfl

theorem prod_map_range {M : Type} [CommMonoid M] (n : ℕ) (g : ℕ → M) :
    ((List.range n).map g).prod = ∏ i : Fin n, g i := by
  rw [← Finset.prod_range, Finset.prod_eq_multiset_prod]; rfl

theorem mem_permutationsAux {α : Type} {k : ℕ} {l p : List α} (hk : l.length = k) :
    p ∈ permutationsAux k l ↔ p.Perm l := by
  induction k generalizing l p with
  | zero =>
    rw [List.length_eq_zero_iff] at hk
    subst hk
    simp [permutationsAux]
  | succ k ih =>
    simp only [permutationsAux, List.mem_flatMap, List.mem_range]
    constructor
    · rintro ⟨i, hi, hp⟩
      rw [List.getElem?_eq_getElem hi] at hp
      simp only [List.mem_map] at hp
      obtain ⟨q, hq, rfl⟩ := hp
      rw [ih (by rw [List.length_eraseIdx_of_lt hi]; omega)] at hq
      exact (List.Perm.cons _ hq).trans (List.getElem_cons_eraseIdx_perm hi)
    · intro hp
      cases p with
      | nil => have := hp.length_eq; simp at this; omega
      | cons x q =>
        obtain ⟨i, hi, hx⟩ := List.getElem_of_mem (hp.subset (by simp) : x ∈ l)
        refine ⟨i, hi, ?_⟩
        rw [List.getElem?_eq_getElem hi]
        simp only [List.mem_map]
        refine ⟨q, ?_, by rw [hx]⟩
        rw [ih (by rw [List.length_eraseIdx_of_lt hi]; omega)]
        have h1 := List.getElem_cons_eraseIdx_perm hi
        rw [hx] at h1
        exact List.Perm.cons_inv (hp.trans h1.symm)

theorem nodup_permutationsAux {α : Type} {k : ℕ} {l : List α} (hk : l.length = k) (hl : l.Nodup) :
    (permutationsAux k l).Nodup := by
  induction k generalizing l with
  | zero => simp [permutationsAux]
  | succ k ih =>
    simp only [permutationsAux]
    rw [List.nodup_flatMap]
    constructor
    · intro i hi
      rw [List.mem_range] at hi
      rw [List.getElem?_eq_getElem hi]
      refine List.Nodup.map (fun a b h => by simpa using h) ?_
      exact ih (by rw [List.length_eraseIdx_of_lt hi]; omega) (hl.eraseIdx i)
    · refine List.Pairwise.imp_of_mem ?_ (List.nodup_range (n := l.length))
      intro i j hi hj hij
      rw [List.mem_range] at hi hj
      rw [Function.onFun, List.getElem?_eq_getElem hi, List.getElem?_eq_getElem hj,
        List.disjoint_left]
      intro p hp hp'
      simp only [List.mem_map] at hp hp'
      obtain ⟨q, -, rfl⟩ := hp
      obtain ⟨q', -, h⟩ := hp'
      have : l[i] = l[j] := by simpa using (List.cons.inj h).1.symm
      exact hij ((List.Nodup.getElem_inj_iff hl).1 this)

theorem mem_permutations {α : Type} {l p : List α} : p ∈ permutations l ↔ p.Perm l :=
  mem_permutationsAux rfl

theorem nodup_permutations {α : Type} {l : List α} (hl : l.Nodup) : (permutations l).Nodup :=
  nodup_permutationsAux rfl hl

/-- The list `[σ 0, σ 1, …]`. -/
def permList {n : ℕ} (σ : Equiv.Perm (Fin n)) : List ℕ := List.ofFn fun i => (σ i : ℕ)

@[simp] theorem length_permList {n : ℕ} (σ : Equiv.Perm (Fin n)) : (permList σ).length = n := by
  simp [permList]

theorem permList_injective {n : ℕ} : Function.Injective (permList (n := n)) := by
  intro σ τ h
  have := List.ofFn_injective h
  ext i
  exact congrFun this i

theorem mem_permList_iff {n : ℕ} {p : List ℕ} :
    p.Perm (List.range n) ↔ ∃ σ : Equiv.Perm (Fin n), permList σ = p := by
  constructor
  · intro h
    have hlen : p.length = n := by simpa using h.length_eq
    have hnd : p.Nodup := h.nodup_iff.2 List.nodup_range
    have hlt : ∀ (i : Fin n), p[(i : ℕ)]'(by omega) < n := fun i =>
      List.mem_range.1 (h.subset (List.getElem_mem _))
    have hinj : Function.Injective
        (fun i : Fin n => (⟨p[(i : ℕ)]'(by omega), hlt i⟩ : Fin n)) := by
      intro i j hij
      simp only [Fin.mk.injEq] at hij
      exact Fin.ext ((List.Nodup.getElem_inj_iff hnd).1 hij)
    refine ⟨Equiv.ofBijective _ (Finite.injective_iff_bijective.1 hinj), ?_⟩
    apply List.ext_getElem
    · simp [hlen]
    · intro i h1 h2
      simp [permList]
  · rintro ⟨σ, rfl⟩
    have hnd : (permList σ).Nodup := by
      rw [permList, List.nodup_ofFn]
      exact fun i j hij => σ.injective (Fin.ext hij)
    rw [List.perm_ext_iff_of_nodup hnd List.nodup_range]
    intro a
    simp only [permList, List.mem_ofFn, List.mem_range]
    constructor
    · rintro ⟨i, rfl⟩; exact (σ i).2
    · intro ha; exact ⟨σ.symm ⟨a, ha⟩, by simp⟩

/-- A sum over `itertools.permutations(range(n))` is a sum over the symmetric group. -/
theorem sum_permutations {M : Type} [AddCommMonoid M] (n : ℕ) (g : List ℕ → M) :
    ((permutations (List.range n)).map g).sum = ∑ σ : Equiv.Perm (Fin n), g (permList σ) := by
  have h : (permutations (List.range n)).Perm
      ((Finset.univ : Finset (Equiv.Perm (Fin n))).toList.map permList) := by
    rw [List.perm_ext_iff_of_nodup (nodup_permutations List.nodup_range)
      ((Finset.nodup_toList _).map permList_injective)]
    intro p
    rw [mem_permutations, mem_permList_iff]
    simp
  rw [(h.map g).sum_eq, List.map_map, Finset.sum_eq_multiset_sum, ← Multiset.sum_coe,
    ← Multiset.map_coe, Finset.coe_toList]
  rfl

theorem listGet_permList {n : ℕ} (σ : Equiv.Perm (Fin n)) {i : ℕ} (hi : i < n) :
    listGet (permList σ) i = .ok (σ ⟨i, hi⟩ : ℕ) := by
  simp [listGet, permList, hi]

theorem get2_fin {K : Type} {m n : ℕ} (A : Matrix (Fin m) (Fin n) K) (i : Fin m) (j : Fin n) :
    get2 A i j = .ok (A i j) := by
  simp [get2]

theorem get2_lt {K : Type} {m n : ℕ} (A : Matrix (Fin m) (Fin n) K) {i j : ℕ} (hi : i < m)
    (hj : j < n) : get2 A i j = .ok (A ⟨i, hi⟩ ⟨j, hj⟩) := by
  simp [get2, hi, hj]

end FF
