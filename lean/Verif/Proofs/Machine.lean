import Verif.Model.Machine
import Verif.Proofs.Combinatorics
import Verif.Proofs.UtilsText
import Mathlib.Data.ZMod.Basic

/-! # Helper lemmas on the combinatorial functions with machine numbers -/

namespace FF

open Equiv

variable {K : Type}

/-! ## The loops as folds -/

/-- `prod = 1; for x in l: prod *= x`. -/
def prodOn (ar : Arith K) (l : List K) : K := l.foldl ar.mul (ar.ofInt 1)

/-- `s = 0; for x in l: s += x`. -/
def sumOn (ar : Arith K) (l : List K) : K := l.foldl ar.add (ar.ofInt 0)

theorem foldl_range_ofFn {α β : Type} (n : ℕ) (f : β → α → β) (g : ℕ → α) (b : β) :
    (List.range n).foldl (fun s i => f s (g i)) b = (List.ofFn fun i : Fin n => g i).foldl f b := by
  rw [← List.foldl_map]
  congr 1
  apply List.ext_getElem <;> simp

theorem permProdOn_ok (ar : Arith K) {n : ℕ} (A : Matrix (Fin n) (Fin n) K) (σ : Perm (Fin n)) :
    permProdOn ar A (permList σ) n = .ok (prodOn ar (List.ofFn fun i => A i (σ i))) := by
  unfold permProdOn
  rw [foldlM_ok (g := fun prod i => ar.mul prod (if h : i < n then A ⟨i, h⟩ (σ ⟨i, h⟩) else ar.ofInt 1))]
  · rw [foldl_range_ofFn n ar.mul]
    simp [prodOn]
  · intro i hi b
    rw [List.mem_range] at hi
    rw [listGet_permList σ hi]
    simp only [bind, Except.bind, pure, Except.pure]
    rw [get2_lt A hi (σ ⟨i, hi⟩).2]
    simp [hi]

theorem matchProdOn_ok (ar : Arith K) {m : ℕ} (A : Matrix (Fin (2 * m)) (Fin (2 * m)) K)
    (σ : Perm (Fin (2 * m))) :
    matchProdOn ar A (permList σ) m = .ok (prodOn ar (List.ofFn fun i : Fin m => A (σ (ev i)) (σ (od i)))) := by
  unfold matchProdOn
  rw [foldlM_ok (g := fun prod i => ar.mul prod
    (if h : i < m then A (σ (ev ⟨i, h⟩)) (σ (od ⟨i, h⟩)) else ar.ofInt 1))]
  · rw [foldl_range_ofFn m ar.mul]
    simp [prodOn]
  · intro i hi b
    rw [List.mem_range] at hi
    rw [listGet_permList σ (show 2 * i < 2 * m by omega),
      listGet_permList σ (show 2 * i + 1 < 2 * m by omega)]
    simp only [bind, Except.bind, pure, Except.pure]
    rw [get2_lt A (Fin.is_lt _) (Fin.is_lt _)]
    simp [hi, ev, od]

/-- The permutations in the order of the loop. -/
theorem exists_perms (n : ℕ) : ∃ L : List (Perm (Fin n)),
    L.Nodup ∧ (∀ σ, σ ∈ L) ∧ permutations (List.range n) = L.map permList := by
  have h : ∀ l : List (List ℕ), (∀ p ∈ l, ∃ σ : Perm (Fin n), permList σ = p) →
      ∃ L : List (Perm (Fin n)), l = L.map permList := by
    intro l
    induction l with
    | nil => exact fun _ => ⟨[], rfl⟩
    | cons p l ih =>
      intro hl
      obtain ⟨L, hL⟩ := ih fun q hq => hl q (List.mem_cons_of_mem _ hq)
      obtain ⟨σ, hσ⟩ := hl p List.mem_cons_self
      exact ⟨σ :: L, by rw [List.map_cons, hσ, hL]⟩
  obtain ⟨L, hL⟩ := h _ fun p hp => permMem hp
  refine ⟨L, ?_, fun σ => ?_, hL⟩
  · have := nodup_permutations (List.nodup_range (n := n))
    rw [hL] at this
    exact List.Nodup.of_map _ this
  · have : permList σ ∈ permutations (List.range n) :=
      mem_permutations.2 (mem_permList_iff.2 ⟨σ, rfl⟩)
    rw [hL, List.mem_map] at this
    obtain ⟨τ, hτ, he⟩ := this
    rwa [← permList_injective he]

theorem sumLoopOn_ok {n : ℕ} (ar : Arith K) (f : List ℕ → Except PyErr K) (c : List ℕ → K → K)
    (v : Perm (Fin n) → K) (hf : ∀ σ, f (permList σ) = .ok (v σ)) {L : List (Perm (Fin n))}
    (hL : permutations (List.range n) = L.map permList) :
    (permutations (List.range n)).foldlM (fun s perm => do
      let prod ← f perm
      pure (ar.add s (c perm prod))) (ar.ofInt 0) =
    (.ok (sumOn ar (L.map fun σ => c (permList σ) (v σ))) : Except PyErr K) := by
  rw [hL, sumOn]
  generalize ar.ofInt 0 = b
  clear hL
  induction L generalizing b with
  | nil => rfl
  | cons σ L ih =>
    simp only [List.map_cons, List.foldlM_cons, List.foldl_cons, hf]
    exact ih _

theorem dtOn_ok (ar : Arith K) {n : ℕ} (A : Matrix (Fin n) (Fin n) K) {L : List (Perm (Fin n))}
    (hL : permutations (List.range n) = L.map permList) :
    dtOn ar A = .ok (sumOn ar (L.map fun σ =>
      ar.mul (ar.ofInt (Perm.sign σ)) (prodOn ar (List.ofFn fun i => A i (σ i))))) := by
  unfold dtOn
  rw [sumLoopOn_ok ar (fun p => permProdOn ar A p n) (fun p x => ar.mul (ar.ofInt (sgn p)) x) _
    (permProdOn_ok ar A) hL]
  simp only [sgn_permList]

theorem ptOn_ok (ar : Arith K) {n : ℕ} (A : Matrix (Fin n) (Fin n) K) {L : List (Perm (Fin n))}
    (hL : permutations (List.range n) = L.map permList) :
    ptOn ar A = .ok (sumOn ar (L.map fun σ => prodOn ar (List.ofFn fun i => A i (σ i)))) := by
  unfold ptOn
  exact sumLoopOn_ok ar (fun p => permProdOn ar A p n) (fun _ x => x) _ (permProdOn_ok ar A) hL

theorem pfOn_ok {R : Type} [Zero R] (ar : Arith K) (div : K → ℤ → R) {m : ℕ}
    (A : Matrix (Fin (2 * m)) (Fin (2 * m)) K) {L : List (Perm (Fin (2 * m)))}
    (hL : permutations (List.range (2 * m)) = L.map permList) :
    pfOn ar div A = .ok (div (sumOn ar (L.map fun σ => ar.mul (ar.ofInt (Perm.sign σ))
      (prodOn ar (List.ofFn fun i : Fin m => A (σ (ev i)) (σ (od i)))))) (2 ^ m * m.factorial)) := by
  unfold pfOn
  have h : 2 * m / 2 = m := by omega
  rw [if_neg (by omega)]
  simp only [h]
  rw [sumLoopOn_ok ar (fun p => matchProdOn ar A p m) (fun p x => ar.mul (ar.ofInt (sgn p)) x) _
    (matchProdOn_ok ar A) hL]
  simp [sgn_permList, bind, Except.bind, pure, Except.pure]

theorem hfOn_ok {R : Type} [Zero R] (ar : Arith K) (div : K → ℤ → R) {m : ℕ}
    (A : Matrix (Fin (2 * m)) (Fin (2 * m)) K) {L : List (Perm (Fin (2 * m)))}
    (hL : permutations (List.range (2 * m)) = L.map permList) :
    hfOn ar div A = .ok (div (sumOn ar (L.map fun σ =>
      prodOn ar (List.ofFn fun i : Fin m => A (σ (ev i)) (σ (od i))))) (2 ^ m * m.factorial)) := by
  unfold hfOn
  have h : 2 * m / 2 = m := by omega
  rw [if_neg (by omega)]
  simp only [h]
  rw [sumLoopOn_ok ar (fun p => matchProdOn ar A p m) (fun _ x => x) _ (matchProdOn_ok ar A) hL]
  simp [bind, Except.bind, pure, Except.pure]

theorem sum_perms {M : Type} [AddCommMonoid M] {n : ℕ} {L : List (Perm (Fin n))} (hn : L.Nodup)
    (hc : ∀ σ, σ ∈ L) (f : Perm (Fin n) → M) : (L.map f).sum = ∑ σ, f σ := by
  have : L.toFinset = Finset.univ := by ext σ; simp [hc]
  rw [← this, List.sum_toFinset _ hn]

theorem length_perms {n : ℕ} {L : List (Perm (Fin n))} (hn : L.Nodup) (hc : ∀ σ, σ ∈ L) :
    L.length = n.factorial := by
  have : L.toFinset = Finset.univ := by ext σ; simp [hc]
  rw [← List.toFinset_card_of_nodup hn, this, Finset.card_univ, Fintype.card_perm, Fintype.card_fin]

/-! ## Exact arithmetic -/

theorem matchProdOn_exact [CommRing K] {m n : ℕ} (A : Matrix (Fin m) (Fin n) K) (p : List ℕ) (k : ℕ) :
    matchProdOn (exactArith K) A p k = matchProd A p k := by
  simp [matchProdOn, matchProd, exactArith]

theorem permProdOn_exact [CommRing K] {m n : ℕ} (A : Matrix (Fin m) (Fin n) K) (p : List ℕ) (k : ℕ) :
    permProdOn (exactArith K) A p k = permProd A p k := by
  simp [permProdOn, permProd, exactArith]

theorem dtOn_exact [CommRing K] {m n : ℕ} (A : Matrix (Fin m) (Fin n) K) : dtOn (exactArith K) A = dt A := by
  simp only [dtOn, dt, permProdOn_exact]
  simp [exactArith]

theorem ptOn_exact [CommRing K] {m n : ℕ} (A : Matrix (Fin m) (Fin n) K) : ptOn (exactArith K) A = pt A := by
  simp only [ptOn, pt, permProdOn_exact]
  simp [exactArith]

theorem pfOn_exact [Field K] {m n : ℕ} (A : Matrix (Fin m) (Fin n) K) :
    pfOn (exactArith K) (fun s k => s / (k : K)) A = pf A := by
  simp only [pfOn, pf, matchProdOn_exact]
  simp [exactArith]

theorem hfOn_exact [Field K] {m n : ℕ} (A : Matrix (Fin m) (Fin n) K) :
    hfOn (exactArith K) (fun s k => s / (k : K)) A = hf A := by
  simp only [hfOn, hf, matchProdOn_exact]
  simp [exactArith]

/-! ## 64-bit integers -/

theorem wrap64_cast (z : ℤ) : ((wrap64 z : ℤ) : ZMod (2 ^ 64)) = z := by
  rw [ZMod.intCast_eq_intCast_iff]
  unfold wrap64 Int.ModEq
  exact_mod_cast Int.bmod_emod

theorem wrap64_eq_iff (x y : ℤ) : wrap64 x = wrap64 y ↔ (x : ZMod (2 ^ 64)) = y := by
  constructor
  · intro h
    rw [← wrap64_cast x, h, wrap64_cast]
  · intro h
    rw [ZMod.intCast_eq_intCast_iff] at h
    have h' : x % ((2 ^ 64 : ℕ) : ℤ) = y % ((2 ^ 64 : ℕ) : ℤ) := by exact_mod_cast h
    simp only [wrap64, Int.bmod_def, h']

theorem wrap64_fits {z : ℤ} (h1 : -2 ^ 63 ≤ z) (h2 : z < 2 ^ 63) : wrap64 z = z := by
  unfold wrap64
  apply Int.bmod_eq_of_le <;> norm_num <;> omega

theorem wrap64_range (z : ℤ) : -2 ^ 63 ≤ wrap64 z ∧ wrap64 z < 2 ^ 63 := by
  unfold wrap64
  have h1 := Int.le_bmod (x := z) (m := 2 ^ 64) (by norm_num)
  have h2 := Int.bmod_lt (x := z) (m := 2 ^ 64) (by norm_num)
  norm_num at h1 h2
  constructor
  · norm_num; omega
  · norm_num; omega

theorem wrap64_wrap64 (z : ℤ) : wrap64 (wrap64 z) = wrap64 z :=
  wrap64_fits (wrap64_range z).1 (wrap64_range z).2

theorem wrap64_eq_self_iff (z : ℤ) : wrap64 z = z ↔ -2 ^ 63 ≤ z ∧ z < 2 ^ 63 :=
  ⟨fun h => by have := wrap64_range z; rwa [h] at this, fun h => wrap64_fits h.1 h.2⟩

theorem prodOn_int64 (l : List ℤ) : ((prodOn int64 l : ℤ) : ZMod (2 ^ 64)) = (l.prod : ℤ) := by
  have h : ∀ b : ℤ, ((l.foldl int64.mul b : ℤ) : ZMod (2 ^ 64)) = ((b * l.prod : ℤ) : ZMod (2 ^ 64)) := by
    induction l with
    | nil => intro b; simp
    | cons x l ih =>
      intro b
      rw [List.foldl_cons, ih, List.prod_cons, Int.cast_mul]
      simp only [int64]
      rw [wrap64_cast]
      push_cast
      ring
  rw [prodOn, h]
  simp [int64]

theorem sumOn_int64_cast (l : List ℤ) : ((sumOn int64 l : ℤ) : ZMod (2 ^ 64)) = (l.sum : ℤ) := by
  have h : ∀ b : ℤ, ((l.foldl int64.add b : ℤ) : ZMod (2 ^ 64)) = ((b + l.sum : ℤ) : ZMod (2 ^ 64)) := by
    induction l with
    | nil => intro b; simp
    | cons x l ih =>
      intro b
      rw [List.foldl_cons, ih, List.sum_cons, Int.cast_add]
      simp only [int64]
      rw [wrap64_cast]
      push_cast
      ring
  rw [sumOn, h]
  simp [int64]

theorem sumOn_int64_wrap (l : List ℤ) : wrap64 (sumOn int64 l) = sumOn int64 l := by
  have h : ∀ b : ℤ, wrap64 b = b → wrap64 (l.foldl int64.add b) = l.foldl int64.add b := by
    induction l with
    | nil => exact fun b hb => hb
    | cons x l ih => exact fun b _ => ih _ (wrap64_wrap64 _)
  exact h _ (wrap64_fits (by norm_num [int64]) (by norm_num [int64]))

theorem sumOn_int64 (l : List ℤ) (s : ℤ) (h : ((l.sum : ℤ) : ZMod (2 ^ 64)) = s) : sumOn int64 l = wrap64 s := by
  rw [← sumOn_int64_wrap, wrap64_eq_iff, sumOn_int64_cast, h]

theorem intCast_sum_map {α : Type} (l : List α) (f g : α → ℤ) (h : ∀ a, ((f a : ℤ) : ZMod (2 ^ 64)) = g a) :
    (((l.map f).sum : ℤ) : ZMod (2 ^ 64)) = ((l.map g).sum : ℤ) := by
  induction l with
  | nil => rfl
  | cons a l ih => simp only [List.map_cons, List.sum_cons, Int.cast_add, ih, h]

theorem dtOn_int64 {n : ℕ} (A : Matrix (Fin n) (Fin n) ℤ) : dtOn int64 A = .ok (wrap64 A.det) := by
  obtain ⟨L, hn, hc, hL⟩ := exists_perms n
  rw [dtOn_ok int64 A hL]
  refine congrArg Except.ok (sumOn_int64 _ _ ?_)
  rw [intCast_sum_map L _ (fun σ => (Perm.sign σ : ℤ) * ∏ i, A i (σ i)), sum_perms hn hc, ← Matrix.det_transpose,
    Matrix.det_apply']
  · simp
  · intro σ
    simp only [int64]
    rw [wrap64_cast, id, Int.cast_mul, Int.cast_mul]
    congr 1
    have := prodOn_int64 (List.ofFn fun i => A i (σ i))
    rw [List.prod_ofFn] at this
    exact this

theorem ptOn_int64 {n : ℕ} (A : Matrix (Fin n) (Fin n) ℤ) : ptOn int64 A = .ok (wrap64 A.permanent) := by
  obtain ⟨L, hn, hc, hL⟩ := exists_perms n
  rw [ptOn_ok int64 A hL]
  refine congrArg Except.ok (sumOn_int64 _ _ ?_)
  rw [intCast_sum_map L _ (fun σ => ∏ i, A i (σ i)), sum_perms hn hc, ← Matrix.permanent_transpose,
    Matrix.permanent]
  · simp
  · intro σ
    have := prodOn_int64 (List.ofFn fun i => A i (σ i))
    rw [List.prod_ofFn] at this
    exact this

/-- The sum in the numerator of `pf`. -/
def pfNum {m : ℕ} (A : Matrix (Fin (2 * m)) (Fin (2 * m)) K) [CommRing K] : K :=
  ∑ σ : Perm (Fin (2 * m)), ((Perm.sign σ : ℤ) : K) * ∏ i : Fin m, A (σ (ev i)) (σ (od i))

/-- The sum in the numerator of `hf`. -/
def hfNum {m : ℕ} (A : Matrix (Fin (2 * m)) (Fin (2 * m)) K) [CommRing K] : K :=
  ∑ σ : Perm (Fin (2 * m)), ∏ i : Fin m, A (σ (ev i)) (σ (od i))

theorem pfOn_int64 {m : ℕ} (A : Matrix (Fin (2 * m)) (Fin (2 * m)) ℤ) :
    pfOn int64 divInt A = .ok (divInt (wrap64 (pfNum A)) (2 ^ m * m.factorial)) := by
  obtain ⟨L, hn, hc, hL⟩ := exists_perms (2 * m)
  rw [pfOn_ok int64 divInt A hL]
  congr 2
  refine sumOn_int64 _ _ ?_
  rw [intCast_sum_map L _ (fun σ => (Perm.sign σ : ℤ) * ∏ i : Fin m, A (σ (ev i)) (σ (od i))), sum_perms hn hc]
  · rfl
  · intro σ
    simp only [int64]
    rw [wrap64_cast, id, Int.cast_mul, Int.cast_mul]
    congr 1
    have := prodOn_int64 (List.ofFn fun i : Fin m => A (σ (ev i)) (σ (od i)))
    rw [List.prod_ofFn] at this
    exact this

theorem hfOn_int64 {m : ℕ} (A : Matrix (Fin (2 * m)) (Fin (2 * m)) ℤ) :
    hfOn int64 divInt A = .ok (divInt (wrap64 (hfNum A)) (2 ^ m * m.factorial)) := by
  obtain ⟨L, hn, hc, hL⟩ := exists_perms (2 * m)
  rw [hfOn_ok int64 divInt A hL]
  congr 2
  refine sumOn_int64 _ _ ?_
  rw [intCast_sum_map L _ (fun σ => ∏ i : Fin m, A (σ (ev i)) (σ (od i))), sum_perms hn hc]
  · rfl
  · intro σ
    have := prodOn_int64 (List.ofFn fun i : Fin m => A (σ (ev i)) (σ (od i)))
    rw [List.prod_ofFn] at this
    exact this

end FF
