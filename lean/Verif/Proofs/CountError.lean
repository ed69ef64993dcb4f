import Verif.Proofs.Count
import Verif.Spec.EigenError
import Mathlib.LinearAlgebra.Matrix.Gershgorin
import Mathlib.LinearAlgebra.Eigenspace.Charpoly
import Mathlib.Analysis.Complex.Polynomial.Basic
import Mathlib.LinearAlgebra.Matrix.Charpoly.Eigs

/-! # Helper lemmas: counting perfect matchings with inexact eigenvalues -/

namespace FF

open Polynomial

/-- the principal root is at least as close as the relative error of the square -/
theorem sqrt_near (P : ℂ) {x : ℝ} (hx : 0 < x) : ‖P ^ (1 / 2 : ℂ) - x‖ ≤ ‖P - x ^ 2‖ / x := by
  set s := P ^ (1 / 2 : ℂ) with hs
  have hs2 : s ^ 2 = P := by
    rw [hs, one_div]
    exact_mod_cast Complex.cpow_nat_inv_pow P (n := 2) (by norm_num)
  have hre : 0 ≤ s.re := by
    by_cases hP : P = 0
    · rw [hs, hP, Complex.zero_cpow (by norm_num)]; simp
    · rw [hs, Complex.cpow_def_of_ne_zero hP, Complex.exp_re]
      refine mul_nonneg (Real.exp_pos _).le (Real.cos_nonneg_of_mem_Icc ?_)
      have him : (Complex.log P * (1 / 2 : ℂ)).im = P.arg / 2 := by
        have : (1 / 2 : ℂ) = ((1 / 2 : ℝ) : ℂ) := by push_cast; rfl
        rw [this, Complex.im_mul_ofReal, Complex.log_im]; ring
      rw [him]
      have h1 := Complex.neg_pi_lt_arg P
      have h2 := Complex.arg_le_pi P
      constructor <;> linarith
  have h1 : ‖s - x‖ * ‖s + x‖ = ‖P - x ^ 2‖ := by
    rw [← norm_mul, ← hs2]; congr 1; ring
  have h2 : x ≤ ‖s + x‖ := by
    have := Complex.re_le_norm (s + x)
    rw [Complex.add_re, Complex.ofReal_re] at this
    linarith
  rw [le_div_iff₀ hx, ← h1]
  gcongr

/-- the root of a small number -/
theorem norm_sqrt (P : ℂ) : ‖P ^ (1 / 2 : ℂ)‖ ^ 2 = ‖P‖ := by
  rw [← norm_pow]
  congr 1
  rw [one_div]
  exact_mod_cast Complex.cpow_nat_inv_pow P (n := 2) (by norm_num)

/-- a number close to an integer is rounded to this integer -/
theorem clean_near {z : ℂ} {N : ℤ} (h : ‖z - N‖ < 1 / 2 * 10 ^ (-10 : ℤ)) :
    clean (.complex z) (.int 10) = .ok (.real N) := by
  have him : |z.im| < 10 ^ (-10 : ℤ) := by
    have := Complex.abs_im_le_norm (z - N)
    rw [Complex.sub_im, Complex.intCast_im, sub_zero] at this
    have h10 : (0 : ℝ) < 10 ^ (-10 : ℤ) := by positivity
    generalize (10 : ℝ) ^ (-10 : ℤ) = c at h h10 ⊢
    linarith
  have hre : |z.re - N| < 1 / 2 * 10 ^ (-10 : ℤ) := by
    have := Complex.abs_re_le_norm (z - N)
    rw [Complex.sub_re, Complex.intCast_re] at this
    linarith
  rw [clean_int]
  simp only [cleanWith]
  rw [if_pos him]
  have : npRound 10 z.re = N := by
    unfold npRound
    have e : rint (z.re * 10 ^ (10 : ℤ)) = N * 10 ^ 10 := by
      apply rint_eq_of_near
      have : z.re * 10 ^ (10 : ℤ) - ((N * 10 ^ 10 : ℤ) : ℝ) = (z.re - N) * 10 ^ 10 := by
        rw [sub_mul]; push_cast; norm_num
      rw [this, abs_mul, abs_of_pos (show (0 : ℝ) < 10 ^ 10 by positivity)]
      have e2 : (1 : ℝ) / 2 = 1 / 2 * 10 ^ (-10 : ℤ) * 10 ^ 10 := by norm_num
      rw [e2]
      gcongr
    rw [e]
    push_cast
    norm_num
  rw [this]

/-- products of close numbers are close -/
theorem prod_near {l l' : List ℂ} {η D : ℝ} (hη : 0 ≤ η) (hD : 0 ≤ D) (h : List.Forall₂ (fun a b => ‖a - b‖ ≤ η) l l')
    (hb : ∀ b ∈ l', ‖b‖ ≤ D) : ‖l.prod - l'.prod‖ ≤ (D + η) ^ l'.length - D ^ l'.length ∧ ‖l'.prod‖ ≤ D ^ l'.length := by
  induction h with
  | nil => simp
  | @cons a b l l' hab _ ih =>
    obtain ⟨h1, h2⟩ := ih fun b hb' => hb b (List.mem_cons_of_mem _ hb')
    have hbD := hb b List.mem_cons_self
    have haD : ‖a‖ ≤ D + η := by
      have := norm_add_le (a - b) b
      rw [sub_add_cancel] at this
      linarith
    rw [List.prod_cons, List.prod_cons, List.length_cons]
    constructor
    · have e : a * l.prod - b * l'.prod = a * (l.prod - l'.prod) + (a - b) * l'.prod := by ring
      rw [e]
      refine (norm_add_le _ _).trans ?_
      rw [norm_mul, norm_mul]
      have t1 : ‖a‖ * ‖l.prod - l'.prod‖ ≤ (D + η) * ((D + η) ^ l'.length - D ^ l'.length) := by gcongr
      have t2 : ‖a - b‖ * ‖l'.prod‖ ≤ η * D ^ l'.length := by gcongr
      calc _ ≤ _ := add_le_add t1 t2
        _ = _ := by ring
    · rw [norm_mul, pow_succ']
      gcongr

/-- each zero contributes a small factor -/
theorem prod_small {l l' : List ℂ} {η D : ℝ} (hη : 0 ≤ η) (hD : 0 ≤ D) (h : List.Forall₂ (fun a b => ‖a - b‖ ≤ η) l l')
    (hb : ∀ b ∈ l', ‖b‖ ≤ D) : ‖l.prod‖ ≤ η ^ l'.count 0 * (D + η) ^ (l'.length - l'.count 0) := by
  induction h with
  | nil => simp
  | @cons a b l l' hab _ ih =>
    have h1 := ih fun b hb' => hb b (List.mem_cons_of_mem _ hb')
    have hbD := hb b List.mem_cons_self
    rw [List.prod_cons, List.length_cons, norm_mul]
    have hc : l'.count 0 ≤ l'.length := List.count_le_length
    by_cases hb0 : b = 0
    · subst hb0
      rw [sub_zero] at hab
      rw [List.count_cons_self, pow_succ', Nat.add_sub_add_right, mul_assoc]
      gcongr
    · have haD : ‖a‖ ≤ D + η := by
        have := norm_add_le (a - b) b
        rw [sub_add_cancel] at this
        linarith
      rw [List.count_cons_of_ne hb0, Nat.succ_sub hc, pow_succ', mul_left_comm]
      gcongr

/-- Gershgorin: eigenvalues are bounded by the row sums -/
theorem norm_root_le {n : ℕ} (M : Matrix (Fin n) (Fin n) ℝ) {D : ℝ} (hD : ∀ i, ∑ j, |M i j| ≤ D) {z : ℂ}
    (hz : z ∈ (M.map fun x : ℝ => (x : ℂ)).charpoly.roots) : ‖z‖ ≤ D := by
  have hroot := isRoot_of_mem_roots hz
  have hev : Module.End.HasEigenvalue (Matrix.toLin' (M.map fun x : ℝ => (x : ℂ))) z := by
    rw [Module.End.hasEigenvalue_iff_isRoot_charpoly, Matrix.charpoly_toLin']
    exact hroot
  obtain ⟨k, hk⟩ := eigenvalue_mem_ball hev
  rw [mem_closedBall_iff_norm] at hk
  have h1 : ‖z‖ ≤ ‖(M.map fun x : ℝ => (x : ℂ)) k k‖ + ∑ j ∈ Finset.univ.erase k, ‖(M.map fun x : ℝ => (x : ℂ)) k j‖ := by
    have := norm_add_le (z - (M.map fun x : ℝ => (x : ℂ)) k k) ((M.map fun x : ℝ => (x : ℂ)) k k)
    rw [sub_add_cancel] at this
    linarith
  rw [Finset.add_sum_erase _ (fun j => ‖(M.map fun x : ℝ => (x : ℂ)) k j‖) (Finset.mem_univ k)] at h1
  refine h1.trans (le_of_eq_of_le ?_ (hD k))
  exact Finset.sum_congr rfl fun j _ => by simp

/-- the characteristic polynomial of a skew matrix of even size is even, so zero is at least a double root of it -/
theorem skew_double_root {n : ℕ} (hn : Even n) (M : Matrix (Fin n) (Fin n) ℂ) (hM : M.transpose = -M) (hd : M.det = 0) :
    2 ≤ M.charpoly.roots.count 0 := by
  have heven : ∀ x : ℂ, M.charpoly.eval (-x) = M.charpoly.eval x := by
    intro x
    rw [Matrix.eval_charpoly, Matrix.eval_charpoly]
    have e : Matrix.scalar (Fin n) (-x) - M = -(Matrix.scalar (Fin n) x - M).transpose := by
      rw [Matrix.transpose_sub, hM]
      ext i j
      by_cases hij : i = j
      · subst hij; simp; ring
      · simp [Matrix.diagonal_apply_ne _ hij, Matrix.diagonal_apply_ne' _ hij]
    rw [e, Matrix.det_neg, Matrix.det_transpose, Fintype.card_fin, hn.neg_one_pow, one_mul]
  have hcomp : M.charpoly.comp (-X) = M.charpoly := by
    apply Polynomial.funext
    intro x
    rw [eval_comp]
    simpa using heven x
  have h1 : M.charpoly.coeff 1 = 0 := by
    have h2 := congrArg (fun p => eval 0 (derivative p)) hcomp
    simp only [derivative_comp, derivative_neg, derivative_X, eval_mul, eval_neg, eval_one, eval_comp, eval_X, neg_zero] at h2
    have h3 : eval 0 (derivative M.charpoly) = M.charpoly.coeff 1 := by
      rw [← coeff_zero_eq_eval_zero, coeff_derivative]; simp
    rw [h3] at h2
    linear_combination (-1 / 2 : ℂ) * h2
  have h0 : M.charpoly.coeff 0 = 0 := by
    have := Matrix.det_eq_sign_charpoly_coeff M
    rw [hd] at this
    rcases mul_eq_zero.1 this.symm with h | h
    · exact absurd h (pow_ne_zero _ (by norm_num))
    · exact h
  rw [count_roots, le_rootMultiplicity_iff (Matrix.charpoly_monic M).ne_zero, map_zero, sub_zero, X_pow_dvd_iff]
  intro d hd
  interval_cases d
  · exact h0
  · exact h1

variable {eigvals : {n : ℕ} → Matrix (Fin n) (Fin n) ℂ → Except PyErr (List ℂ)}

/-- The row sums of the adjacency matrix are the numbers of neighbours. -/
theorem row_sum_le {G : NxGraph ℕ} (hn : Spec.IsNumbered G) (hw : ∀ e ∈ G.edges, G.weight e.1 e.2 = 1)
    (hs : Spec.IsSimple G) {D : ℕ} (hD : ∀ u ∈ G.nodes, {v | G.hasEdge u v}.encard ≤ D) (i : Fin G.nodes.length) :
    (∀ j, |G.adjacency i j| ≤ 1) ∧ ∑ j, |G.adjacency i j| ≤ D := by
  classical
  have h1 : ∀ j, |G.adjacency i j| = if G.hasEdge i.1 j.1 then 1 else 0 := by
    intro j
    rw [adjacency_numbered hn]
    split
    · rename_i h
      rcases h with h | h
      · rw [hw _ h, abs_one]
      · rw [hs.weight_symm, hw _ h, abs_one]
    · simp
  refine ⟨fun j => by rw [h1]; split <;> norm_num, ?_⟩
  simp only [h1]
  rw [Finset.sum_boole]
  have h2 : ((Finset.univ.filter fun j : Fin G.nodes.length => G.hasEdge i.1 j.1).card : ℕ∞) ≤ D := by
    refine le_trans ?_ (hD i.1 ?_)
    · rw [← Set.encard_coe_eq_coe_finsetCard]
      refine Set.encard_le_encard_of_injOn (f := fun j : Fin G.nodes.length => j.1) (fun j hj => ?_)
        (fun a _ b _ h => Fin.ext h)
      simpa using hj
    · exact (congrArg (fun l => i.1 ∈ l) hn).mpr (List.mem_range.2 i.2)
  exact_mod_cast h2

/-- The product of the eigenvalues returned for the signed adjacency matrix. -/
theorem count_within {η : ℝ} (hη : 0 ≤ η) {nx : Nx} (hnx : Spec.NxContract nx) {G : NxGraph ℕ} (hs : Spec.IsSimple G)
    (hn : Spec.IsNumbered G) (hc : G.isConnected) (he : G.edges ≠ []) (hp : (nx.checkPlanarity G).isSome)
    (hw : ∀ e ∈ G.edges, G.weight e.1 e.2 = 1) {D : ℕ} (hD : ∀ u ∈ G.nodes, {v | G.hasEdge u v}.encard ≤ D)
    (hev : Spec.EigvalsWithin η G.nodes.length eigvals) :
    ∃ P : ℂ, countPerfectMatchingsPlanar eigvals nx G = clean (.complex (P ^ (1 / 2 : ℂ))) (.int 10) ∧
      ‖P - ((Spec.matchings G).card : ℝ) ^ 2‖ ≤ (D + η) ^ G.nodes.length - D ^ G.nodes.length ∧
      (Spec.matchings G = ∅ → Even G.nodes.length → ‖P‖ ≤ η ^ 2 * (D + η) ^ (G.nodes.length - 2)) := by
  obtain ⟨M, hdet, hskew, habs, hcount⟩ := count_planar_matrix hnx hs hn hc he hp
  have hrow := row_sum_le hn hw hs hD
  obtain ⟨l, l', hl, hroots, hnear⟩ := hev (M.map fun x : ℝ => (x : ℂ)) fun i j => by
    rw [Matrix.map_apply, Complex.norm_real, Real.norm_eq_abs, habs]
    exact (hrow i).1 j
  have hcard : (Spec.matchingWeight G) = (Spec.matchings G).card := by
    rw [Spec.matchingWeight, Finset.card_eq_sum_ones]
    push_cast
    refine Finset.sum_congr rfl fun M hM => Finset.prod_eq_one fun e he => hw e ?_
    simpa using (mem_matchings.1 hM).1 he
  rw [hcard] at hdet
  have hprod : l'.prod = (((Spec.matchings G).card : ℝ) ^ 2 : ℂ) := by
    have h1 : (M.map fun x : ℝ => (x : ℂ)).det = ((M.det : ℝ) : ℂ) := by
      exact (RingHom.map_det Complex.ofRealHom M).symm
    rw [← Multiset.prod_coe, hroots, ← Matrix.det_eq_prod_roots_charpoly, h1, hdet]
    push_cast; rfl
  have hlen : l'.length = G.nodes.length := by
    have h1 : Multiset.card (l' : Multiset ℂ) = G.nodes.length := by
      rw [hroots, IsAlgClosed.card_roots_eq_natDegree, Matrix.charpoly_natDegree_eq_dim, Fintype.card_fin]
    simpa using h1
  have hbound : ∀ b ∈ l', ‖b‖ ≤ (D : ℝ) := by
    intro b hb
    refine norm_root_le M (fun i => ?_) (z := b) (by rw [← hroots]; exact Multiset.mem_coe.2 hb)
    simp only [habs]
    exact (hrow i).2
  have hD0 : (0 : ℝ) ≤ D := Nat.cast_nonneg D
  refine ⟨l.prod, hcount hl, ?_, fun hempty heven => ?_⟩
  · have := (prod_near hη hD0 hnear hbound).1
    rw [hprod, hlen] at this
    exact this
  · have h1 := prod_small hη hD0 hnear hbound
    have h2 : 2 ≤ l'.count 0 := by
      rw [← Multiset.coe_count, hroots]
      refine skew_double_root heven _ ?_ ?_
      · ext i j
        have := congrFun (congrFun hskew i) j
        rw [Matrix.transpose_apply, Matrix.neg_apply] at this
        simp [this]
      · have h3 : (M.map fun x : ℝ => (x : ℂ)).det = ((M.det : ℝ) : ℂ) := by
          exact (RingHom.map_det Complex.ofRealHom M).symm
        rw [h3, hdet, hempty]
        simp
    have h3 : l'.count 0 ≤ l'.length := List.count_le_length
    refine h1.trans ?_
    rw [← hlen]
    obtain ⟨c, hc⟩ := Nat.exists_eq_add_of_le h2
    rw [hc] at h3 ⊢
    have e : l'.length - 2 = c + (l'.length - (2 + c)) := by omega
    rw [e, pow_add η, pow_add _ c, mul_assoc]
    gcongr
    linarith

/-- the eigenvalues of a skew matrix with three rows and entries of modulus 1 -/
theorem skew_three_roots (M : Matrix (Fin 3) (Fin 3) ℝ) (hskew : M.transpose = -M) (h01 : |M 0 1| = 1) (h02 : |M 0 2| = 1)
    (h12 : |M 1 2| = 1) : (M.map fun x : ℝ => (x : ℂ)).charpoly.roots =
      {0, (Real.sqrt 3 : ℂ) * Complex.I, -((Real.sqrt 3 : ℂ) * Complex.I)} := by
  have hs : ∀ i j, M j i = -M i j := fun i j => by
    have := congrFun (congrFun hskew i) j
    simpa using this
  have hd : ∀ i, M i i = 0 := fun i => by linarith [hs i i]
  have sq : ∀ x : ℝ, |x| = 1 → (x : ℂ) ^ 2 = 1 := fun x hx => by
    have : x ^ 2 = 1 := by rw [← sq_abs, hx, one_pow]
    exact_mod_cast this
  have q01 := sq _ h01
  have q02 := sq _ h02
  have q12 := sq _ h12
  have h3 : ((Real.sqrt 3 : ℂ) * Complex.I) ^ 2 = -3 := by
    rw [mul_pow, Complex.I_sq]
    have : ((Real.sqrt 3 : ℝ) : ℂ) ^ 2 = 3 := by exact_mod_cast Real.sq_sqrt (by norm_num : (0 : ℝ) ≤ 3)
    rw [this]; ring
  have hp : (M.map fun x : ℝ => (x : ℂ)).charpoly =
      (({0, (Real.sqrt 3 : ℂ) * Complex.I, -((Real.sqrt 3 : ℂ) * Complex.I)} : Multiset ℂ).map fun a => X - C a).prod := by
    apply Polynomial.funext
    intro x
    rw [Matrix.eval_charpoly, Matrix.det_fin_three]
    generalize (Real.sqrt 3 : ℂ) * Complex.I = t at h3
    simp [hd, hs 0 1, hs 0 2, hs 1 2]
    linear_combination x * q01 + x * q02 + x * q12 + x * h3
  rw [hp, Polynomial.roots_multiset_prod_X_sub_C]

end FF
