import Verif.Proofs.Subadditive
import Mathlib.LinearAlgebra.Matrix.Charpoly.Basic

/-! # Proofs: the two parts of a pure state have the same eigenvalues apart from zeros -/

namespace FF

open Matrix Finset
open scoped ComplexOrder

variable {a b : ℕ}

/-- The components of a vector of two parts as a matrix. -/
def partsMat (ψ : Fin (a * b) → ℂ) : Matrix (Fin a) (Fin b) ℂ := Matrix.of fun i j => ψ (finProdFinEquiv (i, j))

theorem pt2_proj (ψ : Fin (a * b) → ℂ) : pt2 (Spec.proj ψ) = partsMat ψ * (partsMat ψ)ᴴ := by
  ext i j
  rw [pt2, sum_apply2, mul_apply]
  rfl

theorem pt1_proj (ψ : Fin (a * b) → ℂ) : pt1 (Spec.proj ψ) = ((partsMat ψ)ᴴ * partsMat ψ)ᵀ := by
  ext i j
  rw [pt1, sum_apply2, transpose_apply, mul_apply]
  exact sum_congr rfl fun k _ => mul_comm (partsMat ψ k i) (star (partsMat ψ k j))

/-- The eigenvalues of the two parts agree apart from zeros. -/
theorem parts_multiset {ψ : Fin (a * b) → ℂ} {k : Fin a → ℝ} {m : Fin b → ℝ} (hk : Spec.IsSpectrum (pt2 (Spec.proj ψ)) k)
    (hm : Spec.IsSpectrum (pt1 (Spec.proj ψ)) m) :
    Multiset.replicate b (0 : ℝ) + univ.val.map k = Multiset.replicate a (0 : ℝ) + univ.val.map m := by
  have h := charpoly_mul_comm' (partsMat ψ) (partsMat ψ)ᴴ
  rw [← pt2_proj, ← charpoly_transpose ((partsMat ψ)ᴴ * partsMat ψ), ← pt1_proj, hk.2, hm.2, Fintype.card_fin, Fintype.card_fin] at h
  have e : ∀ {c d : ℕ} (r : Fin c → ℝ), (Polynomial.X ^ d * ∏ i, (Polynomial.X - Polynomial.C ((r i : ℝ) : ℂ))).roots =
      Multiset.replicate d 0 + Finset.univ.val.map fun i => ((r i : ℝ) : ℂ) := by
    intro c d r
    have h0 : ∏ i, (Polynomial.X - Polynomial.C ((r i : ℝ) : ℂ)) ≠ 0 := Finset.prod_ne_zero_iff.2 fun k _ => Polynomial.X_sub_C_ne_zero _
    rw [Polynomial.roots_mul (mul_ne_zero (pow_ne_zero _ Polynomial.X_ne_zero) h0), Polynomial.roots_pow, Polynomial.roots_X,
      Polynomial.roots_prod _ _ h0, Multiset.nsmul_singleton]
    simp [Multiset.bind_singleton]
  have h1 := congrArg (Multiset.map Complex.re) (congrArg Polynomial.roots h)
  rw [e, e, Multiset.map_add, Multiset.map_add, Multiset.map_map, Multiset.map_map] at h1
  simpa [Function.comp_def] using h1

theorem padded_sum {k : Fin a → ℝ} {m : Fin b → ℝ}
    (h : Multiset.replicate b (0 : ℝ) + univ.val.map k = Multiset.replicate a (0 : ℝ) + univ.val.map m) {f : ℝ → ℝ} (hf : f 0 = 0) :
    ∑ i, f (k i) = ∑ j, f (m j) := by
  have h1 := congrArg (fun s => (Multiset.map f s).sum) h
  simp only [Multiset.map_add, Multiset.sum_add, Multiset.map_replicate, hf, Multiset.sum_replicate, smul_zero, zero_add, Multiset.map_map] at h1
  exact h1

theorem padded_renyi {k : Fin a → ℝ} {m : Fin b → ℝ}
    (h : Multiset.replicate b (0 : ℝ) + univ.val.map k = Multiset.replicate a (0 : ℝ) + univ.val.map m) (t : ℝ) :
    Spec.renyi k t = Spec.renyi m t := by
  classical
  rw [Spec.renyi, Spec.renyi]
  split_ifs
  · rw [padded_sum h (f := fun x => x * Real.log x) (by simp)]
  · rw [sum_filter, sum_filter, padded_sum h (f := fun x => if x ≠ 0 then x ^ t else 0) (by simp)]

theorem padded_max {k : Fin a → ℝ} {m : Fin b → ℝ}
    (h : Multiset.replicate b (0 : ℝ) + univ.val.map k = Multiset.replicate a (0 : ℝ) + univ.val.map m) {M : ℝ} (h0 : 0 < M)
    (hM : Spec.IsMax k M) : Spec.IsMax m M := by
  obtain ⟨⟨i, hi⟩, h2⟩ := hM
  constructor
  · have : M ∈ Multiset.replicate b (0 : ℝ) + univ.val.map k := Multiset.mem_add.2 (.inr (Multiset.mem_map.2 ⟨i, mem_univ i, hi⟩))
    rw [h, Multiset.mem_add] at this
    rcases this with h3 | h3
    · exact absurd (Multiset.eq_of_mem_replicate h3) h0.ne'
    · obtain ⟨j, -, hj⟩ := Multiset.mem_map.1 h3
      exact ⟨j, hj⟩
  · intro j
    have : m j ∈ Multiset.replicate a (0 : ℝ) + univ.val.map m := Multiset.mem_add.2 (.inr (Multiset.mem_map.2 ⟨j, mem_univ j, rfl⟩))
    rw [← h, Multiset.mem_add] at this
    rcases this with h3 | h3
    · rw [Multiset.eq_of_mem_replicate h3]; exact h0.le
    · obtain ⟨i, -, hi⟩ := Multiset.mem_map.1 h3
      rw [← hi]; exact h2 i

end FF
