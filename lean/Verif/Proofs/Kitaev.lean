import Verif.Proofs.Coefficients3
import Verif.Proofs.Eigen3

/-! # Helper lemmas: the Kitaev chain with equal hopping and pairing -/

namespace FF

open Matrix

variable {n : ℕ}

/-- The array with ones just below the diagonal. -/
def low (n : ℕ) : Op n := Matrix.of fun x y => if (y : ℕ) + 1 = x then 1 else 0

theorem low_apply (x y : Fin n) : low n x y = if (y : ℕ) + 1 = x then 1 else 0 := rfl

theorem low_lowT (x y : Fin n) : (low n * (low n)ᵀ) x y = if x = y ∧ 0 < (x : ℕ) then 1 else 0 := by
  rw [mul_apply]
  simp only [transpose_apply, low_apply]
  by_cases h : x = y ∧ 0 < (x : ℕ)
  · rw [if_pos h]
    rw [Finset.sum_eq_single (⟨x - 1, by omega⟩ : Fin n)]
    · obtain ⟨rfl, h0⟩ := h
      rw [if_pos (by simp; omega), mul_one]
    · intro z _ hz
      rw [if_neg, zero_mul]
      intro e
      exact hz (Fin.ext (by simp; omega))
    · simp
  · rw [if_neg h]
    refine Finset.sum_eq_zero fun z _ => ?_
    by_cases h1 : (z : ℕ) + 1 = x
    · rw [if_neg fun e : (z : ℕ) + 1 = y => h ⟨Fin.ext (by omega), by omega⟩, mul_zero]
    · rw [if_neg h1, zero_mul]

theorem lowT_low (x y : Fin n) : ((low n)ᵀ * low n) x y = if x = y ∧ (x : ℕ) + 1 < n then 1 else 0 := by
  rw [mul_apply]
  simp only [transpose_apply, low_apply]
  by_cases h : x = y ∧ (x : ℕ) + 1 < n
  · rw [if_pos h, Finset.sum_eq_single (⟨x + 1, h.2⟩ : Fin n)]
    · obtain ⟨rfl, h0⟩ := h
      rw [if_pos rfl, mul_one]
    · intro z _ hz
      rw [if_neg, zero_mul]
      intro e
      exact hz (Fin.ext e.symm)
    · simp
  · rw [if_neg h]
    refine Finset.sum_eq_zero fun z _ => ?_
    by_cases h1 : (x : ℕ) + 1 = z
    · rw [if_neg fun e : (y : ℕ) + 1 = z => h ⟨Fin.ext (by omega), by omega⟩, mul_zero]
    · rw [if_neg h1, zero_mul]

theorem low_low_low : low n * (low n)ᵀ * low n = low n := by
  ext x y
  rw [mul_apply]
  simp only [low_lowT]
  rw [Finset.sum_eq_single x]
  · by_cases h : 0 < (x : ℕ)
    · rw [if_pos ⟨rfl, h⟩, one_mul]
    · rw [if_neg fun h' => h h'.2, zero_mul, low_apply, if_neg (by omega)]
  · intro z _ hz
    rw [if_neg fun h => hz h.1.symm, zero_mul]
  · simp

theorem lowT_trace (hn : 1 ≤ n) : ((low n)ᵀ * low n).trace = (n : ℂ) - 1 := by
  obtain ⟨n, rfl⟩ : ∃ m, n = m + 1 := ⟨n - 1, by omega⟩
  rw [trace, Fin.sum_univ_castSucc]
  simp only [diag_apply, lowT_low]
  rw [if_neg (by simp), add_zero, Finset.sum_congr rfl fun (i : Fin n) _ => if_pos ⟨trivial, by simp⟩]
  simp

theorem cj_tri (d u v : ℝ) : cj (tri n d u v) = tri n d u v := by
  ext x y
  simp only [cj, map_apply, tri, of_apply]
  split_ifs <;> simp

theorem tri_low (d u v : ℝ) : tri n d u v = (d : ℂ) • 1 + (u : ℂ) • (low n)ᵀ + (v : ℂ) • low n := by
  ext x y
  simp only [tri, of_apply, Matrix.add_apply, Matrix.smul_apply, transpose_apply, low_apply, one_apply, smul_eq_mul,
    Fin.ext_iff]
  split_ifs <;> first | omega | simp

/-- The coefficient array in terms of `X = A - B` and `Y = A + B`. -/
theorem kitaev_blk (mu t δ : ℝ) :
    kitaevChain n mu t δ = blk (-((-mu : ℂ) • 1 + (-t : ℂ) • (low n)ᵀ + (-t : ℂ) • low n))
      ((δ : ℂ) • (low n)ᵀ - (δ : ℂ) • low n) (-((δ : ℂ) • (low n)ᵀ - (δ : ℂ) • low n))
      ((-mu : ℂ) • 1 + (-t : ℂ) • (low n)ᵀ + (-t : ℂ) • low n) := by
  have h0 : tri n 0 (δ : ℂ) ((-δ : ℝ) : ℂ) = tri n ((0 : ℝ) : ℂ) (δ : ℂ) ((-δ : ℝ) : ℂ) := by simp
  rw [kitaev_eq, h0, buildH, Option.getD_some, cj_tri, cj_tri, tri_low, tri_low]
  congr 1 <;> simp [sub_eq_add_neg]

theorem blk_trace (A B C D : Op n) : (blk A B C D).trace = A.trace + D.trace := by
  rw [trace, Fin.sum_univ_add]
  simp only [diag_apply, blk_11, blk_22]
  rfl

theorem cube_blk {A B : Op n} {c : ℂ} (h1 : (A - B) * (A + B) * (A - B) = c • (A - B))
    (h2 : (A + B) * (A - B) * (A + B) = c • (A + B)) :
    blk (-A) B (-B) A * blk (-A) B (-B) A * blk (-A) B (-B) A = c • blk (-A) B (-B) A := by
  have eA : c • A = (1 / 2 : ℂ) • ((A - B) * (A + B) * (A - B) + (A + B) * (A - B) * (A + B)) := by
    rw [h1, h2]; module
  have eB : c • B = (1 / 2 : ℂ) • ((A + B) * (A - B) * (A + B) - (A - B) * (A + B) * (A - B)) := by
    rw [h1, h2]; module
  rw [blk_mul, blk_mul, blk_smul]
  apply blk_congr
  · rw [smul_neg, eA]
    simp only [mul_add, add_mul, sub_mul, mul_sub, neg_mul, mul_neg]
    module
  · rw [eB]
    simp only [mul_add, add_mul, sub_mul, mul_sub, neg_mul, mul_neg]
    module
  · rw [smul_neg, eB]
    simp only [mul_add, add_mul, sub_mul, mul_sub, neg_mul, mul_neg]
    module
  · rw [eA]
    simp only [mul_add, add_mul, sub_mul, mul_sub, neg_mul, mul_neg]
    module

theorem kitaev_cube (t δ : ℝ) (hδ : δ = t ∨ δ = -t) : kitaevChain n 0 t δ * kitaevChain n 0 t δ * kitaevChain n 0 t δ =
    (4 * t ^ 2 : ℂ) • kitaevChain n 0 t δ := by
  have h1 : low n * (low n)ᵀ * low n = low n := low_low_low
  have h2 : (low n)ᵀ * low n * (low n)ᵀ = (low n)ᵀ := by
    have := congrArg transpose (low_low_low (n := n))
    rwa [transpose_mul, transpose_mul, transpose_transpose, ← Matrix.mul_assoc] at this
  have hX : ∀ P Q : Op n, P * Q * P = P → ((-2 * t : ℂ) • P) * ((-2 * t : ℂ) • Q) * ((-2 * t : ℂ) • P) =
      (4 * t ^ 2 : ℂ) • ((-2 * t : ℂ) • P) := by
    intro P Q h
    simp only [Matrix.smul_mul, Matrix.mul_smul, smul_smul, h]
    congr 1
    ring
  rw [kitaev_blk]
  simp only [Complex.ofReal_zero, neg_zero, zero_smul, zero_add]
  apply cube_blk
  · rcases hδ with rfl | rfl
    · convert hX _ _ h2 using 2
      · congr 1 <;> module
      · module
      · module
    · convert hX _ _ h1 using 2
      · congr 1
        · push_cast; module
        · push_cast; module
      · push_cast; module
      · push_cast; module
  · rcases hδ with rfl | rfl
    · convert hX _ _ h1 using 2
      · congr 1 <;> module
      · module
      · module
    · convert hX _ _ h2 using 2
      · congr 1
        · push_cast; module
        · push_cast; module
      · push_cast; module
      · push_cast; module

theorem kitaev_trace (hn : 1 ≤ n) (t δ : ℝ) (hδ : δ = t ∨ δ = -t) :
    (kitaevChain n 0 t δ * kitaevChain n 0 t δ).trace = 8 * t ^ 2 * ((n : ℂ) - 1) := by
  have ht := lowT_trace hn
  have ht' : (low n * (low n)ᵀ).trace = (n : ℂ) - 1 := by rw [trace_mul_comm, ht]
  have hsq : (low n * low n).trace = 0 := by
    rw [trace]
    refine Finset.sum_eq_zero fun x _ => ?_
    rw [diag_apply, mul_apply]
    refine Finset.sum_eq_zero fun y _ => ?_
    rw [low_apply, low_apply]
    by_cases h : (y : ℕ) + 1 = x
    · rw [if_neg (by omega : ¬ (x : ℕ) + 1 = y), mul_zero]
    · rw [if_neg h, zero_mul]
  have hsq' : ((low n)ᵀ * (low n)ᵀ).trace = 0 := by
    rw [← transpose_mul, trace_transpose, hsq]
  have hd : (δ : ℂ) * δ = t * t := by rcases hδ with rfl | rfl <;> push_cast <;> ring
  rw [kitaev_blk, blk_mul, blk_trace]
  simp only [Complex.ofReal_zero, neg_zero, zero_smul, zero_add, mul_add, add_mul, sub_mul, mul_sub, neg_mul, mul_neg,
    Matrix.smul_mul, Matrix.mul_smul, trace_add, trace_sub, trace_neg, trace_smul, hsq, hsq', ht, ht', smul_eq_mul,
    neg_add, mul_zero]
  linear_combination (4 * ((n : ℂ) - 1)) * hd

theorem kitaev_kernel {mu t δ : ℝ} (hmu : mu ≠ 0) (hδ : δ = t ∨ δ = -t) {v : Fin (n + n) → ℂ}
    (hv : kitaevChain n mu t δ *ᵥ v = 0) : v = 0 := by
  have hdet : ∀ c : ℂ, IsUnit ((-mu : ℂ) • (1 : Op n) + c • low n).det := by
    intro c
    rw [det_of_isLowerTriangular]
    · simp [low_apply, hmu]
    · intro x y h
      have h' : (x : ℕ) < y := h
      simp [low_apply, one_apply, Fin.ext_iff, h'.ne, show ¬ (y : ℕ) + 1 = x by omega]
  have hdet' : ∀ c : ℂ, IsUnit ((-mu : ℂ) • (1 : Op n) + c • (low n)ᵀ).det := by
    intro c
    have := hdet c
    rwa [← det_transpose, transpose_add, transpose_smul, transpose_smul, transpose_one] at this
  have hker : ∀ {M : Op n} {w : Fin n → ℂ}, IsUnit M.det → M *ᵥ w = 0 → w = 0 := by
    intro M w hM hw
    have := congrArg (fun u => M⁻¹ *ᵥ u) hw
    simpa [mulVec_mulVec, nonsing_inv_mul _ hM] using this
  rw [kitaev_blk] at hv
  set A : Op n := (-mu : ℂ) • 1 + (-t : ℂ) • (low n)ᵀ + (-t : ℂ) • low n with hA
  set B : Op n := (δ : ℂ) • (low n)ᵀ - (δ : ℂ) • low n with hB
  set p : Fin n → ℂ := fun i => v (Fin.castAdd n i) with hp
  set q : Fin n → ℂ := fun i => v (Fin.natAdd n i) with hq
  have h1 : -(A *ᵥ p) + B *ᵥ q = 0 := by
    funext i
    have := congrFun hv (Fin.castAdd n i)
    rw [mulVec, dotProduct, Fin.sum_univ_add] at this
    simp only [blk_11, blk_12] at this
    rw [← neg_mulVec]
    exact this
  have h2 : -(B *ᵥ p) + A *ᵥ q = 0 := by
    funext i
    have := congrFun hv (Fin.natAdd n i)
    rw [mulVec, dotProduct, Fin.sum_univ_add] at this
    simp only [blk_21, blk_22] at this
    rw [← neg_mulVec]
    exact this
  have h3 : (A + B) *ᵥ (q - p) = 0 := by
    have := congrArg₂ (· + ·) h1 h2
    simp only [add_zero] at this
    rw [← this, add_mulVec, mulVec_sub, mulVec_sub]
    abel
  have h4 : (A - B) *ᵥ (q + p) = 0 := by
    have := congrArg₂ (· - ·) h2 h1
    simp only [sub_zero] at this
    rw [← this, sub_mulVec, mulVec_add, mulVec_add]
    abel
  have h5 : q - p = 0 ∧ q + p = 0 := by
    rcases hδ with rfl | rfl
    · refine ⟨hker ?_ h3, hker ?_ h4⟩
      · rw [hA, hB, show (-mu : ℂ) • (1 : Op n) + (-δ : ℂ) • (low n)ᵀ + (-δ : ℂ) • low n +
          ((δ : ℂ) • (low n)ᵀ - (δ : ℂ) • low n) = (-mu : ℂ) • 1 + (-2 * δ : ℂ) • low n by module]
        exact hdet _
      · rw [hA, hB, show (-mu : ℂ) • (1 : Op n) + (-δ : ℂ) • (low n)ᵀ + (-δ : ℂ) • low n -
          ((δ : ℂ) • (low n)ᵀ - (δ : ℂ) • low n) = (-mu : ℂ) • 1 + (-2 * δ : ℂ) • (low n)ᵀ by module]
        exact hdet' _
    · refine ⟨hker ?_ h3, hker ?_ h4⟩
      · rw [hA, hB, show (-mu : ℂ) • (1 : Op n) + (-t : ℂ) • (low n)ᵀ + (-t : ℂ) • low n +
          (((-t : ℝ) : ℂ) • (low n)ᵀ - ((-t : ℝ) : ℂ) • low n) = (-mu : ℂ) • 1 + (-2 * t : ℂ) • (low n)ᵀ by
            push_cast; module]
        exact hdet' _
      · rw [hA, hB, show (-mu : ℂ) • (1 : Op n) + (-t : ℂ) • (low n)ᵀ + (-t : ℂ) • low n -
          (((-t : ℝ) : ℂ) • (low n)ᵀ - ((-t : ℝ) : ℂ) • low n) = (-mu : ℂ) • 1 + (-2 * t : ℂ) • low n by
            push_cast; module]
        exact hdet _
  have hq0 : ∀ i, q i = 0 := fun i => by
    have e1 := congrFun h5.1 i
    have e2 := congrFun h5.2 i
    simp only [Pi.sub_apply, Pi.add_apply, Pi.zero_apply] at e1 e2
    linear_combination (e1 + e2) / 2
  have hp0 : ∀ i, p i = 0 := fun i => by
    have e1 := congrFun h5.1 i
    simp only [Pi.sub_apply, Pi.zero_apply] at e1
    linear_combination hq0 i - e1
  funext x
  refine Fin.addCases (fun i => hp0 i) (fun i => hq0 i) x

end FF
