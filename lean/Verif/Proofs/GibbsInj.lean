import Verif.Proofs.TraceNorm
import Verif.Proofs.LogRot
import Verif.Proofs.Matchgate
import Verif.Proofs.Random2
import Verif.Proofs.Coefficients4

/-! # Helper lemmas: Hermitian logarithms, and Gibbs states determine their Hamiltonians -/

namespace FF

open Matrix
open scoped ComplexConjugate ComplexOrder

theorem expm_diagonal {d : ℕ} (v : Fin d → ℂ) : expm (diagonal v) = diagonal fun i => Complex.exp (v i) := by
  rw [expm, Matrix.exp_diagonal]
  congr 1
  funext i
  rw [Pi.coe_exp, Complex.exp_eq_exp_ℂ]

theorem expm_unitary_conj {d : ℕ} {U : Op d} (h1 : U * Uᴴ = 1) (h2 : Uᴴ * U = 1) (D : Op d) :
    expm (U * D * Uᴴ) = U * expm D * Uᴴ := by
  have := expm_intertwine (U * D * Uᴴ) D U (by rw [mul_assoc, h2, mul_one])
  rw [← this, mul_assoc _ U, h1, mul_one]

/-- Hermitian logarithms are unique. -/
theorem expm_herm_inj {d : ℕ} {M N : Op d} (hM : M.IsHermitian) (hN : N.IsHermitian) (h : expm M = expm N) : M = N := by
  obtain ⟨U, l, u1, u2, rfl, -⟩ := herm_diag hM
  obtain ⟨W, m, w1, w2, rfl, -⟩ := herm_diag hN
  rw [expm_unitary_conj u1 u2, expm_unitary_conj w1 w2, expm_diagonal, expm_diagonal] at h
  have hX : diagonal (fun i => Complex.exp (l i)) * (Uᴴ * W) = (Uᴴ * W) * diagonal fun i => Complex.exp (m i) := by
    calc diagonal (fun i => Complex.exp (l i)) * (Uᴴ * W)
        = Uᴴ * (U * diagonal (fun i => Complex.exp (l i)) * Uᴴ) * W := by
          simp only [← mul_assoc]; rw [u2, one_mul]
      _ = Uᴴ * (W * diagonal (fun i => Complex.exp (m i)) * Wᴴ) * W := by rw [h]
      _ = _ := by simp only [mul_assoc]; rw [w2, mul_one]
  have hY : diagonal (fun i => (l i : ℂ)) * (Uᴴ * W) = (Uᴴ * W) * diagonal fun i => (m i : ℂ) := by
    ext i j
    have := congrFun (congrFun hX i) j
    rw [diagonal_mul, mul_diagonal] at this ⊢
    rcases eq_or_ne ((Uᴴ * W) i j) 0 with h0 | h0
    · rw [h0]; simp
    · rw [mul_comm] at this
      have h3 := mul_left_cancel₀ h0 this
      rw [← Complex.ofReal_exp, ← Complex.ofReal_exp] at h3
      have h4 : l i = m j := Real.exp_injective (by exact_mod_cast h3)
      rw [h4, mul_comm]
  calc U * diagonal (fun i => (l i : ℂ)) * Uᴴ
      = U * (diagonal (fun i => (l i : ℂ)) * (Uᴴ * W)) * Wᴴ := by simp only [mul_assoc]; rw [w1, mul_one]
    _ = U * ((Uᴴ * W) * diagonal fun i => (m i : ℂ)) * Wᴴ := by rw [hY]
    _ = W * diagonal (fun i => (m i : ℂ)) * Wᴴ := by simp only [← mul_assoc]; rw [u1, one_mul]

/-- Hermitian logarithms exist. -/
theorem herm_log_exists {d : ℕ} {X : Op d} (hX : X.PosDef) : ∃ M : Op d, M.IsHermitian ∧ expm M = X := by
  obtain ⟨U, l, u1, u2, hXe, -⟩ := herm_diag hX.1
  have hl : ∀ i, 0 < l i := by
    intro i
    have hD : (diagonal fun i => (l i : ℂ)).PosDef := by
      have : diagonal (fun i => (l i : ℂ)) = Uᴴ * X * U := by
        rw [hXe]
        calc diagonal (fun i => (l i : ℂ)) = (Uᴴ * U) * diagonal (fun i => (l i : ℂ)) * (Uᴴ * U) := by
              rw [u2, one_mul, mul_one]
          _ = _ := by simp only [mul_assoc]
      rw [this]
      exact hX.conjTranspose_mul_mul_same (mulVec_injective_of_isUnit ⟨⟨U, Uᴴ, u1, u2⟩, rfl⟩)
    have := (posDef_diagonal_iff.1 hD) i
    exact_mod_cast this
  refine ⟨U * diagonal (fun i => ((Real.log (l i) : ℝ) : ℂ)) * Uᴴ, ?_, ?_⟩
  · rw [IsHermitian, conjTranspose_mul, conjTranspose_mul, conjTranspose_conjTranspose, diagonal_conjTranspose,
      ← mul_assoc]
    congr 2
    congr 1
    funext i
    simp
  · rw [expm_unitary_conj u1 u2, expm_diagonal, hXe]
    congr 2
    congr 1
    funext i
    rw [← Complex.ofReal_exp, Real.exp_log (hl i)]

/-- Two Hermitian operators with the same Gibbs state differ by a constant. -/
theorem gibbs_inj {d : ℕ} {G Q : Op d} (hG : G.IsHermitian) (hQ : Q.IsHermitian)
    (h : (expm (-G)).trace⁻¹ • expm (-G) = (expm (-Q)).trace⁻¹ • expm (-Q)) : ∃ c : ℝ, G = Q + (c : ℂ) • 1 := by
  rcases Nat.eq_zero_or_pos d with h0 | h0
  · subst h0
    exact ⟨0, by ext i; exact i.elim0⟩
  haveI : Nonempty (Fin d) := ⟨⟨0, h0⟩⟩
  have t1 : 0 < (expm (-G)).trace := (expm_posDef hG.neg).trace_pos
  have t2 : 0 < (expm (-Q)).trace := (expm_posDef hQ.neg).trace_pos
  obtain ⟨a, ha, ea⟩ : ∃ a : ℝ, 0 < a ∧ (expm (-G)).trace = a := by
    obtain ⟨h1, h2⟩ := Complex.pos_iff.1 t1
    exact ⟨_, h1, Complex.ext rfl h2.symm⟩
  obtain ⟨b, hb, eb⟩ : ∃ b : ℝ, 0 < b ∧ (expm (-Q)).trace = b := by
    obtain ⟨h1, h2⟩ := Complex.pos_iff.1 t2
    exact ⟨_, h1, Complex.ext rfl h2.symm⟩
  rw [ea, eb] at h
  have ha' : (a : ℂ) ≠ 0 := by exact_mod_cast ha.ne'
  have h1 : expm (-G) = ((a / b : ℝ) : ℂ) • expm (-Q) := by
    have := congrArg (fun M => (a : ℂ) • M) h
    simp only [smul_smul] at this
    rw [mul_inv_cancel₀ ha', one_smul] at this
    rw [this]
    push_cast
    rw [div_eq_mul_inv]
  have hr : 0 < a / b := div_pos ha hb
  have h2 : expm (-G) = expm (-Q + ((Real.log (a / b) : ℝ) : ℂ) • 1) := by
    have hc : Commute (-Q) (((Real.log (a / b) : ℝ) : ℂ) • (1 : Op d)) := (Commute.one_right _).smul_right _
    have h3 := Matrix.exp_add_of_commute _ _ hc
    change expm (-Q + _) = expm (-Q) * expm _ at h3
    rw [h3, expm_scalar, Matrix.mul_smul, mul_one, h1, ← Complex.ofReal_exp, Real.exp_log hr]
  have h3 := expm_herm_inj hG.neg (hQ.neg.add (by
    rw [IsHermitian, conjTranspose_smul, conjTranspose_one]; simp)) h2
  refine ⟨-Real.log (a / b), ?_⟩
  rw [← neg_neg G, h3, neg_add, neg_neg]
  push_cast
  rw [neg_smul]

/-- Hermitian arrays with particle-hole symmetry are the arrays `build_H(n, A, B)`. -/
theorem buildH_of_ph {n : ℕ} {H : Op (n + n)} (hH : H.IsHermitian) (hp : swapS n * Hᵀ * swapS n = -H) :
    ∃ A B : Op n, A.IsHermitian ∧ Bᵀ = -B ∧ H = buildH n A (some B) := by
  obtain ⟨P, Q, R, T, hb⟩ := exists_blk H
  rw [hb] at hp
  rw [IsHermitian, hb, blk_conjTranspose] at hH
  rw [blk_transpose, swapS, blk_mul, blk_mul, blk_neg] at hp
  simp only [zero_mul, mul_zero, one_mul, mul_one, zero_add, add_zero] at hp
  obtain ⟨h1, h2, h3, h4⟩ := blk_inj.1 hp
  obtain ⟨g1, g2, g3, g4⟩ := blk_inj.1 hH
  refine ⟨T, Q, g4, h2, ?_⟩
  have hc : ∀ M : Op n, cj M = Mᴴᵀ := fun M => by ext i j; simp [cj]
  rw [hb, buildH]
  simp only [Option.getD_some]
  apply blk_congr
  · rw [hc, g4, h1, neg_neg]
  · rfl
  · rw [hc, g3, h3, neg_neg]
  · rfl

theorem expm_neg_mul {d : ℕ} (K : Op d) : expm K * expm (-K) = 1 := by
  rw [expm, expm, ← Matrix.exp_add_of_commute _ _ (Commute.neg_right (Commute.refl K)), add_neg_cancel,
    NormedSpace.exp_zero]

theorem one_add_expm_posDef {d : ℕ} {K : Op d} (hK : K.IsHermitian) : (1 + expm K).PosDef :=
  PosDef.one.add_posSemidef (expm_posDef hK).posSemidef

/-- The Fermi functions of `K` and `-K` add up to one. -/
theorem fermi_add {d : ℕ} {K : Op d} (hK : K.IsHermitian) : (1 + expm (-K))⁻¹ + (1 + expm K)⁻¹ = 1 := by
  have u1 : IsUnit (1 + expm (-K)).det := (one_add_expm_posDef hK.neg).isUnit.map detMonoidHom
  have u2 : IsUnit (1 + expm K).det := (one_add_expm_posDef hK).isUnit.map detMonoidHom
  have h1 : (1 + expm (-K))⁻¹ = (1 + expm K)⁻¹ * expm K := by
    apply inv_eq_left_inv
    rw [mul_assoc, mul_add, mul_one, expm_neg_mul, add_comm (expm K), nonsing_inv_mul _ u2]
  rw [h1]
  calc (1 + expm K)⁻¹ * expm K + (1 + expm K)⁻¹ = (1 + expm K)⁻¹ * (1 + expm K) := by
        rw [mul_add, mul_one, add_comm]
    _ = 1 := nonsing_inv_mul _ u2

theorem fermi_inj {d : ℕ} {K L : Op d} (hK : K.IsHermitian) (hL : L.IsHermitian)
    (h : (1 + expm (-K))⁻¹ = (1 + expm (-L))⁻¹) : K = L := by
  have u1 : IsUnit (1 + expm (-K)).det := (one_add_expm_posDef hK.neg).isUnit.map detMonoidHom
  have u2 : IsUnit (1 + expm (-L)).det := (one_add_expm_posDef hL.neg).isUnit.map detMonoidHom
  have h1 : 1 + expm (-K) = 1 + expm (-L) := by
    rw [← nonsing_inv_nonsing_inv _ u1, h, nonsing_inv_nonsing_inv _ u2]
  exact neg_injective (expm_herm_inj hK.neg hL.neg (add_left_cancel h1))

/-- Every Hermitian array strictly between 0 and 1 is a Fermi function. -/
theorem fermi_exists {d : ℕ} {P : Op d} (h0 : P.PosDef) (h1 : (1 - P).PosDef) :
    ∃ K : Op d, K.IsHermitian ∧ P = (1 + expm (-K))⁻¹ := by
  have u : IsUnit P.det := h0.isUnit.map detMonoidHom
  have hX : (P⁻¹ - 1).PosDef := by
    obtain ⟨U, l, u1, u2, hP, -⟩ := herm_diag h0.1
    have hconj : ∀ X : Op d, X.PosDef → (Uᴴ * X * U).PosDef := fun X hX =>
      hX.conjTranspose_mul_mul_same (mulVec_injective_of_isUnit ⟨⟨U, Uᴴ, u1, u2⟩, rfl⟩)
    have hback : ∀ D : Op d, Uᴴ * (U * D * Uᴴ) * U = D := fun D => by
      calc Uᴴ * (U * D * Uᴴ) * U = (Uᴴ * U) * D * (Uᴴ * U) := by simp only [mul_assoc]
        _ = D := by rw [u2, one_mul, mul_one]
    have hl0 : ∀ i, 0 < l i := by
      have := hconj P h0
      rw [hP, hback] at this
      intro i
      exact_mod_cast (posDef_diagonal_iff.1 this) i
    have hl1 : ∀ i, l i < 1 := by
      have := hconj _ h1
      have e : Uᴴ * (1 - P) * U = diagonal fun i => ((1 - l i : ℝ) : ℂ) := by
        rw [Matrix.mul_sub, mul_one, Matrix.sub_mul, u2, hP, hback, ← diagonal_one, diagonal_sub]
        congr 1; funext i; push_cast; rfl
      rw [e] at this
      intro i
      have h2 : 0 < 1 - l i := by exact_mod_cast (posDef_diagonal_iff.1 this) i
      linarith
    have hinv : P⁻¹ - 1 = U * diagonal (fun i => ((1 / l i - 1 : ℝ) : ℂ)) * Uᴴ := by
      have e1 : P⁻¹ = U * diagonal (fun i => ((1 / l i : ℝ) : ℂ)) * Uᴴ := by
        apply inv_eq_right_inv
        rw [hP]
        calc U * diagonal (fun i => (l i : ℂ)) * Uᴴ * (U * diagonal (fun i => ((1 / l i : ℝ) : ℂ)) * Uᴴ)
            = U * diagonal (fun i => (l i : ℂ)) * (Uᴴ * U) * diagonal (fun i => ((1 / l i : ℝ) : ℂ)) * Uᴴ := by
              simp only [mul_assoc]
          _ = U * (diagonal (fun i => (l i : ℂ)) * diagonal (fun i => ((1 / l i : ℝ) : ℂ))) * Uᴴ := by
              rw [u2, mul_one]; simp only [mul_assoc]
          _ = 1 := by
              rw [diagonal_mul_diagonal]
              have : (fun i => (l i : ℂ) * ((1 / l i : ℝ) : ℂ)) = fun _ => 1 := by
                funext i
                have : (l i : ℂ) ≠ 0 := by exact_mod_cast (hl0 i).ne'
                push_cast
                field_simp
              rw [this, diagonal_one, mul_one, u1]
      have e2 : (1 : Op d) = U * diagonal (fun _ => (1 : ℂ)) * Uᴴ := by rw [diagonal_one, mul_one, u1]
      rw [e1]
      rw [e2]
      rw [← Matrix.sub_mul, ← Matrix.mul_sub, diagonal_sub]
      congr 3; funext i; push_cast; rfl
    rw [hinv]
    have hD : (diagonal fun i => ((1 / l i - 1 : ℝ) : ℂ)).PosDef := by
      refine posDef_diagonal_iff.2 fun i => ?_
      have h2 : 0 < 1 / l i - 1 := by
        rw [sub_pos, lt_div_iff₀ (hl0 i), one_mul]
        exact hl1 i
      exact_mod_cast h2
    have := hD.conjTranspose_mul_mul_same (B := Uᴴ) (mulVec_injective_of_isUnit ⟨⟨Uᴴ, U, u2, u1⟩, rfl⟩)
    rwa [conjTranspose_conjTranspose] at this
  obtain ⟨M, hM, hMe⟩ := herm_log_exists hX
  refine ⟨-M, hM.neg, ?_⟩
  rw [neg_neg, hMe, add_sub_cancel, nonsing_inv_nonsing_inv _ u]

/-- Conjugation with the swap and transposition on Fermi functions. -/
theorem fermi_swap {n : ℕ} (K : Op (n + n)) :
    swapS n * ((1 + expm K)⁻¹)ᵀ * swapS n = (1 + expm (swapS n * Kᵀ * swapS n))⁻¹ := by
  have hS : swapS n * swapS n = 1 := swapS_sq
  have hSi : (swapS n)⁻¹ = swapS n := inv_eq_left_inv hS
  have h1 : expm (swapS n * Kᵀ * swapS n) = swapS n * (expm K)ᵀ * swapS n := by
    have := expm_intertwine (swapS n * Kᵀ * swapS n) Kᵀ (swapS n) (by rw [mul_assoc, hS, mul_one])
    have ht : expm Kᵀ = (expm K)ᵀ := by rw [expm, expm, Matrix.exp_transpose]
    rw [ht] at this
    rw [← this, mul_assoc (expm _), hS, mul_one]
  have h2 : 1 + expm (swapS n * Kᵀ * swapS n) = swapS n * (1 + expm K)ᵀ * swapS n := by
    rw [h1, transpose_add, transpose_one, mul_add, mul_one, add_mul, hS]
  rw [h2, Matrix.mul_inv_rev, Matrix.mul_inv_rev, hSi, transpose_nonsing_inv, mul_assoc]

/-- The operator of one site, entry by entry. -/
theorem quad1_entries (H : Op (1 + 1)) : (Spec.quad H (al 1) : Op 2) = !![H 0 0, 0; 0, H 1 1] := by
  have e0 : (al 1 (Fin.castAdd 1 0) : Op 2) = (jwLower 1 0 : Op 2)ᴴ := al_left (n := 1) 0
  have e2 : (al 1 (Fin.natAdd 1 0) : Op 2) = jwLower 1 0 := al_right (n := 1) 0
  have hj : (jwLower 1 0 : Op 2) = !![0, 1; 0, 0] := by
    rw [jwLower_eq, jwString]
    ext x y
    refine (kronAll_apply _ (n := 1) x y).trans ?_
    rw [Fin.prod_univ_one]
    fin_cases x <;> fin_cases y <;> simp [sMinus_eq, Spec.digit]
  rw [hj] at e0 e2
  have hq : ∀ g : Fin (1 + 1) → Op 2, g (Fin.castAdd 1 0) = !![0, 0; 1, 0] → g (Fin.natAdd 1 0) = !![0, 1; 0, 0] →
      Spec.quad H g = !![H 0 0, 0; 0, H 1 1] := by
    intro g h0 h2
    have g0 : g 0 = !![0, 0; 1, 0] := h0
    have g1 : g 1 = !![0, 1; 0, 0] := h2
    have hs : ∀ F : Fin (1 + 1) → Op 2, ∑ i, F i = F 0 + F 1 := fun F => Fin.sum_univ_two F
    rw [Spec.quad, hs, hs, hs]
    have e : ∀ G : Fin 2 → Op 2, G 0 = !![0, 0; 1, 0] → G 1 = !![0, 1; 0, 0] → ∀ K : Op 2,
        K 0 0 • ((G 0)ᴴ * G 0) + K 0 1 • ((G 0)ᴴ * G 1) + (K 1 0 • ((G 1)ᴴ * G 0) + K 1 1 • ((G 1)ᴴ * G 1)) =
          !![K 0 0, 0; 0, K 1 1] := by
      intro G a0 a1 K
      rw [a0, a1]
      ext x y
      fin_cases x <;> fin_cases y <;>
        simp [Matrix.mul_apply, Fin.sum_univ_two, Matrix.add_apply, Matrix.smul_apply, conjTranspose_apply]
    exact e g g0 g1 H
  refine hq (al 1) (e0.trans ?_) e2
  ext x y
  fin_cases x <;> fin_cases y <;> simp

/-- The operator of two sites, entry by entry. -/
theorem quad2_entries (A B C D : Op 2) : (Spec.quad (blk A B C D) (al 2) : Op 4) =
    !![A 0 0 + A 1 1, 0, 0, B 1 0 - B 0 1; 0, A 0 0 + D 1 1, D 1 0 - A 0 1, 0;
      0, D 0 1 - A 1 0, D 0 0 + A 1 1, 0; C 0 1 - C 1 0, 0, 0, D 0 0 + D 1 1] := by
  have e0 : (al 2 (Fin.castAdd 2 0) : Op 4) = (jwLower 2 0 : Op 4)ᴴ := al_left (n := 2) 0
  have e1 : (al 2 (Fin.castAdd 2 1) : Op 4) = (jwLower 2 1 : Op 4)ᴴ := al_left (n := 2) 1
  have e2 : (al 2 (Fin.natAdd 2 0) : Op 4) = jwLower 2 0 := al_right (n := 2) 0
  have e3 : (al 2 (Fin.natAdd 2 1) : Op 4) = jwLower 2 1 := al_right (n := 2) 1
  rw [jw2_zero] at e0 e2
  rw [jw2_one] at e1 e3
  have hq : ∀ g : Fin (2 + 2) → Op 4, g (Fin.castAdd 2 0) = !![0, 0, 0, 0; 0, 0, 0, 0; 1, 0, 0, 0; 0, 1, 0, 0] →
      g (Fin.castAdd 2 1) = !![0, 0, 0, 0; 1, 0, 0, 0; 0, 0, 0, 0; 0, 0, -1, 0] →
      g (Fin.natAdd 2 0) = !![0, 0, 1, 0; 0, 0, 0, 1; 0, 0, 0, 0; 0, 0, 0, 0] →
      g (Fin.natAdd 2 1) = !![0, 1, 0, 0; 0, 0, 0, 0; 0, 0, 0, -1; 0, 0, 0, 0] →
      Spec.quad (blk A B C D) g = !![A 0 0 + A 1 1, 0, 0, B 1 0 - B 0 1; 0, A 0 0 + D 1 1, D 1 0 - A 0 1, 0;
        0, D 0 1 - A 1 0, D 0 0 + A 1 1, 0; C 0 1 - C 1 0, 0, 0, D 0 0 + D 1 1] := by
    intro g h0 h1 h2 h3
    rw [Spec.quad, Fin.sum_univ_add]
    simp only [Fin.sum_univ_add, Fin.sum_univ_two, h0, h1, h2, h3, blk_11, blk_12, blk_21, blk_22]
    ext x y
    fin_cases x <;> fin_cases y <;>
      simp [Matrix.mul_apply, Fin.sum_univ_four, Matrix.add_apply, Matrix.smul_apply, conjTranspose_apply]
    all_goals ring
  refine hq (al 2) (e0.trans ?_) (e1.trans ?_) e2 e3 <;>
    ext x y <;> fin_cases x <;> fin_cases y <;> simp

end FF
