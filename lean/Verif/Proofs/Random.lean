import Verif.Proofs.Log
import Verif.Proofs.Eigen3

/-! # Proofs: random rotations and states -/

namespace FF

open Matrix
open scoped ComplexConjugate

/-! ## running random code -/

section run
variable {σ α β : Type}

@[simp] theorem exec_pure (a : α) (s : σ) : (pure a : Rand σ α).exec s = (.ok a, s) := rfl

@[simp] theorem exec_throw (e : PyErr) (s : σ) : (throw e : Rand σ α).exec s = (.error e, s) := rfl

theorem exec_bind (m : Rand σ α) (f : α → Rand σ β) (s : σ) :
    (m >>= f).exec s = match m.exec s with
      | (.ok a, s') => (f a).exec s'
      | (.error e, s') => (.error e, s') := by
  change (ExceptT.bind m f) s = match m s with
      | (.ok a, s') => (f a) s'
      | (.error e, s') => (.error e, s')
  simp only [ExceptT.bind, ExceptT.mk, bind, StateT.bind]
  rcases (m s) with ⟨_ | _, _⟩ <;> rfl

theorem exec_bind_ok {m : Rand σ α} {f : α → Rand σ β} {s s' : σ} {a : α} (h : m.exec s = (.ok a, s')) :
    (m >>= f).exec s = (f a).exec s' := by
  rw [exec_bind, h]

theorem exec_bind_error {m : Rand σ α} {f : α → Rand σ β} {s s' : σ} {e : PyErr} (h : m.exec s = (.error e, s')) :
    (m >>= f).exec s = (.error e, s') := by
  rw [exec_bind, h]

theorem exec_draw (f : σ → α × σ) (s : σ) : (draw f).exec s = (.ok (f s).1, (f s).2) := rfl

theorem exec_noDraw (x : Except PyErr α) (s : σ) : (noDraw x : Rand σ α).exec s = (x, s) := rfl

theorem exec_noDraw_ok {x : Except PyErr α} {a : α} (h : x = .ok a) (s : σ) :
    (noDraw x : Rand σ α).exec s = (.ok a, s) := by rw [h]; rfl

end run

/-! ## exponentials -/

theorem exp_intertwine' {ι κ : Type} [Fintype ι] [Fintype κ] [DecidableEq ι] [DecidableEq κ]
    (M : Matrix ι ι ℂ) (N : Matrix κ κ ℂ) (X : Matrix ι κ ℂ)
    (h : M * X = X * N) : NormedSpace.exp M * X = X * NormedSpace.exp N := by
  letI := Matrix.linftyOpNormedRing (n := ι) (α := ℂ)
  letI := Matrix.linftyOpNormedAlgebra (n := ι) (R := ℂ) (α := ℂ)
  letI := Matrix.linftyOpNormedRing (n := κ) (α := ℂ)
  letI := Matrix.linftyOpNormedAlgebra (n := κ) (R := ℂ) (α := ℂ)
  have hp : ∀ j : ℕ, M ^ j * X = X * N ^ j := by
    intro j
    induction j with
    | zero => simp
    | succ j ih => rw [pow_succ, Matrix.mul_assoc, h, ← Matrix.mul_assoc, ih, Matrix.mul_assoc, ← pow_succ]
  have h1 := (NormedSpace.exp_series_hasSum_exp' (𝕂 := ℂ) M).map
    (Matrix.addMonoidHomMulRight X) (continuous_id.matrix_mul continuous_const)
  have h2 := (NormedSpace.exp_series_hasSum_exp' (𝕂 := ℂ) N).map
    (Matrix.addMonoidHomMulLeft X) (continuous_const.matrix_mul continuous_id)
  have hfun : (⇑X.addMonoidHomMulRight ∘ fun n : ℕ => ((n.factorial : ℂ)⁻¹) • M ^ n) =
      (⇑X.addMonoidHomMulLeft ∘ fun n : ℕ => ((n.factorial : ℂ)⁻¹) • N ^ n) := by
    funext j
    simp [addMonoidHomMulRight, addMonoidHomMulLeft, Matrix.smul_mul, Matrix.mul_smul, hp]
  rw [hfun] at h1
  exact h1.unique h2

/-- If `f_k G = G f_k + Σ_l R_kl f_l` then `f_k exp(G) = exp(G) Σ_l exp(R)_kl f_l`. -/
theorem heisenberg {m d : ℕ} (G : Op d) (R : Op m) (f : Fin m → Op d)
    (h : ∀ k, f k * G = G * f k + ∑ l, R k l • f l) (k : Fin m) :
    f k * expm G = expm G * ∑ l, expm R k l • f l := by
  classical
  -- block column of the operators
  set X : Matrix (Fin m × Fin d) (Fin d) ℂ := Matrix.of fun p y => f p.1 p.2 y with hX
  set A : Matrix (Fin m × Fin d) (Fin m × Fin d) ℂ :=
    Matrix.of fun p q => if p.1 = q.1 then G p.2 q.2 else 0 with hA
  set B : Matrix (Fin m × Fin d) (Fin m × Fin d) ℂ :=
    Matrix.of fun p q => if p.2 = q.2 then R p.1 q.1 else 0 with hB
  have hAB : A * B = B * A := by
    ext p q
    simp only [hA, hB, mul_apply, of_apply, Fintype.sum_prod_type, ite_mul, mul_ite, zero_mul, mul_zero]
    simp only [Finset.sum_ite_eq, Finset.sum_ite_eq', Finset.sum_ite_irrel, Finset.sum_const_zero, Finset.mem_univ,
      if_true]
    rw [mul_comm]
  have hAX : ∀ p y, (A * X) p y = (G * f p.1) p.2 y := by
    intro p y
    simp only [hA, hX, mul_apply, of_apply, Fintype.sum_prod_type, ite_mul, zero_mul]
    simp [Finset.sum_ite_irrel]
  have hBX : ∀ p y, (B * X) p y = ∑ l, R p.1 l * f l p.2 y := by
    intro p y
    simp only [hB, hX, mul_apply, of_apply, Fintype.sum_prod_type, ite_mul, zero_mul]
    simp
  have hXG : (A + B) * X = X * G := by
    ext p y
    rw [Matrix.add_mul, Matrix.add_apply, hAX, hBX]
    have h1 := congrFun (congrFun (h p.1) p.2) y
    have h2 : (X * G) p y = (f p.1 * G) p.2 y := by simp [mul_apply, hX]
    rw [h2, h1]
    simp [Matrix.add_apply, Matrix.sum_apply]
  have h1 := exp_intertwine' (A + B) G X hXG
  rw [Matrix.exp_add_of_commute _ _ hAB] at h1
  -- the two factors
  have hEA : ∀ p q, NormedSpace.exp A p q = if p.1 = q.1 then NormedSpace.exp G p.2 q.2 else 0 := by
    intro p q
    set E : Matrix (Fin m × Fin d) (Fin d) ℂ := Matrix.of fun p y => if p.1 = q.1 ∧ p.2 = y then 1 else 0 with hE
    have h2 : A * E = E * G := by
      ext r y
      simp only [hA, hE, mul_apply, of_apply, Fintype.sum_prod_type, ite_mul, mul_ite, zero_mul, mul_zero, mul_one,
        one_mul, ite_and]
      simp only [Finset.sum_ite_eq, Finset.sum_ite_eq', Finset.sum_ite_irrel, Finset.sum_const_zero, Finset.mem_univ,
        if_true]
    have h3 := congrFun (congrFun (exp_intertwine' A G E h2) p) q.2
    simp only [hE, mul_apply, of_apply, Fintype.sum_prod_type, ite_mul, mul_ite, zero_mul, mul_zero, mul_one,
        one_mul, ite_and] at h3
    simp only [Finset.sum_ite_eq, Finset.sum_ite_eq', Finset.sum_ite_irrel, Finset.sum_const_zero, Finset.mem_univ,
        if_true] at h3
    exact h3
  have hEB : ∀ p q, NormedSpace.exp B p q = if p.2 = q.2 then NormedSpace.exp R p.1 q.1 else 0 := by
    intro p q
    set E : Matrix (Fin m × Fin d) (Fin m) ℂ := Matrix.of fun p y => if p.2 = q.2 ∧ p.1 = y then 1 else 0 with hE
    have h2 : B * E = E * R := by
      ext r y
      simp only [hB, hE, mul_apply, of_apply, Fintype.sum_prod_type, ite_mul, mul_ite, zero_mul, mul_zero, mul_one,
        one_mul, ite_and]
      simp only [Finset.sum_ite_eq, Finset.sum_ite_eq', Finset.sum_ite_irrel, Finset.sum_const_zero, Finset.mem_univ,
        if_true]
    have h3 := congrFun (congrFun (exp_intertwine' B R E h2) p) q.1
    simp only [hE, mul_apply, of_apply, Fintype.sum_prod_type, ite_mul, mul_ite, zero_mul, mul_zero, mul_one,
        one_mul, ite_and] at h3
    simp only [Finset.sum_ite_eq, Finset.sum_ite_eq', Finset.sum_ite_irrel, Finset.sum_const_zero, Finset.mem_univ,
        if_true] at h3
    exact h3
  ext x y
  have h2 := congrFun (congrFun h1 (k, x)) y
  have h3 : (X * NormedSpace.exp G) (k, x) y = (f k * expm G) x y := by simp [mul_apply, hX, expm]
  rw [← h3, ← h2, Matrix.mul_assoc]
  have h4 : ∀ p y, (NormedSpace.exp B * X) p y = (∑ l, expm R p.1 l • f l) p.2 y := by
    intro p y
    simp only [mul_apply, hEB, hX, of_apply, Fintype.sum_prod_type, ite_mul, zero_mul, Matrix.sum_apply,
      Matrix.smul_apply, smul_eq_mul, expm]
    simp
  generalize NormedSpace.exp B * X = Z at h4
  simp only [mul_apply, hEA, Fintype.sum_prod_type, ite_mul, zero_mul, h4]
  simp [Finset.sum_ite_irrel, expm]

theorem expm_unitary {d : ℕ} {M : Op d} (h : Mᴴ = -M) : expm M * (expm M)ᴴ = 1 := by
  have h1 : (expm M)ᴴ = expm (-M) := by rw [expm, expm, ← Matrix.exp_conjTranspose, h]
  rw [h1, expm, expm, ← Matrix.exp_add_of_commute _ _ (Commute.neg_right (Commute.refl M)), add_neg_cancel,
    NormedSpace.exp_zero]

/-! ## norms -/

theorem vnorm_unit {d : ℕ} {v : Fin d → ℂ} (h : Spec.IsUnitVec v) : vnorm v = 1 := by
  rw [vnorm, h, Real.sqrt_one]

theorem vnorm_eq_zero {d : ℕ} {v : Fin d → ℂ} : vnorm v = 0 ↔ v = 0 := by
  rw [vnorm, Real.sqrt_eq_zero (Finset.sum_nonneg fun i _ => by positivity),
    Finset.sum_eq_zero_iff_of_nonneg (fun i _ => by positivity)]
  constructor
  · intro h; funext i; simpa using h i (Finset.mem_univ i)
  · intro h i _; rw [h]; simp

theorem unit_iff_inner {d : ℕ} {v : Fin d → ℂ} : Spec.IsUnitVec v ↔ Spec.inner v v = 1 := by
  rw [inner_self, Spec.IsUnitVec]; norm_cast

theorem inner_self_vnorm {d : ℕ} (v : Fin d → ℂ) : Spec.inner v v = ((vnorm v : ℝ) : ℂ) ^ 2 := by
  rw [inner_self, vnorm, ← Complex.ofReal_pow, Real.sq_sqrt (Finset.sum_nonneg fun i _ => by positivity)]

theorem unit_normalise {d : ℕ} {v : Fin d → ℂ} (h : v ≠ 0) : Spec.IsUnitVec (((vnorm v : ℝ) : ℂ)⁻¹ • v) := by
  have h0 : ((vnorm v : ℝ) : ℂ) ≠ 0 := by
    have : vnorm v ≠ 0 := fun h1 => h (vnorm_eq_zero.1 h1)
    exact_mod_cast this
  rw [unit_iff_inner, inner_smul_left, inner_smul_right, inner_self_vnorm, map_inv₀, Complex.conj_ofReal]
  field_simp

theorem unit_mulVec {d : ℕ} {U : Op d} (hU : U * Uᴴ = 1) {v : Fin d → ℂ} (hv : Spec.IsUnitVec v) :
    Spec.IsUnitVec (U *ᵥ v) := by
  rw [unit_iff_inner] at *
  rw [inner_unitary (mul_eq_one_comm.1 hU), hv]

theorem unit_zeroState {d : ℕ} (hd : 0 < d) : Spec.IsUnitVec (zeroState d) := by
  rw [Spec.IsUnitVec, Finset.sum_eq_single (⟨0, hd⟩ : Fin d)]
  · simp [zeroState]
  · intro i _ hi
    have : (i : ℕ) ≠ 0 := fun h => hi (Fin.ext h)
    simp [zeroState, this]
  · simp

theorem isclose_one_unit {d : ℕ} {v : Fin d → ℂ} (h : Spec.IsUnitVec v) : isclose 1 (vnorm v : ℝ) := by
  rw [vnorm_unit h]
  simp [isclose]; norm_num

theorem fock_zero (n : ℕ) : zeroState (2 ^ n) = Spec.fock (fun _ : Fin n => 0) := by
  funext x
  simp [zeroState, Spec.fock, Spec.basisIndex]

theorem unit_fock {n : ℕ} (b : Fin n → Fin 2) : Spec.IsUnitVec (Spec.fock b) := by
  rw [fock_eq, Spec.IsUnitVec, Finset.sum_eq_single (bIdx b)]
  · simp
  · intro i _ hi; simp [Pi.single_apply, hi]
  · simp

/-! ## the orbital rotation -/

section rot
variable {σ : Type} (rng : Rng σ)

theorem exec_seed {seed : Option ℤ} {s s0 : σ} (h : Spec.StartState rng seed s s0) :
    (seedRng rng seed).exec s = (.ok (), s0) := by
  rcases h with ⟨rfl, rfl⟩ | ⟨k, hk, rfl, rfl⟩
  · rfl
  · have hk' : (k : ℤ) < 2 ^ 32 := by exact_mod_cast hk
    rw [seedRng, if_pos ⟨by omega, hk'⟩]
    rfl

theorem starts_some {k : ℕ} (hk : k < 2 ^ 32) (s : σ) : Spec.StartState rng (some (k : ℤ)) s (rng.seeded k) :=
  Or.inr ⟨k, hk, rfl, rfl⟩

theorem starts_again {seed : Option ℤ} {s s0 : σ} (h : Spec.StartState rng seed s s0) : Spec.StartState rng seed s0 s0 := by
  rcases h with ⟨rfl, rfl⟩ | ⟨k, hk, rfl, rfl⟩
  · exact Or.inl ⟨rfl, rfl⟩
  · exact Or.inr ⟨k, hk, rfl, rfl⟩

/-- The orbital rotation made from the orthogonal matrix `O`. -/
noncomputable def orb {n : ℕ} (O : RMat (n + n)) : Op (n + n) := (buildOmega n)ᴴ * toC O * buildOmega n

theorem toC_orth {m : ℕ} {O : RMat m} (h : O * Oᵀ = 1) : toC O * (toC O)ᵀ = 1 := by
  rw [toC_transpose, ← toC_mul, h, toC_one]

theorem orb_unitary {n : ℕ} {O : RMat (n + n)} (h : O * Oᵀ = 1) : orb O * (orb O)ᴴ = 1 := by
  have hO : toC O * (toC O)ᴴ = 1 := by rw [toC_conjTranspose, ← toC_transpose, toC_orth h]
  rw [orb]
  simp only [conjTranspose_mul, conjTranspose_conjTranspose]
  calc (buildOmega n)ᴴ * toC O * buildOmega n * ((buildOmega n)ᴴ * ((toC O)ᴴ * buildOmega n))
      = (buildOmega n)ᴴ * (toC O * (buildOmega n * (buildOmega n)ᴴ) * (toC O)ᴴ) * buildOmega n := by
        simp only [mul_assoc]
    _ = 1 := by rw [omega_unitary', mul_one, hO, mul_one, omega_unitary]

theorem orb_canonical {n : ℕ} (O : RMat (n + n)) : IsCanonicalU (orb O) := canonicalU_omega O

theorem orb_symp {n : ℕ} {O : RMat (n + n)} (h : O * Oᵀ = 1) : Spec.IsSymplectic (orb O) :=
  omega_conj_symp _ (toC_orth h)

theorem isSymp_true {n : ℕ} {U : Op (n + n)} (h : Spec.IsSymplectic U) : isSymp U = true := by
  rw [symp_iff] at h
  have h2 : allclose (U * swapS n * Uᵀ) (swapS n) := by rw [h]; exact allclose_self _
  unfold isSymp
  split_ifs <;> simp [h2]

theorem exec_orb (hd : Spec.DrawsOk rng) (n : ℕ) {seed : Option ℤ} {s s0 : σ} (h : Spec.StartState rng seed s s0) :
    (randomFFRotationOrb rng n seed).exec s =
      (.ok (orb (rng.orthogonal (n + n) s0).1), (rng.orthogonal (n + n) s0).2) := by
  rw [randomFFRotationOrb, exec_bind_ok (exec_seed rng h), exec_bind_ok (exec_draw _ _)]
  have hs : isSymp (orb (rng.orthogonal (n + n) s0).1) = true := isSymp_true (orb_symp (hd.orthogonal _ _))
  exact exec_bind_ok (exec_noDraw_ok (pyAssert_ok hs) _)

/-- The generator matrix made from a logarithm. -/
noncomputable def genMat {m : ℕ} (L : Op m) : Op m := (Complex.I / 2) • L

theorem exec_rotH (hd : Spec.DrawsOk rng) (logm : (d : ℕ) → Op d → Op d) {n : ℕ} (hn : 1 ≤ n) {seed : Option ℤ}
    {s s0 : σ} (h : Spec.StartState rng seed s s0) :
    (randomFFRotationH rng logm n seed).exec s =
      (.ok (Spec.quad (Spec.dropSmall 1e-10 (genMat (logm _ (orb (rng.orthogonal (n + n) s0).1)))) (al n)),
        (rng.orthogonal (n + n) s0).2) := by
  rw [randomFFRotationH, exec_bind_ok (exec_orb rng hd n h), exec_noDraw]
  congr 1
  rw [jordanWignerAlphas_eq, buildOp_square _ _ hn]
  congr 3
  rw [genMat, ← smul_neg, neg_neg, smul_smul]
  congr 1
  rw [inv_neg, Complex.inv_I]; ring

theorem exec_rot (hd : Spec.DrawsOk rng) (logm : (d : ℕ) → Op d → Op d) {n : ℕ} (hn : 1 ≤ n) {seed : Option ℤ}
    {s s0 : σ} (h : Spec.StartState rng seed s s0) :
    (randomFFRotation rng logm n seed).exec s =
      (.ok (expm ((-Complex.I) • Spec.quad (Spec.dropSmall 1e-10
        (genMat (logm _ (orb (rng.orthogonal (n + n) s0).1)))) (al n))), (rng.orthogonal (n + n) s0).2) := by
  rw [randomFFRotation, exec_bind_ok (exec_rotH rng hd logm hn h), exec_pure]

end rot

theorem genMat_herm {m : ℕ} {L : Op m} (h : Lᴴ = -L) : (genMat L).IsHermitian := by
  rw [IsHermitian, genMat, conjTranspose_smul, h, smul_neg, ← neg_smul]
  congr 1
  simp; ring

theorem drop_genMat {m : ℕ} (L : Op m) : Spec.dropSmall 1e-10 (genMat L) = genMat (Spec.dropSmall 2e-10 L) := by
  ext i j
  simp only [dropSmall_apply, genMat, Matrix.smul_apply, smul_eq_mul, norm_mul, norm_div, Complex.norm_I]
  have : (1 / ‖(2 : ℂ)‖ * ‖L i j‖ < 1e-10) ↔ ‖L i j‖ < 2e-10 := by
    rw [Complex.norm_ofNat]; constructor <;> intro h <;> linarith
  simp only [this]
  split_ifs <;> simp

theorem skewHerm_I {d : ℕ} {G : Op d} (h : G.IsHermitian) : ((-Complex.I) • G)ᴴ = -((-Complex.I) • G) := by
  rw [conjTranspose_smul, h.eq]; simp

theorem drop_mul_swapS {n : ℕ} {ε : ℝ} (M : Op (n + n)) :
    Spec.dropSmall ε (M * swapS n) = Spec.dropSmall ε M * swapS n := by
  ext i j; simp only [dropSmall_apply, mul_swapS]

theorem drop_canonical {n : ℕ} {ε : ℝ} {L : Op (n + n)} (h : IsCanonicalU L) :
    IsCanonicalU (Spec.dropSmall ε L) := by
  unfold IsCanonicalU at *
  rw [← dropSmall_cj, ← dropSmall_swapS_mul, ← drop_mul_swapS, h]

theorem drop_skewHerm {m : ℕ} {ε : ℝ} {L : Op m} (h : Lᴴ = -L) : (Spec.dropSmall ε L)ᴴ = -Spec.dropSmall ε L := by
  rw [dropSmall_conjTranspose, h, dropSmall_neg]

theorem genMat_ph {n : ℕ} {L : Op (n + n)} (h : IsCanonicalU L) (hs : Lᴴ = -L) :
    swapS n * (genMat L)ᵀ * swapS n = -genMat L := by
  have h1 : Lᵀ = -cj L := by
    have : Lᵀ = cj (Lᴴ) := by ext i j; simp [cj]
    rw [this, hs]; ext i j; simp [cj]
  rw [genMat, transpose_smul, h1, Matrix.mul_smul, Matrix.smul_mul, Matrix.mul_neg, Matrix.neg_mul, h, smul_neg]

/-- The Heisenberg picture of `exp(-iG)` for the generator made from the logarithm `L`. -/
theorem rot_heisenberg {n : ℕ} {L : Op (n + n)} (h : IsCanonicalU L) (hs : Lᴴ = -L) (k : Fin (n + n)) :
    (expm ((-Complex.I) • Spec.quad (genMat L) (al n)))ᴴ * al n k *
      expm ((-Complex.I) • Spec.quad (genMat L) (al n)) = ∑ l, expm L k l • al n l := by
  set R := genMat L with hR
  set G := Spec.quad R (al n) with hG
  have hGh : G.IsHermitian := quad_herm (genMat_herm hs) _
  have hph : swapS n * Rᵀ * swapS n = -R := genMat_ph h hs
  have hcomm : ∀ k, al n k * ((-Complex.I) • G) = ((-Complex.I) • G) * al n k + ∑ l, L k l • al n l := by
    intro k
    have h1 := lift_comm R k
    rw [hph] at h1
    have h2 : al n k * G = G * al n k + ∑ l, ((2 : ℂ) * R k l) • al n l := by
      rw [← sub_eq_iff_eq_add', ← neg_sub, h1, ← Finset.sum_neg_distrib]
      refine Finset.sum_congr rfl fun l _ => ?_
      rw [← neg_smul]; congr 1
      simp only [Matrix.neg_apply, Matrix.sub_apply]; ring
    rw [Matrix.mul_smul, h2, smul_add, Matrix.smul_mul, Finset.smul_sum]
    congr 1
    refine Finset.sum_congr rfl fun l _ => ?_
    rw [smul_smul]; congr 1
    rw [hR, genMat, Matrix.smul_apply, smul_eq_mul]
    linear_combination (-L k l) * Complex.I_sq
  have h1 := heisenberg _ L (al n) hcomm k
  have hU := expm_unitary (skewHerm_I hGh)
  rw [mul_assoc, h1, ← mul_assoc, mul_eq_one_comm.1 hU, one_mul]

end FF
