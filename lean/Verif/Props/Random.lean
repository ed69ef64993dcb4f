import Verif.Model.Random
import Verif.Spec.Random
import Verif.Proofs.Random2
import Verif.Proofs.LogRot
import Verif.Props.Utils
import Verif.Props.Quadratic

/-!
# Properties C49-C61: random rotations, random states and paths

`rng` is an arbitrary generator whose draws meet the contract `Spec.DrawsOk` and `logm` an arbitrary matrix
logarithm meeting `Spec.LogmOk`. `m.exec s` is the outcome of the random code `m` started in generator state `s`,
together with the new state. `f` is the list of Jordan-Wigner operators, raising operators first.
-/

namespace FF.Props

open Matrix
open scoped ComplexConjugate ComplexOrder

/-- A generator for the examples: it returns the given orthogonal matrices and otherwise constants. -/
noncomputable def demoRng (O : (m : ℕ) → ℕ → RMat m) : Rng ℕ where
  seeded k := k
  orthogonal m s := (O m s, s + 1)
  unitary d s := (1, s + 1)
  randn r c s := (Matrix.of fun _ _ => 1, s + 1)
  dirichlet d s := (fun _ => 1 / d, s + 1)
  exponential s := (1, s + 1)
  randint k s := (0, s + 1)

theorem demo_ok {O : (m : ℕ) → ℕ → RMat m} (h : ∀ m s, O m s * (O m s)ᵀ = 1) (h' : ∀ m s, (O m s).det = 1) :
    Spec.DrawsOk (demoRng O) where
  orthogonal := h
  orthogonal_det := h'
  unitary d s := by simp [demoRng]
  dirichlet d hd s := ⟨fun i => by simp [demoRng], by
    have : (d : ℝ) ≠ 0 := by exact_mod_cast hd.ne'
    simp [demoRng, this]⟩
  exponential s := by simp [demoRng]
  randint k hk s := by simpa [demoRng] using hk

/-- The contracts of the draws and of the logarithm can be met. -/
theorem logm_exists : ∃ logm, Spec.LogmOk logm := by
  classical
  refine ⟨fun d C => if h : C * Cᴴ = 1 then (log_exists h).choose else 0, ?_⟩
  intro d C hC
  simp only [dif_pos hC]
  exact (log_exists hC).choose_spec

example : (∃ rng : Rng ℕ, Spec.DrawsOk rng) ∧ ∃ logm, Spec.LogmOk logm :=
  ⟨⟨demoRng fun _ _ => 1, demo_ok (by simp) (by simp)⟩, logm_exists⟩

section
variable {σ : Type} (rng : Rng σ) (logm : (d : ℕ) → Op d → Op d)

/-! ## C49 -/

/-- C49. Every orbital rotation returned by `random_FF_rotation(returnOrb=True)` is unitary, symplectic and of the
form `[[s, t*], [t, s*]]`; the assertion never fires. -/
theorem C49_orbital (hd : Spec.DrawsOk rng) (n : ℕ) (seed : Option ℤ) (s s0 : σ)
    (h : Spec.StartState rng seed s s0) :
    ∃ C s', (randomFFRotationOrb rng n seed).exec s = (.ok C, s') ∧
      C ∈ Matrix.unitaryGroup (Fin (n + n)) ℂ ∧ Spec.IsSymplectic C ∧
      Spec.block C 1 1 = (Spec.block C 0 0).map conj ∧ Spec.block C 0 1 = (Spec.block C 1 0).map conj := by
  refine ⟨_, _, exec_orb rng hd n h, mem_unitaryGroup_iff.2 (orb_unitary (hd.orthogonal _ _)),
    orb_symp (hd.orthogonal _ _), ?_, ?_⟩
  · ext i j
    have := canonicalU_entries (orb_canonical (rng.orthogonal (n + n) s0).1) (Fin.castAdd n i) (Fin.castAdd n j)
    rw [fl_left, fl_left] at this
    simpa [Spec.block, Fin.natAdd, Fin.castAdd, Fin.castLE] using this
  · ext i j
    have := canonicalU_entries (orb_canonical (rng.orthogonal (n + n) s0).1) (Fin.natAdd n i) (Fin.castAdd n j)
    rw [fl_left, fl_right] at this
    simpa [Spec.block, Fin.natAdd, Fin.castAdd, Fin.castLE] using this

/-- C49. The rotation is `Ω† O Ω` for the drawn orthogonal matrix `O`. -/
theorem C49_draw (hd : Spec.DrawsOk rng) (n : ℕ) (seed : Option ℤ) (s s0 : σ) (h : Spec.StartState rng seed s s0) :
    (randomFFRotationOrb rng n seed).exec s =
      (.ok ((buildOmega n)ᴴ * (rng.orthogonal (n + n) s0).1.map Complex.ofReal * buildOmega n),
        (rng.orthogonal (n + n) s0).2) :=
  exec_orb rng hd n h

/-- Both kinds of seeds give a start state. -/
example (s : σ) : Spec.StartState rng none s s ∧ Spec.StartState rng (some 5) s (rng.seeded 5) :=
  ⟨Or.inl ⟨rfl, rfl⟩, Or.inr ⟨5, by norm_num, by norm_num, rfl⟩⟩

/-! ## C50 -/

/-- C50. The three variants of `random_FF_rotation` make the same draw. The generator `G` is Hermitian, the rotation
is `W = exp(-iG)` and unitary. -/
theorem C50_unitary (hd : Spec.DrawsOk rng) (hl : Spec.LogmOk logm) (n : ℕ) (hn : 1 ≤ n) (seed : Option ℤ)
    (s s0 : σ) (h : Spec.StartState rng seed s s0) :
    ∃ C G W s', (randomFFRotationOrb rng n seed).exec s = (.ok C, s') ∧
      (randomFFRotationH rng logm n seed).exec s = (.ok G, s') ∧
      (randomFFRotation rng logm n seed).exec s = (.ok W, s') ∧
      G.IsHermitian ∧ W = NormedSpace.exp ((-Complex.I) • G) ∧ W ∈ Matrix.unitaryGroup (Fin (2 ^ n)) ℂ := by
  have hs := log_skew (orb_unitary (hd.orthogonal (n + n) s0)) (hl _ _ (orb_unitary (hd.orthogonal (n + n) s0)))
  have hG : (Spec.quad (Spec.dropSmall 1e-10 (genMat (logm _ (orb (rng.orthogonal (n + n) s0).1)))) (al n)).IsHermitian := by
    rw [drop_genMat]; exact quad_herm (genMat_herm (drop_skewHerm hs)) _
  exact ⟨_, _, _, _, exec_orb rng hd n h, exec_rotH rng hd logm hn h, exec_rot rng hd logm hn h, hG, rfl,
    mem_unitaryGroup_iff.2 (expm_unitary (skewHerm_I hG))⟩

/-- C50, for draws without eigenvalue -1: `W† α_k W = Σ_l C_kl α_l` with `C` the orbital rotation of the same draw,
if no entry of its logarithm is small but non-zero; in general with `exp(L')` instead of `C`, where `L'` is the
logarithm without the entries below `2e-10`, which `build_op` drops. Missing: draws for which the rotation has the
eigenvalue -1, for which the relation is false (`C50_violation`). -/
theorem C50_heisenberg_partial (hd : Spec.DrawsOk rng) (hl : Spec.LogmOk logm) (n : ℕ) (hn : 1 ≤ n)
    (seed : Option ℤ) (s s0 s1 s2 : σ) (h : Spec.StartState rng seed s s0) (C : Op (n + n)) (W : Op (2 ^ n))
    (hC : (randomFFRotationOrb rng n seed).exec s = (.ok C, s1))
    (hW : (randomFFRotation rng logm n seed).exec s = (.ok W, s2)) (hne : Spec.NoMinusOne C)
    (f : Fin (n + n) → Op (2 ^ n)) (hf : jordanWignerAlphas n = List.ofFn f) (k : Fin (n + n)) :
    (Wᴴ * f k * W = ∑ l, NormedSpace.exp (Spec.dropSmall 2e-10 (logm _ C)) k l • f l) ∧
      ((∀ i j, logm _ C i j = 0 ∨ 2e-10 ≤ ‖logm _ C i j‖) → Wᴴ * f k * W = ∑ l, C k l • f l) := by
  rw [jordanWignerAlphas_eq] at hf
  obtain rfl := List.ofFn_injective hf
  rw [exec_orb rng hd n h] at hC
  rw [exec_rot rng hd logm hn h] at hW
  obtain ⟨hC, -⟩ := Prod.mk.inj hC
  obtain ⟨hW, -⟩ := Prod.mk.inj hW
  obtain rfl := Except.ok.inj hC
  obtain rfl := Except.ok.inj hW
  have hU := orb_unitary (hd.orthogonal (n + n) s0)
  have hL := hl _ _ hU
  have hs := log_skew hU hL
  have hcan := log_canonical hU (orb_canonical _) hne hL
  have key := rot_heisenberg (drop_canonical (ε := 2e-10) hcan) (drop_skewHerm hs) k
  rw [← drop_genMat] at key
  refine ⟨key, fun hsm => ?_⟩
  rw [key]
  have hE : expm (Spec.dropSmall 2e-10 (logm _ (orb (rng.orthogonal (n + n) s0).1))) =
      orb (rng.orthogonal (n + n) s0).1 := by
    rw [dropSmall_id hsm]; exact hL.exp_eq
  rw [hE]

/-- C50, for every draw: `W† α_k W = Σ_l exp(K)_kl α_l`, where `K` is the part of the logarithm of `C` (without the
entries below `2e-10`) that is antisymmetric under exchanging particles and holes. -/
theorem C50_heisenberg_all (hd : Spec.DrawsOk rng) (hl : Spec.LogmOk logm) (n : ℕ) (hn : 1 ≤ n)
    (seed : Option ℤ) (s s0 s1 s2 : σ) (h : Spec.StartState rng seed s s0) (C L K : Op (n + n)) (W : Op (2 ^ n))
    (hC : (randomFFRotationOrb rng n seed).exec s = (.ok C, s1))
    (hW : (randomFFRotation rng logm n seed).exec s = (.ok W, s2))
    (hL : L = Spec.dropSmall 2e-10 (logm _ C)) (hK : K = (1 / 2 : ℂ) • (L - Spec.swap n * Lᵀ * Spec.swap n))
    (f : Fin (n + n) → Op (2 ^ n)) (hf : jordanWignerAlphas n = List.ofFn f) (k : Fin (n + n)) :
    Wᴴ * f k * W = ∑ l, NormedSpace.exp K k l • f l := by
  rw [jordanWignerAlphas_eq] at hf
  obtain rfl := List.ofFn_injective hf
  rw [exec_orb rng hd n h] at hC
  rw [exec_rot rng hd logm hn h] at hW
  obtain ⟨hC, -⟩ := Prod.mk.inj hC
  obtain ⟨hW, -⟩ := Prod.mk.inj hW
  obtain rfl := Except.ok.inj hC
  obtain rfl := Except.ok.inj hW
  have hU := orb_unitary (hd.orthogonal (n + n) s0)
  have hs := drop_skewHerm (ε := 2e-10) (log_skew hU (hl _ _ hU))
  have key := rot_heisenberg_all hs k
  rw [← drop_genMat] at key
  have hKL : K = phSym L := by
    rw [hK, phSym, cj_of_skew (hL ▸ hs), swapS_eq, Matrix.mul_neg, Matrix.neg_mul, sub_eq_add_neg]
  rw [hKL, hL]
  exact key

/-- C50: up to 35000 sites, the rotation performed by `W` differs from the orbital rotation `C` of the same draw by at most
`4e-10 n` in every entry if and only if `C` does not have the eigenvalue -1. -/
theorem C50_iff (hd : Spec.DrawsOk rng) (hl : Spec.LogmOk logm) (n : ℕ) (hn : 1 ≤ n)
    (seed : Option ℤ) (s s0 s1 s2 : σ) (h : Spec.StartState rng seed s s0) (C : Op (n + n)) (W : Op (2 ^ n))
    (hC : (randomFFRotationOrb rng n seed).exec s = (.ok C, s1))
    (hW : (randomFFRotation rng logm n seed).exec s = (.ok W, s2))
    (f : Fin (n + n) → Op (2 ^ n)) (hf : jordanWignerAlphas n = List.ofFn f) :
    ∃! C' : Op (n + n), (∀ k, Wᴴ * f k * W = ∑ l, C' k l • f l) ∧
      (Spec.NoMinusOne C → ∀ k l, ‖C' k l - C k l‖ ≤ 4e-10 * n) ∧
      (n ≤ 35000 → (∀ k l, ‖C' k l - C k l‖ ≤ 4e-10 * n) → Spec.NoMinusOne C) := by
  have hall := fun k => C50_heisenberg_all rng logm hd hl n hn seed s s0 s1 s2 h C _ _ W hC hW rfl rfl f hf k
  rw [jordanWignerAlphas_eq] at hf
  obtain rfl := List.ofFn_injective hf
  rw [exec_orb rng hd n h] at hC
  obtain ⟨hC, -⟩ := Prod.mk.inj hC
  obtain rfl := Except.ok.inj hC
  have hU := orb_unitary (hd.orthogonal (n + n) s0)
  have hL := hl _ _ hU
  have hs := log_skew hU hL
  have hKL : (1 / 2 : ℂ) • (Spec.dropSmall 2e-10 (logm _ (orb (rng.orthogonal (n + n) s0).1)) -
      Spec.swap n * (Spec.dropSmall 2e-10 (logm _ (orb (rng.orthogonal (n + n) s0).1)))ᵀ * Spec.swap n) =
      phSym (Spec.dropSmall 2e-10 (logm _ (orb (rng.orthogonal (n + n) s0).1))) := by
    rw [phSym, cj_of_skew (drop_skewHerm (ε := 2e-10) hs), swapS_eq, Matrix.mul_neg, Matrix.neg_mul, sub_eq_add_neg]
  rw [hKL] at hall
  refine ⟨expm (phSym (Spec.dropSmall 2e-10 (logm _ (orb (rng.orthogonal (n + n) s0).1)))), ⟨hall, ?_, ?_⟩, ?_⟩
  · intro hne k l
    have := drop_close hs k l
    rw [phSym_canonical (log_canonical hU (orb_canonical _) hne hL)] at this
    have hE : expm (logm _ (orb (rng.orthogonal (n + n) s0).1)) = orb (rng.orthogonal (n + n) s0).1 := hL.exp_eq
    rw [hE] at this
    exact this
  · intro hn' hcl v hv
    by_contra hv0
    have := minus_one_far hU (orb_canonical _) hL hv hv0 (drop_close hs) hcl
    have h1 : (n : ℝ) ≤ 35000 := by exact_mod_cast hn'
    have h2 : (0 : ℝ) ≤ n := Nat.cast_nonneg n
    nlinarith
  · rintro C' ⟨hC', -⟩
    ext k l
    have := al_sum_inj ((hC' k).symm.trans (hall k))
    exact congrFun this l

end

theorem orb_one (n : ℕ) : orb (1 : RMat (n + n)) = 1 := by
  rw [orb, toC_one, mul_one, omega_unitary]

theorem orb_neg_one (n : ℕ) : orb (-1 : RMat (n + n)) = -1 := by
  rw [orb, toC_neg, toC_one, mul_neg, mul_one, neg_mul, omega_unitary]

theorem principalLog_one (d : ℕ) : Spec.IsPrincipalLog (1 : Op d) 0 where
  exp_eq := NormedSpace.exp_zero
  strip μ v hv h := by
    rw [zero_mulVec, eq_comm, smul_eq_zero] at h
    rw [h.resolve_right hv]
    simp [Real.pi_pos, Real.pi_pos.le]

theorem logm_one {logm : (d : ℕ) → Op d → Op d} (hl : Spec.LogmOk logm) (d : ℕ) : logm d 1 = 0 :=
  log_unique (by simp) (hl d 1 (by simp)) (principalLog_one d)

/-- A draw that meets the hypotheses of `C50_heisenberg_partial`: the identity. -/
example : ∃ (rng : Rng ℕ) (logm : (d : ℕ) → Op d → Op d), Spec.DrawsOk rng ∧ Spec.LogmOk logm ∧
    (randomFFRotationOrb rng 3 none).exec 0 = (.ok 1, 1) ∧ Spec.NoMinusOne (1 : Op (3 + 3)) ∧
    ∀ i j, logm _ (1 : Op (3 + 3)) i j = 0 ∨ 2e-10 ≤ ‖logm _ (1 : Op (3 + 3)) i j‖ := by
  obtain ⟨logm, hl⟩ := logm_exists
  have hd : Spec.DrawsOk (demoRng fun _ _ => 1) := demo_ok (by simp) (by simp)
  refine ⟨_, logm, hd, hl, ?_, ?_, ?_⟩
  · rw [exec_orb _ hd 3 (Or.inl ⟨rfl, rfl⟩), show ((demoRng fun _ _ => 1).orthogonal (3 + 3) 0).1 = 1 from rfl, orb_one]
    rfl
  · intro v hv
    rw [one_mulVec] at hv
    have : (2 : ℂ) • v = 0 := by rw [two_smul]; nth_rw 1 [hv]; simp
    exact (smul_eq_zero.1 this).resolve_left two_ne_zero
  · intro i j
    rw [logm_one hl]
    exact Or.inl rfl

/-! ### a draw with eigenvalue -1 -/

theorem principalLog_neg_one (d : ℕ) : Spec.IsPrincipalLog (-1 : Op d) ((Real.pi * Complex.I) • 1) where
  exp_eq := by
    have := expm_scalar (d := d) (Real.pi * Complex.I)
    rw [Complex.exp_pi_mul_I, neg_one_smul] at this
    exact this
  strip μ v hv h := by
    rw [smul_mulVec, one_mulVec, ← sub_eq_zero, ← sub_smul, smul_eq_zero] at h
    have hμ := sub_eq_zero.1 (h.resolve_right hv)
    rw [← hμ]
    simp [Real.pi_pos]

theorem quad_one (n : ℕ) : Spec.quad (1 : Op (n + n)) (al n) = (n : ℂ) • 1 := by
  have h1 : Spec.quad (1 : Op (n + n)) (al n) = ∑ i, (al n i)ᴴ * al n i := by
    rw [Spec.quad]
    refine Finset.sum_congr rfl fun i _ => ?_
    rw [Finset.sum_eq_single i]
    · simp
    · intro j _ hj; rw [Matrix.one_apply_ne (Ne.symm hj), zero_smul]
    · simp
  rw [h1, Fin.sum_univ_add, ← Finset.sum_add_distrib]
  have h2 : ∀ i : Fin n, (al n (Fin.castAdd n i))ᴴ * al n (Fin.castAdd n i) +
      (al n (Fin.natAdd n i))ᴴ * al n (Fin.natAdd n i) = 1 := by
    intro i
    rw [al_left, al_right, conjTranspose_conjTranspose, car_mixed, if_pos rfl]
  simp only [h2, Finset.sum_const, Finset.card_univ, Fintype.card_fin]
  rw [Nat.cast_smul_eq_nsmul]

theorem al_ne_zero {n : ℕ} (k : Fin (n + n)) : al n k ≠ 0 := by
  intro h
  have h1 := al_anticomm k (fl k)
  rw [h, zero_mul, mul_zero, add_zero] at h1
  have h2 : swapS n k (fl k) = 1 := by rw [← fl_fl k]; simp [swapS_apply]
  rw [h2, one_smul] at h1
  have h3 := congrFun (congrFun h1 ⟨0, by positivity⟩) ⟨0, by positivity⟩
  rw [Matrix.one_apply_eq] at h3
  exact zero_ne_one h3

/-- C50 is false for draws with eigenvalue -1: for the draw `O = -1`, which is orthogonal with determinant one, the
orbital rotation is `C = -1` but `W` commutes with every operator, so `W† α_k W = α_k ≠ -α_k`. -/
theorem C50_violation (logm : (d : ℕ) → Op d → Op d) (hl : Spec.LogmOk logm) (n : ℕ) (hn : 1 ≤ n) :
    ∃ rng : Rng ℕ, Spec.DrawsOk rng ∧ ∃ W : Op (2 ^ n),
      (randomFFRotationOrb rng n none).exec 0 = (.ok (-1), 1) ∧ (randomFFRotation rng logm n none).exec 0 = (.ok W, 1) ∧
      ∀ f : Fin (n + n) → Op (2 ^ n), jordanWignerAlphas n = List.ofFn f →
        ∀ k, Wᴴ * f k * W = f k ∧ Wᴴ * f k * W ≠ ∑ l, (-1 : Op (n + n)) k l • f l := by
  have hd : Spec.DrawsOk (demoRng fun m _ => if Even m then -1 else 1) := by
    apply demo_ok
    · intro m s; split_ifs <;> simp
    · intro m s
      split_ifs with h
      · rw [Matrix.det_neg, Fintype.card_fin, h.neg_one_pow, det_one, mul_one]
      · simp
  have hO : ((demoRng fun m _ => if Even m then -1 else 1).orthogonal (n + n) 0).1 = -1 := by
    simp [demoRng]
  have hst : Spec.StartState (demoRng fun m _ => if Even m then -1 else 1) none 0 0 := Or.inl ⟨rfl, rfl⟩
  refine ⟨_, hd, _, ?_, exec_rot _ hd logm hn hst, ?_⟩
  · rw [exec_orb _ hd n hst, hO, orb_neg_one]
    rfl
  · intro f hf k
    rw [jordanWignerAlphas_eq] at hf
    obtain rfl := List.ofFn_injective hf
    have hL : logm (n + n) (-1) = (Real.pi * Complex.I) • 1 :=
      log_unique (by simp) (hl _ _ (by simp)) (principalLog_neg_one _)
    have hR : Spec.dropSmall 1e-10 (genMat (logm _ (orb (-1 : RMat (n + n))))) = (-(Real.pi / 2 : ℂ)) • 1 := by
      rw [orb_neg_one, hL, drop_genMat, dropSmall_id, genMat, smul_smul]
      · congr 1
        linear_combination (Real.pi / 2 : ℂ) * Complex.I_sq
      · intro i j
        by_cases hij : i = j
        · right
          subst hij
          simp only [Matrix.smul_apply, Matrix.one_apply_eq, smul_eq_mul, mul_one, norm_mul, Complex.norm_I,
            Complex.norm_real, Real.norm_of_nonneg Real.pi_pos.le]
          linarith [Real.two_le_pi]
        · left; simp [Matrix.one_apply_ne hij]
    set W : Op (2 ^ n) := expm ((-Complex.I) • Spec.quad (Spec.dropSmall 1e-10 (genMat (logm _ (orb
      ((demoRng fun m _ => if Even m then -1 else 1).orthogonal (n + n) 0).1)))) (al n)) with hW
    have hWc : ∃ c : ℂ, W = c • 1 := by
      rw [hW, hO, hR]
      have h1 : Spec.quad ((-(Real.pi / 2 : ℂ)) • (1 : Op (n + n))) (al n) = (-(Real.pi / 2 : ℂ) * n) • 1 := by
        rw [← smul_smul, ← quad_one, Spec.quad, Spec.quad]
        simp only [Matrix.smul_apply, smul_eq_mul, ← smul_smul, Finset.smul_sum]
      rw [h1, smul_smul, expm_scalar]
      exact ⟨_, rfl⟩
    have hWu : W * Wᴴ = 1 := by
      apply expm_unitary
      apply skewHerm_I
      rw [hO, hR]
      apply quad_herm
      rw [IsHermitian, conjTranspose_smul, conjTranspose_one]
      congr 1
      simp
    obtain ⟨c, hc⟩ := hWc
    have h1 : Wᴴ * al n k * W = al n k := by
      have : al n k * W = W * al n k := by rw [hc]; simp
      rw [mul_assoc, this, ← mul_assoc, mul_eq_one_comm.1 hWu, one_mul]
    refine ⟨h1, fun h2 => ?_⟩
    rw [h1, Finset.sum_eq_single k] at h2
    · rw [Matrix.neg_apply, Matrix.one_apply_eq, neg_one_smul] at h2
      have h3 : (2 : ℂ) • al n k = 0 := by rw [two_smul]; nth_rw 1 [h2]; simp
      exact al_ne_zero k ((smul_eq_zero.1 h3).resolve_left two_ne_zero)
    · intro l _ hl; rw [Matrix.neg_apply, Matrix.one_apply_ne (Ne.symm hl), neg_zero, zero_smul]
    · simp

end FF.Props
