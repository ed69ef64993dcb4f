import Verif.Props.PureGauss
import Verif.Proofs.Span
import Verif.Proofs.GaussRot
import Verif.Proofs.RotPdf

/-! # Properties C91 and C92: Gaussian states are determined by their correlations; rotated distributions -/

namespace FF.Props

open Matrix
open scoped ComplexOrder

/-! ## C91 -/

section
variable {n : ℕ} {f g : Fin (n + n) → Op (2 ^ n)}

/-- C91. Two operators in which Wick's theorem holds are equal if `compute_2corr_matrix` gives the same array for them,
for any of the three conventions. -/
theorem C91_unique {ρ ρ' : Op (2 ^ n)} (hf : jordanWignerAlphas n = List.ofFn f) (h : Spec.ObeysWick f ρ)
    (h' : Spec.ObeysWick f ρ') (c : Option ℤ)
    (hc : compute2Corr ρ n (jordanWignerAlphas n) c = compute2Corr ρ' n (jordanWignerAlphas n) c) : ρ = ρ' := by
  rw [jordanWignerAlphas_eq] at hf
  obtain rfl := List.ofFn_injective hf
  refine wick_unique h h' ?_
  rw [jordanWignerAlphas_eq] at hc
  cases c with
  | none =>
    rw [(C43_entries ρ (al n) 0).1, (C43_entries ρ' (al n) 0).1] at hc
    exact Except.ok.inj hc
  | some c =>
    rw [(C43_entries ρ (al n) c).2, (C43_entries ρ' (al n) c).2] at hc
    have hc := Except.ok.inj hc
    ext i j
    by_cases h0 : c < 0
    · have := congrFun (congrFun hc (fl i)) j
      simpa only [gam, of_apply, if_pos h0, al_conjTranspose, fl_fl] using this
    · have := congrFun (congrFun hc i) (fl j)
      simpa only [gam, of_apply, if_neg h0, al_conjTranspose, fl_fl] using this

/-- C91. A state in which Wick's theorem holds is tied to its correlations `P` by an exchange relation: moving it across
the operators exchanges `1 - P` with `P`. -/
theorem C91_exchange {ρ : Op (2 ^ n)} (hf : jordanWignerAlphas n = List.ofFn f) (h : Spec.ObeysWick f ρ) (P : Op (n + n))
    (hP : compute2Corr ρ n (jordanWignerAlphas n) (some 1) = .ok P) (k : Fin (n + n)) :
    ∑ l, (1 - P) k l • (ρ * f l) = ∑ l, P k l • (f l * ρ) := by
  rw [corrP_code hP]
  rw [jordanWignerAlphas_eq] at hf
  obtain rfl := List.ofFn_injective hf
  exact wick_kms h k

/-- C91. The anti-flatness of a state vanishes iff the state is pure and Wick's theorem holds in it. -/
theorem C91_faf {ρ : Op (2 ^ n)} {M Z : RMat (n + n)} {x : Arr} {schurR : {m : ℕ} → RMat m → RMat m}
    {schurC : {m : ℕ} → Op m → Op m} {k : ℕ} (hf : jordanWignerAlphas n = List.ofFn f)
    (hg : jordanWignerMajoranas n = List.ofFn g) (hx : Spec.IsState x ρ) (hM : Spec.IsMajoranaCov g ρ M)
    (hZ : Spec.IsRealSchur M (schurR M) Z) (hk : 1 ≤ k) :
    faf schurR schurC x k = .ok 0 ↔ Spec.Pure ρ ∧ Spec.ObeysWick f ρ := by
  constructor
  · intro h
    obtain ⟨h1, h2, -⟩ := C90_pure hf hg hx hM hZ hk h
    exact ⟨h1, h2⟩
  · rintro ⟨⟨ψ, hψ, rfl⟩, h2⟩
    have hP := (C43_entries (Spec.proj ψ) (al n) 1).2
    rw [← jordanWignerAlphas_eq] at hP
    rw [C90_projection hg hx hM hZ hk _ hP, corrP_code hP]
    rw [jordanWignerAlphas_eq] at hf
    obtain rfl := List.ofFn_injective hf
    exact wick_pure_proj hψ h2

/-- Two different states to which the theorem applies: thermal states of a chain and of its negative. -/
example : ∃ ρ ρ' : Op (2 ^ 3), ∀ f : Fin (3 + 3) → Op (2 ^ 3), jordanWignerAlphas 3 = List.ofFn f →
    generateGaussianState 3 (kitaevChain 3 1 1 1) none = .ok (some ρ) ∧
    generateGaussianState 3 (-kitaevChain 3 1 1 1) none = .ok (some ρ') ∧ Spec.ObeysWick f ρ ∧ Spec.ObeysWick f ρ' := by
  have hH := (C36_structure 3 1 1 1).1
  have hH' : (-kitaevChain 3 1 1 1).IsHermitian := by rw [IsHermitian, conjTranspose_neg, hH.eq]
  obtain ⟨Q, ρ, -, h2, -⟩ := C41_coefficients_partial 3 le_rfl _ hH (al 3)
  obtain ⟨Q', ρ', -, h2', -⟩ := C41_coefficients_partial 3 le_rfl _ hH' (al 3)
  rw [← jordanWignerAlphas_eq, ← C41_default] at h2 h2'
  obtain ⟨g, hg, -⟩ := C28_majoranas 3
  exact ⟨ρ, ρ', fun f hf => ⟨h2, h2', (C88_thermal le_rfl _ hH ρ h2 hf hg).1, (C88_thermal le_rfl _ hH' ρ' h2' hf hg).1⟩⟩

end

/-! ## C92 -/

section
variable {σ : Type} (rng : Rng σ) (logm : (d : ℕ) → Op d → Op d) {n : ℕ} {f g : Fin (n + n) → Op (2 ^ n)}

/-- C92, partial. Wick's theorem holds in the state `random_FF_state_rotPDF` returns if the drawn distribution fills each
site `i` independently with a probability `q_i`. For other distributions it fails, see `C92_fails`. -/
theorem C92_product_partial (hd : Spec.DrawsOk rng) (hl : Spec.LogmOk logm) (hn : 1 ≤ n)
    (seed : Option ℤ) (s s0 s' : σ) (h : Spec.StartState rng seed s s0) (ρ : Op (2 ^ n)) (p : Fin (2 ^ n) → ℝ)
    (hrun : (randomFFStateRotPDF rng logm (.int n) seed).exec s = (.ok ⟨n, ρ, p⟩, s')) (q : Fin n → ℝ)
    (hp : ∀ x, p x = ∏ i, if Spec.digit 2 n x i = 1 then q i else 1 - q i)
    (hf : jordanWignerAlphas n = List.ofFn f) (hg : jordanWignerMajoranas n = List.ofFn g) :
    Spec.ObeysWick f ρ ∧ Spec.ObeysWick g ρ := by
  obtain ⟨ρ', p', s1, h1, hden, -⟩ := C56_density rng logm hd hl n hn seed s s0 h
  rw [h1] at hrun
  have := Except.ok.inj (Prod.mk.inj hrun).1
  have e := eq_of_heq (Sigma.mk.inj this).2
  obtain ⟨rfl, rfl⟩ := Prod.mk.inj e
  refine wick_both hf hg ?_ hden.trace_one
  have hW := exec_rot rng hd logm hn (Or.inl ⟨rfl, rfl⟩ : Spec.StartState rng none s0 s0)
  have hWW := expm_unitary (skewHerm_I (quad_herm (rot_herm (n := n) rng logm hd hl s0) (al n)))
  rw [randomFFStateRotPDF, exec_bind_ok (exec_check hn s), exec_bind_ok (exec_seed rng h), exec_bind_ok hW,
    exec_bind_ok (exec_noDraw_ok (pyAssert_ok (allclose_of_eq hWW)) _), exec_bind_ok (exec_draw _ _), exec_pure] at h1
  have := Except.ok.inj (Prod.mk.inj h1).1
  have e := eq_of_heq (Sigma.mk.inj this).2
  obtain ⟨e1, e2⟩ := Prod.mk.inj e
  rw [← e1, e2]
  exact product_gauss hp (rot_herm rng logm hd hl s0) rfl

/-- C92. Which draws give a free-fermion state: Wick's theorem holds in the state `random_FF_state_rotPDF` returns iff the
drawn distribution fills the sites independently. -/
theorem C92_iff (hd : Spec.DrawsOk rng) (hl : Spec.LogmOk logm) (hn : 1 ≤ n)
    (seed : Option ℤ) (s s0 s' : σ) (h : Spec.StartState rng seed s s0) (ρ : Op (2 ^ n)) (p : Fin (2 ^ n) → ℝ)
    (hrun : (randomFFStateRotPDF rng logm (.int n) seed).exec s = (.ok ⟨n, ρ, p⟩, s'))
    (hf : jordanWignerAlphas n = List.ofFn f) :
    Spec.ObeysWick f ρ ↔ ∃ q : Fin n → ℝ, ∀ x, p x = ∏ i, if Spec.digit 2 n x i = 1 then q i else 1 - q i := by
  obtain ⟨g, hg, -⟩ := C28_majoranas n
  refine ⟨fun hw => ?_, fun ⟨q, hq⟩ =>
    (C92_product_partial rng logm hd hl hn seed s s0 s' h ρ p hrun q hq hf hg).1⟩
  obtain ⟨ρ', p', s1, h1, -, hpr, -⟩ := C56_density rng logm hd hl n hn seed s s0 h
  rw [h1] at hrun
  have := Except.ok.inj (Prod.mk.inj hrun).1
  have e := eq_of_heq (Sigma.mk.inj this).2
  obtain ⟨rfl, rfl⟩ := Prod.mk.inj e
  have hf' := hf
  rw [jordanWignerAlphas_eq] at hf'
  obtain rfl := List.ofFn_injective hf'
  have hW := exec_rot rng hd logm hn (Or.inl ⟨rfl, rfl⟩ : Spec.StartState rng none s0 s0)
  have hR := rot_herm (n := n) rng logm hd hl s0
  have hWW := expm_unitary (skewHerm_I (quad_herm hR (al n)))
  rw [randomFFStateRotPDF, exec_bind_ok (exec_check hn s), exec_bind_ok (exec_seed rng h), exec_bind_ok hW,
    exec_bind_ok (exec_noDraw_ok (pyAssert_ok (allclose_of_eq hWW)) _), exec_bind_ok (exec_draw _ _), exec_pure] at h1
  have := Except.ok.inj (Prod.mk.inj h1).1
  have e := eq_of_heq (Sigma.mk.inj this).2
  obtain ⟨e1, e2⟩ := Prod.mk.inj e
  rw [← e1, e2] at hw
  have h' := product_gauss (p := indep (marg p')) (fun _ => rfl) hR rfl
  refine ⟨marg p', fun x => ?_⟩
  refine congrFun (wick_indep hpr.sum_one hR rfl hw (wick_both hf hg h' ?_).1) x
  rw [trace_mul_comm, ← Matrix.mul_assoc, mul_eq_one_comm.1 hWW, one_mul, trace_diagonal]
  exact_mod_cast indep_sum _

/-- C92, partial. For one site Wick's theorem always holds. -/
theorem C92_one_site_partial (hd : Spec.DrawsOk rng) (hl : Spec.LogmOk logm)
    (seed : Option ℤ) (s s0 s' : σ) (h : Spec.StartState rng seed s s0) (ρ : Op (2 ^ 1)) (p : Fin (2 ^ 1) → ℝ)
    (hrun : (randomFFStateRotPDF rng logm (.int 1) seed).exec s = (.ok ⟨1, ρ, p⟩, s'))
    {f g : Fin (1 + 1) → Op (2 ^ 1)} (hf : jordanWignerAlphas 1 = List.ofFn f) (hg : jordanWignerMajoranas 1 = List.ofFn g) :
    Spec.ObeysWick f ρ ∧ Spec.ObeysWick g ρ := by
  refine C92_product_partial rng logm hd hl le_rfl seed s s0 s' h ρ p hrun (fun _ => p 1) (fun x => ?_) hf hg
  obtain ⟨ρ', p', s1, h1, -, hpr, -⟩ := C56_density rng logm hd hl 1 le_rfl seed s s0 h
  have := Except.ok.inj (Prod.mk.inj (h1.symm.trans hrun)).1
  obtain ⟨rfl, rfl⟩ := Prod.mk.inj (eq_of_heq (Sigma.mk.inj this).2)
  have hs : p' 0 + p' 1 = 1 := (Fin.sum_univ_two p').symm.trans hpr.sum_one
  rw [Fin.prod_univ_one]
  revert x
  refine Fin.forall_fin_two.2 ⟨?_, ?_⟩
  · rw [if_neg (by decide)]; linarith
  · rw [if_pos (by decide)]

end

theorem contract_four {k : ℕ} (G : Op k) (L : Fin 4 → Fin k) : Spec.contract G 4 L =
    G (L 0) (L 1) * G (L 2) (L 3) - G (L 0) (L 2) * G (L 1) (L 3) + G (L 0) (L 3) * G (L 1) (L 2) := by
  rw [Spec.contract, Fin.sum_univ_three]
  simp only [Spec.contract, Fin.sum_univ_one, Fin.val_zero, Fin.val_one, Fin.val_two, pow_zero, pow_one, one_mul, mul_one]
  have h1 : ∀ x : Fin 2, ((0 : Fin 3).succAbove x).succ = ![2, 3] x := by decide
  have h2 : ∀ x : Fin 2, ((1 : Fin 3).succAbove x).succ = ![1, 3] x := by decide
  have h3 : ∀ x : Fin 2, ((2 : Fin 3).succAbove x).succ = ![1, 2] x := by decide
  simp only [h1, h2, h3]
  simp
  ring

/-- The generator that draws the identity and puts the weight on the empty and on the full pattern. -/
noncomputable def catRng : Rng ℕ :=
  { demoRng fun _ _ => 1 with
    dirichlet := fun d s => (fun i => (if i.val = 0 then 1 / 2 else 0) + if i.val = d - 1 then 1 / 2 else 0, s + 1) }

theorem cat_ok : Spec.DrawsOk catRng := by
  have h : Spec.DrawsOk (demoRng fun _ _ => 1) := demo_ok (by simp) (by simp)
  refine ⟨h.orthogonal, h.orthogonal_det, h.unitary, fun d hd s => ⟨fun i => ?_, ?_⟩, h.exponential, h.randint⟩
  · simp only [catRng]
    split_ifs <;> norm_num
  · simp only [catRng]
    rw [Finset.sum_add_distrib]
    have e1 : ∀ i : Fin d, (i.val = 0) = (i = ⟨0, hd⟩) := fun i => by rw [Fin.ext_iff]
    have e2 : ∀ i : Fin d, (i.val = d - 1) = (i = ⟨d - 1, by omega⟩) := fun i => by rw [Fin.ext_iff]
    simp only [e1, e2, Finset.sum_ite_eq', Finset.mem_univ, if_true]
    norm_num

theorem cat_wick : ¬ Spec.ObeysWick (al 2) (diagonal fun x : Fin (2 ^ 2) =>
    (((if x.val = 0 then 1 / 2 else 0) + if x.val = 2 ^ 2 - 1 then 1 / 2 else 0 : ℝ) : ℂ)) := by
  intro h
  set ρ : Op (2 ^ 2) := diagonal fun x : Fin (2 ^ 2) =>
    (((if x.val = 0 then 1 / 2 else 0) + if x.val = 2 ^ 2 - 1 then 1 / 2 else 0 : ℝ) : ℂ) with hρ
  set φ : Fin (2 ^ 2) → ℂ := Spec.fock (fun _ : Fin 2 => 0) with hφ
  set χ : Fin (2 ^ 2) → ℂ := Spec.fock (fun _ : Fin 2 => 1) with hχ
  have e0 : bIdx (fun _ : Fin 2 => (0 : Fin 2)) = (0 : Fin (2 ^ 2)) := by decide
  have e3 : bIdx (fun _ : Fin 2 => (1 : Fin 2)) = (3 : Fin (2 ^ 2)) := by decide
  have hev : ∀ X : Op (2 ^ 2), (ρ * X).trace = 1 / 2 * (X *ᵥ φ) 0 + 1 / 2 * (X *ᵥ χ) 3 := by
    intro X
    rw [hφ, hχ, fock_eq, fock_eq, e0, e3, mulVec_single_one, mulVec_single_one, trace, hρ]
    simp only [diag_apply, diagonal_mul, col_apply]
    refine (Fin.sum_univ_four _).trans ?_
    norm_num
  have al0 : al 2 0 = (jwLower 2 (0 : Fin 2))ᴴ := al_left 2 0
  have al1 : al 2 1 = (jwLower 2 (1 : Fin 2))ᴴ := al_left 2 1
  have al2 : al 2 2 = jwLower 2 (0 : Fin 2) := al_right 2 0
  have al3 : al 2 3 = jwLower 2 (1 : Fin 2) := al_right 2 1
  have a2 : al 2 2 *ᵥ φ = 0 := by rw [al2, hφ, jwLower_fock, if_neg (by decide)]
  have a3 : al 2 3 *ᵥ φ = 0 := by rw [al3, hφ, jwLower_fock, if_neg (by decide)]
  have c0 : al 2 0 *ᵥ χ = 0 := by rw [al0, hχ, jwRaise_fock, if_neg (by decide)]
  have c1 : al 2 1 *ᵥ χ = 0 := by rw [al1, hχ, jwRaise_fock, if_neg (by decide)]
  have c2 : al 2 0 *ᵥ (al 2 2 *ᵥ χ) = χ := by
    rw [al0, al2, hχ, jwLower_fock, if_pos rfl, mulVec_smul, jwRaise_fock, if_pos (by simp)]
    simp
  have c3 : al 2 1 *ᵥ (al 2 3 *ᵥ χ) = χ := by
    rw [al1, al3, hχ, jwLower_fock, if_pos rfl, mulVec_smul, jwRaise_fock, if_pos (by simp)]
    simp
  have c03 : al 2 0 *ᵥ (al 2 3 *ᵥ χ) = 0 := by
    rw [al0, al3, hχ, jwLower_fock, if_pos rfl, mulVec_smul, jwRaise_fock, if_neg (by decide), smul_zero]
  have hb : (al 2 0 *ᵥ (al 2 1 *ᵥ φ)) 0 = 0 := by
    rw [al0, al1, hφ, jwRaise_fock, if_pos rfl, mulVec_smul, jwRaise_fock, if_pos (by decide), Pi.smul_apply, Pi.smul_apply,
      fock_eq, Pi.single_apply, if_neg (by decide), smul_zero, smul_zero]
  have hχ3 : χ 3 = 1 := by rw [hχ, fock_eq, e3, Pi.single_eq_same]
  have g02 : (ρ * al 2 0 * al 2 2).trace = 1 / 2 := by
    rw [Matrix.mul_assoc, hev, ← mulVec_mulVec, ← mulVec_mulVec, a2, c2, mulVec_zero, hχ3]; simp
  have g13 : (ρ * al 2 1 * al 2 3).trace = 1 / 2 := by
    rw [Matrix.mul_assoc, hev, ← mulVec_mulVec, ← mulVec_mulVec, a3, c3, mulVec_zero, hχ3]; simp
  have g01 : (ρ * al 2 0 * al 2 1).trace = 0 := by
    rw [Matrix.mul_assoc, hev, ← mulVec_mulVec, ← mulVec_mulVec, hb, c1, mulVec_zero]; simp
  have g03 : (ρ * al 2 0 * al 2 3).trace = 0 := by
    rw [Matrix.mul_assoc, hev, ← mulVec_mulVec, ← mulVec_mulVec, a3, c03, mulVec_zero]; simp
  have h4 := h 4 ![0, 2, 1, 3]
  have hp : (List.ofFn fun i => al 2 ((![0, 2, 1, 3] : Fin 4 → Fin (2 + 2)) i)).prod =
      al 2 0 * (al 2 2 * (al 2 1 * al 2 3)) := by
    simp [List.ofFn_succ]
  rw [hp, contract_four, hev] at h4
  simp only [← mulVec_mulVec, a3, c3, c2, mulVec_zero, hχ3, of_apply] at h4
  simp only [Matrix.cons_val_zero, Matrix.cons_val_one, Matrix.cons_val] at h4
  rw [g02, g13, g01, g03] at h4
  norm_num at h4

/-- C92 fails in general: with the drawn rotation equal to the identity and the drawn distribution `(1/2, 0, 0, 1/2)`, the
state of two sites that `random_FF_state_rotPDF` returns does not obey Wick's theorem, so it is not a free-fermion state. -/
theorem C92_fails : ∃ (rng : Rng ℕ) (logm : (d : ℕ) → Op d → Op d) (ρ : Op (2 ^ 2)) (p : Fin (2 ^ 2) → ℝ) (s' : ℕ),
    Spec.DrawsOk rng ∧ Spec.LogmOk logm ∧ (randomFFStateRotPDF rng logm (.int 2) none).exec 0 = (.ok ⟨2, ρ, p⟩, s') ∧
    ∀ f : Fin (2 + 2) → Op (2 ^ 2), jordanWignerAlphas 2 = List.ofFn f → ¬ Spec.ObeysWick f ρ := by
  obtain ⟨logm, hl⟩ := logm_exists
  have hW := exec_rot catRng cat_ok logm (show 1 ≤ 2 by norm_num) (Or.inl ⟨rfl, rfl⟩ : Spec.StartState catRng none 0 0)
  have ho : orb (catRng.orthogonal (2 + 2) 0).1 = 1 := orb_one 2
  rw [ho, logm_one hl] at hW
  have hz : genMat (0 : Op (2 + 2)) = 0 := by simp [genMat]
  have hd0 : Spec.dropSmall 1e-10 (0 : Op (2 + 2)) = 0 := by ext i j; simp [Spec.dropSmall]
  have hq : Spec.quad (0 : Op (2 + 2)) (al 2) = 0 := by simp [Spec.quad]
  rw [hz, hd0, hq, smul_zero, expm, NormedSpace.exp_zero] at hW
  refine ⟨catRng, logm, ?a, ?b, ?c, cat_ok, hl, ?d, ?e⟩
  case d =>
    rw [randomFFStateRotPDF]
    refine (exec_bind_ok (exec_check (show 1 ≤ 2 by norm_num) 0)).trans ?_
    rw [exec_bind_ok (exec_seed catRng (Or.inl ⟨rfl, rfl⟩)), exec_bind_ok hW,
      exec_bind_ok (exec_noDraw_ok (pyAssert_ok (allclose_of_eq (by simp))) _), exec_bind_ok (exec_draw _ _), exec_pure]
  case e =>
    intro f hf
    rw [jordanWignerAlphas_eq] at hf
    obtain rfl := List.ofFn_injective hf
    rw [conjTranspose_one, mul_one, one_mul]
    exact cat_wick

/-- A run that meets the hypotheses of `C92_product_partial` with a distribution that is not concentrated: the uniform
one. -/
example : ∃ (rng : Rng ℕ) (logm : (d : ℕ) → Op d → Op d) (ρ : Op (2 ^ 2)) (p : Fin (2 ^ 2) → ℝ) (s' : ℕ),
    Spec.DrawsOk rng ∧ Spec.LogmOk logm ∧ (randomFFStateRotPDF rng logm (.int (2 : ℕ)) none).exec 0 = (.ok ⟨2, ρ, p⟩, s') ∧
    ∀ x, p x = ∏ i : Fin 2, if Spec.digit 2 2 x i = 1 then (1 / 2 : ℝ) else 1 - 1 / 2 := by
  obtain ⟨logm, hl⟩ := logm_exists
  have hd : Spec.DrawsOk (demoRng fun _ _ => 1) := demo_ok (by simp) (by simp)
  have hW := exec_rot (demoRng fun _ _ => 1) hd logm (show 1 ≤ 2 by norm_num) (Or.inl ⟨rfl, rfl⟩ : Spec.StartState _ none 0 0)
  have hWW := expm_unitary (skewHerm_I (quad_herm (rot_herm (n := 2) (demoRng fun _ _ => 1) logm hd hl 0) (al 2)))
  refine ⟨_, logm, ?a, ?b, ?c, hd, hl, ?d, ?e⟩
  case d =>
    rw [randomFFStateRotPDF, exec_bind_ok (exec_check (show 1 ≤ 2 by norm_num) 0),
      exec_bind_ok (exec_seed _ (Or.inl ⟨rfl, rfl⟩)), exec_bind_ok hW,
      exec_bind_ok (exec_noDraw_ok (pyAssert_ok (allclose_of_eq hWW)) _), exec_bind_ok (exec_draw _ _), exec_pure]
  case e =>
    intro x
    simp only [demoRng]
    have : ∀ b : Prop, [Decidable b] → (if b then (1 / 2 : ℝ) else 1 - 1 / 2) = 1 / 2 := fun b _ => by split_ifs <;> norm_num
    simp only [this]
    norm_num

end FF.Props
