import Verif.Props.RandomStates
import Verif.Proofs.GibbsInj
import Mathlib.Analysis.InnerProductSpace.PiL2

/-! # Draws that lead to a prescribed result -/

namespace FF

open Matrix
open scoped ComplexConjugate ComplexOrder

/-- A generator whose first draws are prescribed: the `k`-th draw of `randn(n, n)` gives `R k`. -/
noncomputable def scriptRng {N n : ℕ} (O : RMat N) (U : Op N) (p : Fin N → ℝ) (R : ℕ → RMat n) : Rng ℕ where
  seeded k := k
  orthogonal m s := (if h : m = N then h ▸ O else 1, s + 1)
  unitary d s := (if h : d = N then h ▸ U else 1, s + 1)
  randn r c s := (Matrix.of fun i j => if h : (i : ℕ) < n ∧ (j : ℕ) < n then R s ⟨i, h.1⟩ ⟨j, h.2⟩ else 0, s + 1)
  dirichlet d s := (if h : d = N then h ▸ p else fun _ => 1 / d, s + 1)
  exponential s := (1, s + 1)
  randint k s := (0, s + 1)

theorem script_ok {N n : ℕ} {O : RMat N} {U : Op N} {p : Fin N → ℝ} (R : ℕ → RMat n) (hO : O * Oᵀ = 1)
    (hdet : O.det = 1) (hU : U * Uᴴ = 1) (hp : Spec.IsProb p) : Spec.DrawsOk (scriptRng O U p R) where
  orthogonal m s := by
    simp only [scriptRng]
    split_ifs with h
    · subst h; exact hO
    · simp
  orthogonal_det m s := by
    simp only [scriptRng]
    split_ifs with h
    · subst h; exact hdet
    · simp
  unitary d s := by
    simp only [scriptRng]
    split_ifs with h
    · subst h; exact hU
    · simp
  dirichlet d hd s := by
    simp only [scriptRng]
    split_ifs with h
    · subst h; exact hp
    · have : (d : ℝ) ≠ 0 := by exact_mod_cast hd.ne'
      exact ⟨fun i => by simp, by simp [this]⟩
  exponential s := by simp [scriptRng]
  randint k hk s := by simpa [scriptRng] using hk

theorem prob_exists : Spec.IsProb (fun _ : Fin 1 => (1 : ℝ)) := ⟨fun _ => zero_le_one, by simp⟩

theorem script_randn {N n : ℕ} (O : RMat N) (U : Op N) (p : Fin N → ℝ) (R : ℕ → RMat n) (s : ℕ) :
    (scriptRng O U p R).randn n n s = (R s, s + 1) := by
  simp only [scriptRng]
  congr 1
  ext i j
  simp

theorem script_unitary {N n : ℕ} (O : RMat N) (U : Op N) (p : Fin N → ℝ) (R : ℕ → RMat n) (s : ℕ) :
    (scriptRng O U p R).unitary N s = (U, s + 1) := by
  simp [scriptRng]

theorem script_orthogonal {N n : ℕ} (O : RMat N) (U : Op N) (p : Fin N → ℝ) (R : ℕ → RMat n) (s : ℕ) :
    (scriptRng O U p R).orthogonal N s = (O, s + 1) := by
  simp [scriptRng]

theorem script_dirichlet {N n : ℕ} (O : RMat N) (U : Op N) (p : Fin N → ℝ) (R : ℕ → RMat n) (s : ℕ) :
    (scriptRng O U p R).dirichlet N s = (p, s + 1) := by
  simp [scriptRng]

/-- A complex array is its real part plus `i` times its imaginary part. -/
theorem re_add_im_arr {n : ℕ} (M : Op n) : toC (M.map Complex.re) + Complex.I • toC (M.map Complex.im) = M := by
  ext i j
  simp only [toC, Matrix.add_apply, Matrix.smul_apply, Matrix.map_apply, smul_eq_mul]
  rw [mul_comm]
  exact Complex.re_add_im _

/-- The draws that give the array `X` and then the array `Y`. -/
noncomputable def drawsOf {n : ℕ} (X Y : Op n) : ℕ → RMat n := fun k =>
  if k = 0 then X.map Complex.re else if k = 1 then X.map Complex.im else if k = 2 then Y.map Complex.re else
    Y.map Complex.im

/-- Unitary canonical arrays with determinant one come from special orthogonal ones. -/
theorem exists_orb {n : ℕ} {C : Op (n + n)} (hC : C * Cᴴ = 1) (hcan : IsCanonicalU C) (hdet : C.det = 1) :
    ∃ O : RMat (n + n), O * Oᵀ = 1 ∧ O.det = 1 ∧ orb O = C := by
  set Ω := buildOmega n with hΩ
  set X : Op (n + n) := Ω * C * Ωᴴ with hX
  have hreal : cj X = X := by
    rw [hX, cj_mul, cj_mul, cj_omega, cj_omega_dag]
    have : Ω * swapS n * cj C * (swapS n * Ωᴴ) = Ω * (swapS n * cj C * swapS n) * Ωᴴ := by simp only [mul_assoc]
    rw [this, hcan]
  have hO : toC (X.map Complex.re) = X := by
    ext i j
    have h1 : conj (X i j) = X i j := congrFun (congrFun hreal i) j
    exact (Complex.conj_eq_iff_re.1 h1)
  have hXX : X * Xᴴ = 1 := by
    rw [hX]
    simp only [conjTranspose_mul, conjTranspose_conjTranspose]
    calc Ω * C * Ωᴴ * (Ω * (Cᴴ * Ωᴴ)) = Ω * (C * (Ωᴴ * Ω) * Cᴴ) * Ωᴴ := by simp only [mul_assoc]
      _ = 1 := by rw [omega_unitary, mul_one, hC, mul_one, omega_unitary']
  have hinj : ∀ {A B : RMat (n + n)}, toC A = toC B → A = B := by
    intro A B h
    ext i j
    exact Complex.ofReal_injective (congrFun (congrFun h i) j)
  refine ⟨X.map Complex.re, ?_, ?_, ?_⟩
  · apply hinj
    rw [toC_mul, ← toC_transpose, toC_one, hO, ← hXX]
    congr 1
    rw [conjTranspose, ← show cj Xᵀ = (Xᵀ).map star from rfl]
    have : cj Xᵀ = (cj X)ᵀ := rfl
    rw [this, hreal]
  · apply Complex.ofReal_injective
    have h1 : ((X.map Complex.re).det : ℂ) = (toC (X.map Complex.re)).det := by
      rw [toC]
      exact (RingHom.map_det Complex.ofRealHom _)
    rw [h1, hO, hX, det_mul, det_mul, hdet, mul_one, ← det_mul, omega_unitary', det_one]
    simp
  · rw [orb, hO, hX]
    calc Ωᴴ * (Ω * C * Ωᴴ) * Ω = (Ωᴴ * Ω) * C * (Ωᴴ * Ω) := by simp only [mul_assoc]
      _ = C := by rw [omega_unitary, one_mul, mul_one]

/-- Unitary symplectic arrays have the canonical form. -/
theorem canonical_of_symp {n : ℕ} {C : Op (n + n)} (hC : C * Cᴴ = 1) (hs : Spec.IsSymplectic C) : IsCanonicalU C := by
  rw [symp_iff] at hs
  have h1 : cj C * Cᵀ = 1 := by
    have := congrArg cj hC
    rw [cj_mul] at this
    have h2 : cj Cᴴ = Cᵀ := by ext i j; simp [cj]
    rw [h2] at this
    rw [this]
    ext i j
    by_cases hij : i = j <;> simp [cj, one_apply, hij]
  have h2 : Cᵀ * cj C = 1 := mul_eq_one_comm.1 h1
  unfold IsCanonicalU
  calc swapS n * cj C * swapS n = C * swapS n * Cᵀ * cj C * swapS n := by rw [hs]
    _ = C * swapS n * (Cᵀ * cj C) * swapS n := by simp only [mul_assoc]
    _ = C := by rw [h2, mul_one, mul_assoc, swapS_sq, mul_one]

theorem orb_det {n : ℕ} {O : RMat (n + n)} (h : O.det = 1) : (orb O).det = 1 := by
  have h1 : (toC O).det = ((O.det : ℝ) : ℂ) := (RingHom.map_det Complex.ofRealHom _).symm
  rw [orb, det_mul, det_mul, h1, h]
  rw [Complex.ofReal_one, mul_one, ← det_mul, omega_unitary, det_one]

/-- Every unit vector is the first column of a unitary array. -/
theorem exists_unitary_first {d : ℕ} (hd : 0 < d) {v : Fin d → ℂ} (hv : Spec.IsUnitVec v) :
    ∃ U : Op d, U * Uᴴ = 1 ∧ U *ᵥ zeroState d = v := by
  have hin : ∀ x y : EuclideanSpace ℂ (Fin d), inner ℂ x y = ∑ i, star (x i) * y i := by
    intro x y
    rw [EuclideanSpace.inner_eq_star_dotProduct, dotProduct_comm]
    rfl
  let V : Fin d → EuclideanSpace ℂ (Fin d) := fun _ => WithLp.toLp 2 v
  have ho : Orthonormal ℂ (({⟨0, hd⟩} : Set (Fin d)).restrict V) := by
    rw [orthonormal_iff_ite]
    rintro ⟨x, hx⟩ ⟨y, hy⟩
    obtain rfl : x = ⟨0, hd⟩ := hx
    obtain rfl : y = ⟨0, hd⟩ := hy
    rw [if_pos rfl, hin]
    change ∑ i, star (v i) * v i = 1
    rw [Spec.IsUnitVec] at hv
    have : ∀ i, star (v i) * v i = ((‖v i‖ ^ 2 : ℝ) : ℂ) := by
      intro i
      rw [Complex.star_def, Complex.conj_mul']
      push_cast; rfl
    simp only [this, ← Complex.ofReal_sum, hv, Complex.ofReal_one]
  obtain ⟨b, hb⟩ := ho.exists_orthonormalBasis_extension_of_card_eq (by simp)
  have h1 : (Matrix.of fun x a => b a x : Op d)ᴴ * (Matrix.of fun x a => b a x) = 1 := by
    ext i j
    have := (orthonormal_iff_ite.1 b.orthonormal) i j
    rw [hin] at this
    rw [mul_apply, one_apply]
    exact this
  refine ⟨Matrix.of fun x a => b a x, mul_eq_one_comm.1 h1, ?_⟩
  ext x
  have h0 := hb ⟨0, hd⟩ rfl
  rw [mulVec, dotProduct, Finset.sum_eq_single (⟨0, hd⟩ : Fin d)]
  · simp [zeroState, h0, V]
  · intro j _ hj
    have : (j : ℕ) ≠ 0 := fun h => hj (Fin.ext h)
    simp [zeroState, this]
  · simp

/-- Every density matrix is a probability distribution conjugated by a unitary array. -/
theorem exists_density_conj {d : ℕ} {ρ : Op d} (h : Spec.IsDensity ρ) :
    ∃ (U : Op d) (p : Fin d → ℝ), U * Uᴴ = 1 ∧ Spec.IsProb p ∧ U * diagonal (fun i => ((p i : ℝ) : ℂ)) * Uᴴ = ρ := by
  have hH := h.psd.isHermitian
  have hs := hH.spectral_theorem
  rw [Unitary.conjStarAlgAut_apply] at hs
  refine ⟨hH.eigenvectorUnitary, hH.eigenvalues, Unitary.coe_mul_star_self hH.eigenvectorUnitary,
    ⟨fun i => h.psd.eigenvalues_nonneg i, ?_⟩, hs.symm⟩
  have := hH.trace_eq_sum_eigenvalues
  rw [h.trace_one] at this
  apply Complex.ofReal_injective
  rw [Complex.ofReal_sum]
  exact this.symm

end FF
