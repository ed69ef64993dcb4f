import Verif.Model.Eigen
import Verif.Spec.Eigen
import Verif.Spec.Coefficients
import Verif.Proofs.Eigen3
import Verif.Proofs.SchurAlign

/-!
# Properties C45-C48: the symplectic eigensolvers

Throughout, `schur` and `argsort` are arbitrary functions; the hypotheses say that they meet scipy's and
numpy's contracts (`Spec/Eigen.lean`) on the arrays they are called with. `H` is the array the solver is
given and `Majorana H = i Ω H Ω†` the real array that is decomposed.
-/

namespace FF.Props

open Matrix
open scoped ComplexConjugate

/-- `schur` meets scipy's contract for the array that `eigh_sp(H)` decomposes: whenever the real array `M`
is `i Ω H Ω†`, `schur M` is a real Schur form of `M` with the eigenvalues of modulus above 1e-10 first. -/
def SchurOk {n : ℕ} (H : Op (n + n)) (schur : RMat (n + n) → RMat (n + n) × RMat (n + n)) : Prop :=
  ∀ M : RMat (n + n), Complex.I • buildOmega n * H * (buildOmega n)ᴴ = toC M →
    Spec.IsSortedSchur 1e-10 M (schur M).1 (schur M).2

/-- `argsort` meets numpy's contract. -/
def ArgsortOk {n : ℕ} (argsort : (Fin n → ℝ) → Fin n → ℕ) : Prop := ∀ v, Spec.IsArgsort v (argsort v)

/-- No eigenvalue of `H` is small but different from zero. -/
def NoTinyEigenvalue {m : ℕ} (H : Op m) : Prop :=
  ∀ (μ : ℂ) (v : Fin m → ℂ), v ≠ 0 → H.mulVec v = μ • v → μ = 0 ∨ 1e-10 < ‖μ‖

/-- C45. `eigh_sp(build_H(n, A, B))` passes all its assertions and returns `(L, U)` with `U` unitary,
symplectic and of the form `[[s, t], [t*, s*]]`, `U† H U = L`, and `L = diag(-Σ, Σ)` up to errors of at most
`2e-10` that come from its cut-off `1e-10`; without eigenvalues between 0 and the cut-off, exactly. -/
theorem C45_diagonalises {n : ℕ} (A B : Op n) (hA : A.IsHermitian) (hB : Bᵀ = -B)
    (schur : RMat (n + n) → RMat (n + n) × RMat (n + n)) (argsort : (Fin n → ℝ) → Fin n → ℕ)
    (hschur : SchurOk (buildH n A (some B)) schur) (hsort : ArgsortOk argsort) :
    ∃ L U : Op (n + n), eighSp schur argsort (buildH n A (some B)) = .ok (L, U) ∧
      U ∈ Matrix.unitaryGroup (Fin (n + n)) ℂ ∧ Spec.IsSymplectic U ∧
      (∃ s t : Op n, U = blk s t (cj t) (cj s)) ∧
      Uᴴ * buildH n A (some B) * U = L ∧
      ∃ sig : Fin n → ℝ, (∀ x y, ‖L x y - Spec.standardForm sig x y‖ ≤ 2e-10) ∧
        (NoTinyEigenvalue (buildH n A (some B)) → L = Spec.standardForm sig) := by
  obtain ⟨L, U, s, hrun, hU, hc, hL, hap, hex⟩ := eigh_main schur argsort (buildH_herm A B hA hB)
    (buildH_ph A B hA hB) hschur hsort
  refine ⟨L, U, hrun, mem_unitaryGroup_iff.2 hU, symp_of_canonical hc hU, ?_, hL, s, hap, hex⟩
  obtain ⟨a, b, c, d, hUe⟩ := exists_blk U
  refine ⟨a, b, ?_⟩
  rw [hUe]
  apply blk_congr
  · rfl
  · rfl
  · ext i j
    have := canonicalU_entries hc (Fin.castAdd n i) (Fin.natAdd n j)
    rw [fl_left, fl_right, hUe, blk_21, blk_12] at this
    exact this
  · ext i j
    have := canonicalU_entries hc (Fin.castAdd n i) (Fin.castAdd n j)
    rw [fl_left, fl_left, hUe, blk_22, blk_11] at this
    exact this

/-- C45. Inputs that are not particle-hole symmetric are rejected by an assertion, if the violation is
beyond the tolerance. -/
theorem C45_rejects {n : ℕ} (H : Op (n + n)) (schur : RMat (n + n) → RMat (n + n) × RMat (n + n))
    (argsort : (Fin n → ℝ) → Fin n → ℕ)
    (h : ¬ allclose 0 (Complex.I • buildOmega n * H * (buildOmega n)ᴴ +
      (Complex.I • buildOmega n * H * (buildOmega n)ᴴ)ᵀ)) :
    eighSp schur argsort H = .error .assertionError := by
  classical
  rw [eighSp, pyAssert, if_neg h]
  rfl

/-- The contracts can be met: for one site every skew-symmetric array is its own sorted Schur form. -/
theorem schurOk_one {H : Op (1 + 1)} (hH : H.IsHermitian) (hP : swapS 1 * Hᵀ * swapS 1 = -H) :
    SchurOk H (fun M => (M, 1)) := by
  intro M hM
  obtain ⟨M', hs, hih⟩ := ih_facts hH hP
  have hMM : M' = M := toC_injective (hih.symm.trans hM)
  subst hMM
  have hab := skew_apply hs 0 1
  have h00 := skew_apply hs 0 0
  have h11 := skew_apply hs 1 1
  refine { orth := by simp, decomp := by simp, quasi := ?_, blocks := ?_, sorted := ?_ }
  · intro i j hij; omega
  · intro i j k h1 h2; omega
  · intro i j hij h k
    have e0 : |M' 0 0| ≤ 1e-10 := by rw [show M' 0 0 = 0 by linarith, abs_zero]; norm_num
    have e1 : |M' 1 1| ≤ 1e-10 := by rw [show M' 1 1 = 0 by linarith, abs_zero]; norm_num
    have e2 : |M' 0 1| = |M' 1 0| := by rw [hab, abs_neg]
    have h0 := h 0
    have h1 := h 1
    have both : |M' 0 1| ≤ 1e-10 ∧ |M' 1 0| ≤ 1e-10 := by
      fin_cases i
      · exact ⟨h1, e2 ▸ h1⟩
      · exact ⟨e2 ▸ h0, h0⟩
    fin_cases j <;> fin_cases k
    · exact e0
    · exact both.1
    · exact both.2
    · exact e1

example : ∃ (schur : RMat (1 + 1) → RMat (1 + 1) × RMat (1 + 1)) (argsort : (Fin 1 → ℝ) → Fin 1 → ℕ),
    (!![2] : Op 1).IsHermitian ∧ (0 : Op 1)ᵀ = -0 ∧ SchurOk (buildH 1 !![2] (some 0)) schur ∧ ArgsortOk argsort := by
  have hA : (!![2] : Op 1).IsHermitian := by ext i j; fin_cases i; fin_cases j; simp
  obtain ⟨as, has⟩ := argsort_exists (n := 1)
  exact ⟨_, as, hA, by simp, schurOk_one (buildH_herm _ _ hA (by simp)) (buildH_ph _ _ hA (by simp)), has⟩

/-- The contract of the Schur decomposition can be met for every input of the eigensolvers. -/
theorem schurOk_exists {n : ℕ} {H : Op (n + n)} (hH : H.IsHermitian) (hP : swapS n * Hᵀ * swapS n = -H) :
    ∃ schur, SchurOk H schur := by
  obtain ⟨M', hs, hih⟩ := ih_facts hH hP
  obtain ⟨T, Z, h1, h2, -, h3, h4, h5⟩ := schur_exists _ M' hs
  refine ⟨fun _ => (T, Z), fun M hM => ?_⟩
  have hMM : M' = M := toC_injective (hih.symm.trans hM)
  subst hMM
  exact { orth := h1, decomp := h2, quasi := h3, blocks := h4, sorted := h5 _ }

/-- The hypotheses of C45 and C47 are met for all coefficients `A` and `B`. -/
example {n : ℕ} (A B : Op n) (hA : A.IsHermitian) (hB : Bᵀ = -B) :
    ∃ (schur : RMat (n + n) → RMat (n + n) × RMat (n + n)) (argsort : (Fin n → ℝ) → Fin n → ℕ),
      SchurOk (buildH n A (some B)) schur ∧ ArgsortOk argsort := by
  obtain ⟨schur, hs⟩ := schurOk_exists (buildH_herm A B hA hB) (buildH_ph A B hA hB)
  obtain ⟨as, has⟩ := argsort_exists (n := n)
  exact ⟨schur, as, hs, has⟩

/-- The rejected inputs of `C45_rejects` exist. -/
example : ¬ allclose 0 (Complex.I • buildOmega 1 * (1 : Op (1 + 1)) * (buildOmega 1)ᴴ +
      (Complex.I • buildOmega 1 * (1 : Op (1 + 1)) * (buildOmega 1)ᴴ)ᵀ) := by
  intro h
  have h1 := h 0 0
  rw [mul_one, Matrix.smul_mul, omega_unitary'] at h1
  have e : (Complex.I • (1 : Op (1 + 1)) + (Complex.I • (1 : Op (1 + 1)))ᵀ) 0 0 = 2 * Complex.I := by
    simp [two_mul]
  rw [isclose, e, Matrix.zero_apply, zero_sub, norm_neg, norm_mul, Complex.norm_I, Complex.norm_ofNat] at h1
  norm_num at h1

/-! ## C46 -/

/-- C46, the values that are returned: for `B = 0`, `A` not (nearly) zero and no tiny eigenvalues, `eigh_sp` returns
`diag(-Σ, Σ)` where, `λ` being `np.linalg.eigvalsh(A)` and `p` the permutation that sorts the moduli, `Σ_i` has the
modulus of `λ(p(p(i)))` and the sign of `λ(i)`. -/
theorem C46_values {n : ℕ} (A : Op n) (hA : A.IsHermitian)
    (schur : RMat (n + n) → RMat (n + n) × RMat (n + n)) (argsort : (Fin n → ℝ) → Fin n → ℕ)
    (hschur : SchurOk (buildH n A (some 0)) schur) (hsort : ArgsortOk argsort)
    (hgap : NoTinyEigenvalue (buildH n A (some 0))) (hne : ¬ allclose A 0) :
    ∃ sig U, eighSp schur argsort (buildH n A (some 0)) = .ok (Spec.standardForm sig, U) ∧
      (∀ i j k : Fin n, (j : ℕ) = argsort (fun i => |eigvalsh A i|) i →
        (k : ℕ) = argsort (fun i => |eigvalsh A i|) j → |sig i| = |eigvalsh A k|) ∧
      ∀ i, (0 < eigvalsh A i → 0 ≤ sig i) ∧ (eigvalsh A i < 0 → sig i ≤ 0) := by
  classical
  have hB : (0 : Op n)ᵀ = -0 := by simp
  obtain ⟨M, O, R, σ, hM, hih, hrun, hO, hR, hRs, hal, hσ, hcase⟩ :=
    eighSp_ok schur argsort (buildH_herm A 0 hA hB) (buildH_ph A 0 hA hB) hschur hsort
  have hA22 : blk22 (buildH n A (some 0)) = A := by
    ext i j; simp only [buildH, blk22]; exact blk_22 ..
  rw [hA22] at hcase
  obtain ⟨pA, pL, hpA, hpL, epA, epL, hRe⟩ := hcase hne
  obtain ⟨d, -, hU, hc, hL, -⟩ := finish_eq hO hih hR
  have hex := exact_of_gap hM hih (hschur M hih).toIsRealSchur hO hR hRs hal hσ hgap
  set T := (schur M).1 with hT
  set ℓ : Fin n → ℝ := fun i => T ⟨2 * i, by omega⟩ ⟨2 * i + 1, by omega⟩ with hℓ
  set s : Fin n → ℝ := fun i => - R ⟨2 * i, by omega⟩ ⟨2 * i + 1, by omega⟩ with hs
  have habs : ∀ i, |s i| = |ℓ (pL (pA i))| := by
    intro i
    simp only [hs, hRe i, abs_neg]
    split_ifs
    · rw [abs_neg]
    · rfl
  have hH0 : buildH n A (some 0) = blk (-(cj A)) 0 0 A := by
    simp only [buildH, Option.getD_some]
    apply blk_congr <;> first | rfl | (ext i j; simp [cj])
  have hm1 := spectrum_match hA hU (by rw [← hH0, ← hL]; exact hex)
  have hm2 : Finset.univ.val.map (fun i => |s i|) = Finset.univ.val.map (fun i => |ℓ i|) := by
    simp only [habs]
    exact map_inj_perm (hpL.comp hpA) (fun i => |ℓ i|)
  have hsorted : (fun i => |ℓ (pL i)|) = fun i => |eigvalsh A (pA i)| := by
    refine mono_unique ?_ ?_ ?_
    · intro i j hij
      have := (hsort (fun i => |ℓ i|)).sorted i j hij
      have e : ∀ i, (⟨argsort (fun i => |ℓ i|) i, (hsort _).lt i⟩ : Fin n) = pL i := fun i => Fin.ext (epL i).symm
      rw [e, e] at this
      exact this
    · intro i j hij
      have := (hsort (fun i => |eigvalsh A i|)).sorted i j hij
      have e : ∀ i, (⟨argsort (fun i => |eigvalsh A i|) i, (hsort _).lt i⟩ : Fin n) = pA i :=
        fun i => Fin.ext (epA i).symm
      rw [e, e] at this
      exact this
    · rw [map_inj_perm hpL (fun i => |ℓ i|), map_inj_perm hpA (fun i => |eigvalsh A i|), ← hm2, hm1]
  refine ⟨s, (eighFinish (buildH n A (some 0)) O).2, by rw [hrun, ← hex], ?_, ?_⟩
  · intro i j k hj hk
    have ej : j = pA i := Fin.ext (hj.trans (epA i).symm)
    have ek : k = pA j := Fin.ext (hk.trans (epA j).symm)
    rw [habs, ek, ej]
    exact congrFun hsorted (pA i)
  · intro i
    simp only [hs, hRe i]
    constructor
    · intro hi
      split_ifs with hsign
      · rw [neg_neg]
        unfold npSign at hsign
        rw [if_pos hi] at hsign
        split_ifs at hsign with h1 h2
        · exact h1.le
        · norm_num at hsign
        · norm_num at hsign
      · by_contra hcon
        push Not at hcon
        apply hsign
        unfold npSign
        rw [if_pos hi, if_pos (by linarith)]
    · intro hi
      split_ifs with hsign
      · rw [neg_neg]
        unfold npSign at hsign
        rw [if_neg hi.le.not_gt, if_pos hi] at hsign
        split_ifs at hsign with h1 h2
        · norm_num at hsign
        · exact h2.le
        · norm_num at hsign
      · by_contra hcon
        push Not at hcon
        apply hsign
        unfold npSign
        rw [if_neg hi.le.not_gt, if_pos hi, if_neg (by linarith), if_pos (by linarith)]

/-- The diagonal of `diag(-Σ, Σ)` determines `Σ`. -/
theorem standardForm_inj {n : ℕ} {a b : Fin n → ℝ} (h : Spec.standardForm a = Spec.standardForm b) : a = b := by
  funext i
  have := congrFun (congrFun h (Fin.natAdd n i)) (Fin.natAdd n i)
  simp only [Spec.standardForm, diagonal_apply_eq, Fin.append_right] at this
  exact_mod_cast this

/-- C46, exactly: for `B = 0`, `A` not (nearly) zero and no tiny eigenvalues, the second half of the returned
eigenvalues is `np.linalg.eigvalsh(A)`, in that order, if and only if the permutation `p` that sorts the moduli of
these eigenvalues satisfies `|λ(p(p(i)))| = |λ(i)|`. -/
theorem C46_iff {n : ℕ} (A : Op n) (hA : A.IsHermitian)
    (schur : RMat (n + n) → RMat (n + n) × RMat (n + n)) (argsort : (Fin n → ℝ) → Fin n → ℕ)
    (hschur : SchurOk (buildH n A (some 0)) schur) (hsort : ArgsortOk argsort)
    (hgap : NoTinyEigenvalue (buildH n A (some 0))) (hne : ¬ allclose A 0) :
    (∃ U, eighSp schur argsort (buildH n A (some 0)) = .ok (Spec.standardForm (eigvalsh A), U)) ↔
      ∀ i j k : Fin n, (j : ℕ) = argsort (fun i => |eigvalsh A i|) i →
        (k : ℕ) = argsort (fun i => |eigvalsh A i|) j → |eigvalsh A k| = |eigvalsh A i| := by
  obtain ⟨s, U, hrun, hab, hsg⟩ := C46_values A hA schur argsort hschur hsort hgap hne
  constructor
  · rintro ⟨U', h⟩ i j k hj hk
    rw [hrun] at h
    have := standardForm_inj (Prod.mk.inj (Except.ok.inj h)).1
    rw [← this, this, ← hab i j k hj hk, this]
  · intro hinv
    refine ⟨U, ?_⟩
    rw [hrun]
    congr 3
    funext i
    have hp := hsort (fun i => |eigvalsh A i|)
    have h1 := hab i ⟨_, hp.lt i⟩ ⟨_, hp.lt ⟨_, hp.lt i⟩⟩ rfl rfl
    rw [hinv i ⟨_, hp.lt i⟩ ⟨_, hp.lt ⟨_, hp.lt i⟩⟩ rfl rfl] at h1
    rcases lt_trichotomy (eigvalsh A i) 0 with h | h | h
    · rw [abs_of_nonpos ((hsg i).2 h), abs_of_neg h] at h1
      linarith
    · rw [h, abs_zero, abs_eq_zero] at h1
      rw [h, h1]
    · rw [abs_of_nonneg ((hsg i).1 h), abs_of_pos h] at h1
      exact h1

/-- C46 (partial). For `B = 0`, `A` not (nearly) zero and no tiny eigenvalues, the second half of the returned
eigenvalues is `np.linalg.eigvalsh(A)`, in that order, provided the permutation `p` that sorts the moduli of
these eigenvalues satisfies `|λ(p(p i))| = |λ(i)|`. Missing for the full property: all other sign patterns,
where it is false (`C46_violation`, `C46_iff`). -/
theorem C46_order_partial {n : ℕ} (A : Op n) (hA : A.IsHermitian)
    (schur : RMat (n + n) → RMat (n + n) × RMat (n + n)) (argsort : (Fin n → ℝ) → Fin n → ℕ)
    (hschur : SchurOk (buildH n A (some 0)) schur) (hsort : ArgsortOk argsort)
    (hgap : NoTinyEigenvalue (buildH n A (some 0))) (hne : ¬ allclose A 0)
    (hinv : ∀ i j k : Fin n, (j : ℕ) = argsort (fun i => |eigvalsh A i|) i →
      (k : ℕ) = argsort (fun i => |eigvalsh A i|) j → |eigvalsh A k| = |eigvalsh A i|) :
    ∃ U, eighSp schur argsort (buildH n A (some 0)) = .ok (Spec.standardForm (eigvalsh A), U) :=
  (C46_iff A hA schur argsort hschur hsort hgap hne).2 hinv

/-- C46. The order is always right for one or two sites. -/
theorem C46_two_partial {n : ℕ} (hn : n ≤ 2) (A : Op n) (hA : A.IsHermitian)
    (schur : RMat (n + n) → RMat (n + n) × RMat (n + n)) (argsort : (Fin n → ℝ) → Fin n → ℕ)
    (hschur : SchurOk (buildH n A (some 0)) schur) (hsort : ArgsortOk argsort)
    (hgap : NoTinyEigenvalue (buildH n A (some 0))) (hne : ¬ allclose A 0) :
    ∃ U, eighSp schur argsort (buildH n A (some 0)) = .ok (Spec.standardForm (eigvalsh A), U) := by
  refine C46_order_partial A hA schur argsort hschur hsort hgap hne fun i j k hj hk => ?_
  have hp := hsort (fun i => |eigvalsh A i|)
  congr 2
  by_contra hne'
  have hki : (k : ℕ) ≠ i := fun h => hne' (Fin.ext h)
  have h1 : (j : ℕ) ≠ k := fun h => by
    have h2 := hp.inj (hj.symm.trans (h.trans hk))
    rw [h2] at hki
    exact hki h.symm
  have h2 : (j : ℕ) ≠ i := fun h => by
    have : j = i := Fin.ext h
    rw [this] at hk hj
    exact hki (hk.trans hj.symm)
  omega

/-- C46, exactly, for eigenvalues of distinct moduli: the order is right if and only if the permutation that sorts the
moduli is its own inverse. -/
theorem C46_involution {n : ℕ} (A : Op n) (hA : A.IsHermitian)
    (schur : RMat (n + n) → RMat (n + n) × RMat (n + n)) (argsort : (Fin n → ℝ) → Fin n → ℕ)
    (hschur : SchurOk (buildH n A (some 0)) schur) (hsort : ArgsortOk argsort)
    (hgap : NoTinyEigenvalue (buildH n A (some 0))) (hne : ¬ allclose A 0)
    (hinj : Function.Injective fun i => |eigvalsh A i|) :
    (∃ U, eighSp schur argsort (buildH n A (some 0)) = .ok (Spec.standardForm (eigvalsh A), U)) ↔
      ∀ i j : Fin n, (j : ℕ) = argsort (fun i => |eigvalsh A i|) i → argsort (fun i => |eigvalsh A i|) j = i := by
  rw [C46_iff A hA schur argsort hschur hsort hgap hne]
  have hp := hsort (fun i => |eigvalsh A i|)
  constructor
  · intro h i j hj
    have := hinj (h i j ⟨_, hp.lt j⟩ hj rfl)
    exact congrArg Fin.val this
  · intro h i j k hj hk
    have : k = i := Fin.ext (hk.trans (h i j hj))
    rw [this]

/-- C46. In particular the order is right for every positive semidefinite `A`. -/
theorem C46_psd_partial {n : ℕ} (A : Op n) (hA : A.IsHermitian) (hpos : ∀ i, 0 ≤ eigvalsh A i)
    (schur : RMat (n + n) → RMat (n + n) × RMat (n + n)) (argsort : (Fin n → ℝ) → Fin n → ℕ)
    (hschur : SchurOk (buildH n A (some 0)) schur) (hsort : ArgsortOk argsort)
    (hgap : NoTinyEigenvalue (buildH n A (some 0))) (hne : ¬ allclose A 0) :
    ∃ U, eighSp schur argsort (buildH n A (some 0)) = .ok (Spec.standardForm (eigvalsh A), U) := by
  refine C46_order_partial A hA schur argsort hschur hsort hgap hne ?_
  have hp := hsort (fun i => |eigvalsh A i|)
  set pA : Fin n → Fin n := fun i => ⟨argsort (fun i => |eigvalsh A i|) i, hp.lt i⟩ with hpA
  have hpi : Function.Injective pA := fun i j h => hp.inj (by simpa [hpA] using h)
  have key : (fun i => |eigvalsh A (pA i)|) = fun i => |eigvalsh A i| := by
    refine mono_unique (fun i j hij => hp.sorted i j hij) ?_ (map_inj_perm hpi fun i => |eigvalsh A i|)
    intro i j hij
    simp only [abs_of_nonneg (hpos _)]
    exact eigvalsh_mono A hij
  intro i j k hj hk
  have ej : j = pA i := Fin.ext hj
  have ek : k = pA j := Fin.ext hk
  have h1 : |eigvalsh A (pA i)| = |eigvalsh A i| := congrFun key i
  have h2 : |eigvalsh A (pA j)| = |eigvalsh A j| := congrFun key j
  rw [ek, h2, ej, h1]

/-! ### the violation -/

/-- The eigenvalues of the counterexample. -/
def exD : Fin 3 → ℤ := ![-3, 1, 2]

/-- Its Hamiltonian matrix `diag(-3, 1, 2)`. -/
noncomputable def exA : Op 3 := diagonal fun i => (exD i : ℂ)

/-- The real array that `eigh_sp` decomposes for it. -/
def exM : Fin (3 + 3) → Fin (3 + 3) → ℤ := ![![0, 0, 0, 3, 0, 0], ![0, 0, 0, 0, -1, 0], ![0, 0, 0, 0, 0, -2],
  ![-3, 0, 0, 0, 0, 0], ![0, 1, 0, 0, 0, 0], ![0, 0, 2, 0, 0, 0]]

/-- A Schur form of that array: blocks `-1, -2, 3`. -/
def exT : Fin (3 + 3) → Fin (3 + 3) → ℤ := ![![0, -1, 0, 0, 0, 0], ![1, 0, 0, 0, 0, 0], ![0, 0, 0, -2, 0, 0],
  ![0, 0, 2, 0, 0, 0], ![0, 0, 0, 0, 0, 3], ![0, 0, 0, 0, -3, 0]]

/-- The orthogonal matrix of that Schur form, a permutation matrix. -/
def exTau : Fin (3 + 3) → Fin (3 + 3) := ![1, 4, 2, 5, 0, 3]
@[inherit_doc exTau] noncomputable def exZ : RMat (3 + 3) :=
  Matrix.of fun x y => (open Classical in if x = exTau y then (1 : ℝ) else 0)

/-- An integer array as a real one. -/
noncomputable def toR {m : ℕ} (M : Fin m → Fin m → ℤ) : RMat m := Matrix.of fun x y => (M x y : ℝ)

theorem exA_herm : exA.IsHermitian := by
  rw [IsHermitian, exA, diagonal_conjTranspose]
  congr 1
  funext i; simp

theorem exH : buildH 3 exA (some 0) = Spec.standardForm fun i => (exD i : ℝ) := by
  have e : (diagonal fun i => (((exD i : ℤ) : ℝ) : ℂ)) = exA := by
    rw [exA]; congr 1
  rw [standardForm_blk, e]
  simp only [buildH, Option.getD_some]
  apply blk_congr
  · rw [← e]; ext i j; simp only [cj, Matrix.neg_apply, map_apply, diagonal_apply]; split_ifs <;> simp
  · rfl
  · ext i j; simp [cj]
  · rfl

theorem exMajorana : Complex.I • buildOmega 3 * buildH 3 exA (some 0) * (buildOmega 3)ᴴ = toC (toR exM) := by
  rw [Matrix.smul_mul, Matrix.smul_mul, exH, standardForm_blk, omega_diag, smul_smul, Complex.I_mul_I, blk_smul]
  have h11 : ∀ i j : Fin 3, exM (Fin.castAdd 3 i) (Fin.castAdd 3 j) = 0 := by decide
  have h12 : ∀ i j : Fin 3, exM (Fin.castAdd 3 i) (Fin.natAdd 3 j) = if i = j then - exD i else 0 := by decide
  have h21 : ∀ i j : Fin 3, exM (Fin.natAdd 3 i) (Fin.castAdd 3 j) = if i = j then exD i else 0 := by decide
  have h22 : ∀ i j : Fin 3, exM (Fin.natAdd 3 i) (Fin.natAdd 3 j) = 0 := by decide
  apply ext_halves <;> intro i j <;> simp only [blk_11, blk_12, blk_21, blk_22, toC_apply, toR, of_apply,
    h11, h12, h21, h22, Matrix.smul_apply, diagonal_apply, Matrix.neg_apply, Matrix.zero_apply] <;>
    (try split_ifs) <;> simp

theorem exT_eq : ∀ x y : Fin (3 + 3), exT x y = exM (exTau x) (exTau y) := by decide

theorem exTau_inj : Function.Injective exTau := by decide

theorem standardForm_gap {n : ℕ} {s : Fin n → ℝ} (h : ∀ i, s i = 0 ∨ 1e-10 < |s i|) :
    NoTinyEigenvalue (Spec.standardForm s) := by
  intro μ v hv he
  obtain ⟨x, hx⟩ := Function.ne_iff.1 hv
  have h1 := congrFun he x
  rw [Spec.standardForm, mulVec_diagonal, Pi.smul_apply, smul_eq_mul] at h1
  have h2 := mul_right_cancel₀ hx h1
  rw [← h2]
  refine Fin.addCases (fun i => ?_) (fun i => ?_) x
  · rw [Fin.append_left, Complex.norm_real, Real.norm_eq_abs, abs_neg]
    rcases h i with h | h
    · left; rw [h]; simp
    · right; exact h
  · rw [Fin.append_right, Complex.norm_real, Real.norm_eq_abs]
    rcases h i with h | h
    · left; rw [h]; simp
    · right; exact h

theorem exSchur : SchurOk (buildH 3 exA (some 0)) (fun _ => (toR exT, exZ)) := by
  intro M hM
  have hMM : toR exM = M := toC_injective (exMajorana.symm.trans hM)
  subst hMM
  have hZ : exZ * exZᵀ = 1 := sortPerm_orth exTau_inj
  have hT : exZᵀ * toR exM * exZ = toR exT := by
    ext x y
    have h1 : toR exT x y = toR exM (exTau x) (exTau y) := by
      simp only [toR, of_apply, exT_eq]
    rw [h1]; exact sortPerm_conj exTau (toR exM) x y
  have hq : ∀ i j : Fin (3 + 3), (j : ℕ) + 1 < i → exT i j = 0 := by decide
  have hb : ∀ i j k : Fin (3 + 3), (j : ℕ) = i + 1 → (k : ℕ) = j + 1 → exT j i = 0 ∨ exT k j = 0 := by decide
  have hs : ∀ i : Fin (3 + 3), ∃ k, 1 ≤ |exT i k| := by decide
  refine { orth := hZ, decomp := ?_, quasi := ?_, blocks := ?_, sorted := ?_ }
  · change exZ * toR exT * exZᵀ = toR exM
    rw [← hT]
    calc exZ * (exZᵀ * toR exM * exZ) * exZᵀ = (exZ * exZᵀ) * toR exM * (exZ * exZᵀ) := by simp only [mul_assoc]
      _ = toR exM := by rw [hZ, one_mul, mul_one]
  · intro i j hij
    simp [toR, hq i j hij]
  · intro i j k h1 h2
    rcases hb i j k h1 h2 with h | h
    · left; simp [toR, h]
    · right; simp [toR, h]
  · intro i j hij hsmall
    exfalso
    obtain ⟨k, hk⟩ := hs i
    have h1 := hsmall k
    have h2 : (1 : ℝ) ≤ |(exT i k : ℝ)| := by exact_mod_cast hk
    have h3 : |(exT i k : ℝ)| ≤ 1e-10 := h1
    norm_num at h3
    linarith

theorem exEigs : eigvalsh exA = fun i => (exD i : ℝ) := by
  have hm : ∀ i j : Fin 3, i ≤ j → exD i ≤ exD j := by decide
  refine eigvalsh_unique exA_herm (fun i j hij => by exact_mod_cast hm i j hij) ?_
  rw [exA, charpoly_diagonal]
  refine Finset.prod_congr rfl fun i _ => ?_
  simp

theorem npSign_int (z : ℤ) : npSign (z : ℝ) = ((if 0 < z then 1 else if z < 0 then -1 else 0 : ℤ) : ℝ) := by
  unfold npSign
  simp only [Int.cast_pos, Int.cast_lt_zero]
  split_ifs <;> simp

/-- C46 is false as stated: for `A = diag(-3, 1, 2)` (eigenvalues -3, 1, 2 in ascending order, far from zero)
and a valid Schur form, `eigh_sp` returns the second half of the spectrum as (-2, 3, 1), whatever valid
`argsort` is used: neither the values nor their order agree with the spectrum of `A`. -/
theorem C46_violation : exA = diagonal (fun i => (((![-3, 1, 2] : Fin 3 → ℤ) i : ℤ) : ℂ)) ∧ exA.IsHermitian ∧
    (eigvalsh exA = fun i => (((![-3, 1, 2] : Fin 3 → ℤ) i : ℤ) : ℝ)) ∧
    NoTinyEigenvalue (buildH 3 exA (some 0)) ∧ SchurOk (buildH 3 exA (some 0)) (fun _ => (toR exT, exZ)) ∧
    ∀ argsort, ArgsortOk argsort →
      ∃ U, eighSp (fun _ => (toR exT, exZ)) argsort (buildH 3 exA (some 0)) =
        .ok (Spec.standardForm (fun i => (((![-2, 3, 1] : Fin 3 → ℤ) i : ℤ) : ℝ)), U) := by
  classical
  have hgap : NoTinyEigenvalue (buildH 3 exA (some 0)) := by
    rw [exH]
    refine standardForm_gap fun i => Or.inr ?_
    have h1 : ∀ i : Fin 3, 1 ≤ |exD i| := by decide
    have h2 : (1 : ℝ) ≤ |(exD i : ℝ)| := by exact_mod_cast h1 i
    norm_num
    linarith
  refine ⟨rfl, exA_herm, exEigs, hgap, exSchur, fun argsort hsort => ?_⟩
  have hB : (0 : Op 3)ᵀ = -0 := by simp
  obtain ⟨M, O, R, σ, hM, hih, hrun, hO, hR, hRs, hal, hσ, hcase⟩ :=
    eighSp_ok _ argsort (buildH_herm exA 0 exA_herm hB) (buildH_ph exA 0 exA_herm hB) exSchur hsort
  have hA22 : blk22 (buildH 3 exA (some 0)) = exA := by
    ext i j; simp only [buildH, blk22]; exact blk_22 ..
  rw [hA22] at hcase
  have hne : ¬ allclose exA 0 := by
    intro h
    have := h 1 1
    simp [isclose, exA, exD] at this
    norm_num at this
  obtain ⟨pA, pL, hpA, hpL, epA, epL, hRe⟩ := hcase hne
  have hex := exact_of_gap hM hih (exSchur M hih).toIsRealSchur hO hR hRs hal hσ hgap
  have hqA : pA = ![1, 2, 0] := by
    have habs : (fun i => |eigvalsh exA i|) = fun i => ((|exD i| : ℤ) : ℝ) := by
      rw [exEigs]; funext i; simp
    have hi : ∀ i j : Fin 3, |exD i| = |exD j| → i = j := by decide
    have hm : ∀ i j : Fin 3, i ≤ j → |exD ((![1, 2, 0] : Fin 3 → Fin 3) i)| ≤ |exD ((![1, 2, 0] : Fin 3 → Fin 3) j)| := by
      decide
    funext i
    apply Fin.ext
    rw [epA, habs]
    exact argsort_unique (fun i j h => hi i j (by exact_mod_cast h)) (hsort _) ![1, 2, 0] (by decide)
      (fun i j h => Int.cast_le.2 (hm i j h)) i
  have hqL : pL = id := by
    have habs : (fun i : Fin 3 => |toR exT ⟨2 * i, by omega⟩ ⟨2 * i + 1, by omega⟩|) =
        fun i : Fin 3 => ((|exT ⟨2 * i, by omega⟩ ⟨2 * i + 1, by omega⟩| : ℤ) : ℝ) := by
      funext i; simp [toR]
    have hi : ∀ i j : Fin 3, |exT ⟨2 * i, by omega⟩ ⟨2 * i + 1, by omega⟩| =
      |exT ⟨2 * j, by omega⟩ ⟨2 * j + 1, by omega⟩| → i = j := by decide
    have hm : ∀ i j : Fin 3, i ≤ j → |exT ⟨2 * i, by omega⟩ ⟨2 * i + 1, by omega⟩| ≤
      |exT ⟨2 * j, by omega⟩ ⟨2 * j + 1, by omega⟩| := by decide
    funext i
    apply Fin.ext
    rw [epL]
    simp only
    rw [habs]
    exact argsort_unique (fun i j h => hi i j (by exact_mod_cast h)) (hsort _) id Function.injective_id
      (fun i j h => Int.cast_le.2 (hm i j h)) i
  refine ⟨(eighFinish (buildH 3 exA (some 0)) O).2, hrun.trans ?_⟩
  congr 1
  refine Prod.ext ?_ rfl
  rw [hex]
  simp only
  congr 1
  funext i
  rw [hRe i]
  subst hqA hqL
  rw [exEigs]
  have hT : ∀ x y, toR exT x y = (exT x y : ℝ) := fun x y => rfl
  simp only [hT, npSign_int, Int.cast_inj, id]
  have hfin : ∀ i : Fin 3, -(if (if 0 < exT ⟨2 * (![1, 2, 0] : Fin 3 → Fin 3) i, by omega⟩ ⟨2 * (![1, 2, 0] : Fin 3 → Fin 3) i + 1, by omega⟩ then (1 : ℤ)
      else if exT ⟨2 * (![1, 2, 0] : Fin 3 → Fin 3) i, by omega⟩ ⟨2 * (![1, 2, 0] : Fin 3 → Fin 3) i + 1, by omega⟩ < 0 then -1 else 0) =
      (if 0 < exD i then 1 else if exD i < 0 then -1 else 0) then
      -exT ⟨2 * (![1, 2, 0] : Fin 3 → Fin 3) i, by omega⟩ ⟨2 * (![1, 2, 0] : Fin 3 → Fin 3) i + 1, by omega⟩ else
      exT ⟨2 * (![1, 2, 0] : Fin 3 → Fin 3) i, by omega⟩ ⟨2 * (![1, 2, 0] : Fin 3 → Fin 3) i + 1, by omega⟩) = (![-2, 3, 1] : Fin 3 → ℤ) i := by decide
  have := congrArg (fun z : ℤ => (z : ℝ)) (hfin i)
  simp only [Int.cast_neg, apply_ite (fun z : ℤ => (z : ℝ))] at this
  rw [← this]

/-- The hypotheses of the partial theorems hold for `A = [[2]]`. -/
example : ∃ (schur : RMat (1 + 1) → RMat (1 + 1) × RMat (1 + 1)) (argsort : (Fin 1 → ℝ) → Fin 1 → ℕ),
    (diagonal fun _ => 2 : Op 1).IsHermitian ∧ (∀ i, 0 ≤ eigvalsh (diagonal fun _ => 2 : Op 1) i) ∧
    SchurOk (buildH 1 (diagonal fun _ => 2) (some 0)) schur ∧ ArgsortOk argsort ∧
    NoTinyEigenvalue (buildH 1 (diagonal fun _ => 2) (some 0)) ∧ ¬ allclose (diagonal fun _ => 2 : Op 1) 0 := by
  have hA : (diagonal fun _ => 2 : Op 1).IsHermitian := by
    rw [IsHermitian, diagonal_conjTranspose]; congr 1; funext i; simp
  obtain ⟨as, has⟩ := argsort_exists (n := 1)
  have he : eigvalsh (diagonal fun _ => 2 : Op 1) = fun _ => 2 := by
    refine eigvalsh_unique hA (fun _ _ _ => le_rfl) ?_
    rw [charpoly_diagonal]; simp
  refine ⟨_, as, hA, fun i => by rw [he]; norm_num, schurOk_one (buildH_herm _ _ hA (by simp)) (buildH_ph _ _ hA (by simp)),
    has, ?_, ?_⟩
  · have : buildH 1 (diagonal fun _ => 2) (some 0) = Spec.standardForm fun _ : Fin 1 => 2 := by
      rw [standardForm_blk]
      simp only [buildH, Option.getD_some]
      apply blk_congr
      · ext i j; simp only [cj, Matrix.neg_apply, map_apply, diagonal_apply]; split_ifs <;> simp [Complex.conj_ofNat]
      · rfl
      · ext i j; simp [cj]
      · simp
    rw [this]
    exact standardForm_gap fun i => Or.inr (by norm_num)
  · intro h
    have := h 0 0
    simp [isclose] at this
    norm_num at this

/-! ## C47 -/

/-- C47. `eigv_sp(build_V(n, A, B))` returns `(L, U)` with `U` unitary and symplectic, `U^T V U = L`, and
`L = [[0, Σ], [-Σ, 0]]` up to `2e-10`, exactly without tiny eigenvalues of `S V`. -/
theorem C47_diagonalises {n : ℕ} (A B : Op n) (hA : A.IsHermitian) (hB : Bᵀ = -B)
    (schur : RMat (n + n) → RMat (n + n) × RMat (n + n)) (argsort : (Fin n → ℝ) → Fin n → ℕ)
    (hschur : SchurOk (Spec.swap n * buildV n A (some B)) schur) (hsort : ArgsortOk argsort) :
    ∃ L U : Op (n + n), eigvSp schur argsort (buildV n A (some B)) = .ok (L, U) ∧
      U ∈ Matrix.unitaryGroup (Fin (n + n)) ℂ ∧ Spec.IsSymplectic U ∧
      Uᵀ * buildV n A (some B) * U = L ∧
      ∃ sig : Fin n → ℝ, (∀ x y, ‖L x y - Spec.yForm sig x y‖ ≤ 2e-10) ∧
        (NoTinyEigenvalue (Spec.swap n * buildV n A (some B)) → L = Spec.yForm sig) := by
  rw [← swapS_eq] at hschur ⊢
  have hV : swapS n * buildV n A (some B) = buildH n A (some B) := by
    rw [buildV_eq, ← mul_assoc, swapS_sq, one_mul]
  rw [hV] at hschur ⊢
  obtain ⟨L, U, s, hrun, hU, hc, hL, hap, hex⟩ := eigh_main schur argsort (buildH_herm A B hA hB)
    (buildH_ph A B hA hB) hschur hsort
  refine ⟨swapS n * L, U, ?_, mem_unitaryGroup_iff.2 hU, symp_of_canonical hc hU, ?_, s, ?_, ?_⟩
  · rw [eigvSp]
    simp only [hV, hrun]
    rfl
  · have hUt : Uᵀ = swapS n * Uᴴ * swapS n := by
      have := congrArg (fun M => Mᵀ) hc
      simp only [transpose_mul, swapS_transpose] at this
      rw [← this, show (cj U)ᵀ = Uᴴ from rfl, mul_assoc]
    rw [hUt, ← hL, ← hV]
    simp only [mul_assoc]
  · intro x y
    rw [← swap_standardForm, swapS_mul, swapS_mul]
    exact hap _ _
  · intro hgap
    rw [hex hgap, swap_standardForm]

example : ∃ (schur : RMat (1 + 1) → RMat (1 + 1) × RMat (1 + 1)) (argsort : (Fin 1 → ℝ) → Fin 1 → ℕ),
    (!![2] : Op 1).IsHermitian ∧ SchurOk (Spec.swap 1 * buildV 1 !![2] (some 0)) schur ∧ ArgsortOk argsort := by
  have hA : (!![2] : Op 1).IsHermitian := by ext i j; fin_cases i; fin_cases j; simp
  obtain ⟨as, has⟩ := argsort_exists (n := 1)
  have h := schurOk_one (buildH_herm !![2] 0 hA (by simp)) (buildH_ph !![2] 0 hA (by simp))
  refine ⟨fun M => (M, 1), as, hA, ?_, has⟩
  rw [← swapS_eq, buildV_eq, ← mul_assoc, swapS_sq, one_mul]
  exact h

/-! ## C48 -/

/-- C48. For the Majorana form `G = Ω H Ω†` of `H = build_H(n, A, B)`, `eigm_sp(G)` returns `(L, O)` with `O` real
orthogonal, `O^T G O = L` and `L = i [[0, Σ], [-Σ, 0]]` up to `4e-10`, exactly without tiny eigenvalues. -/
theorem C48_eigm {n : ℕ} (A B : Op n) (hA : A.IsHermitian) (hB : Bᵀ = -B)
    (schur : RMat (n + n) → RMat (n + n) × RMat (n + n)) (argsort : (Fin n → ℝ) → Fin n → ℕ)
    (hschur : SchurOk (buildH n A (some B)) schur) (hsort : ArgsortOk argsort)
    (G : Op (n + n)) (hG : G = buildOmega n * buildH n A (some B) * (buildOmega n)ᴴ) :
    ∃ L O : Op (n + n), eigmSp schur argsort G = .ok (L, O) ∧
      (∀ x y, (O x y).im = 0) ∧ O * Oᵀ = 1 ∧ Oᵀ * G * O = L ∧
      ∃ sig : Fin n → ℝ, (∀ x y, ‖L x y - Complex.I * Spec.yForm sig x y‖ ≤ 4e-10) ∧
        (NoTinyEigenvalue (buildH n A (some B)) → L = Complex.I • Spec.yForm sig) := by
  have hHh := buildH_herm A B hA hB
  have hHp := buildH_ph A B hA hB
  generalize buildH n A (some B) = H at *
  set W := buildOmega n with hW
  have hWW : Wᴴ * W = 1 := omega_unitary n
  have hWW' : W * Wᴴ = 1 := omega_unitary' n
  have hGH : Wᴴ * G * W = H := by
    rw [hG]
    calc Wᴴ * (W * H * Wᴴ) * W = (Wᴴ * W) * H * (Wᴴ * W) := by simp only [mul_assoc]
      _ = H := by rw [hWW, one_mul, mul_one]
  obtain ⟨L, U, s, hrun, hU, hc, hL, hap, hex⟩ := eigh_main schur argsort hHh hHp hschur hsort
  set O := W * U * Wᴴ with hO
  have hOreal : cj O = O := by
    rw [hO, cj_mul, cj_mul, cj_omega, cj_omega_dag]
    calc W * swapS n * cj U * (swapS n * Wᴴ) = W * (swapS n * cj U * swapS n) * Wᴴ := by simp only [mul_assoc]
      _ = W * U * Wᴴ := by rw [hc]
  have hOt : Oᵀ = Oᴴ := by
    conv_lhs => rw [← hOreal]
    rfl
  have hOh : Oᴴ = W * Uᴴ * Wᴴ := by
    rw [hO]; simp only [conjTranspose_mul, conjTranspose_conjTranspose, mul_assoc]
  have hOO : O * Oᵀ = 1 := by
    rw [hOt, hOh, hO]
    calc W * U * Wᴴ * (W * Uᴴ * Wᴴ) = W * U * (Wᴴ * W) * Uᴴ * Wᴴ := by simp only [mul_assoc]
      _ = 1 := by rw [hWW, mul_one, mul_assoc W, hU, mul_one, hWW']
  have hLG : Oᵀ * G * O = W * L * Wᴴ := by
    rw [hOt, hOh, hO, ← hL, ← hGH]; simp only [mul_assoc]
  have hform : W * Spec.standardForm s * Wᴴ = Complex.I • Spec.yForm s := by
    rw [standardForm_blk, omega_diag, yForm_blk]
  refine ⟨Oᵀ * G * O, O, ?_, ?_, hOO, rfl, s, ?_, ?_⟩
  · rw [eigmSp]
    simp only [← hW, hGH, hrun]
    rfl
  · intro x y
    have := congrFun (congrFun hOreal x) y
    exact Complex.conj_eq_iff_im.1 this
  · intro x y
    have h1 := omega_row_bound (L - Spec.standardForm s) 2e-10 (fun x y => hap x y) x y
    rw [← hW, Matrix.mul_sub, Matrix.sub_mul, hform, ← hLG] at h1
    refine le_trans ?_ (h1.trans (by norm_num))
    exact le_of_eq rfl
  · intro hgap
    rw [hLG, hex hgap, hform]

/-- C48 (partial). `eigm_sp_can(G)` returns a real orthogonal `O` and `L = O^T G O`; if the (unsorted) Schur form it
computes is aligned in 2 x 2 blocks then `L` is a direct sum of 2 x 2 antisymmetric blocks. Missing for the full
property: Schur forms with a 1 x 1 zero block in front of a 2 x 2 block, where it is false
(`C48_can_violation`). -/
theorem C48_can_partial {n : ℕ} (A B : Op n) (hA : A.IsHermitian) (hB : Bᵀ = -B)
    (schur : RMat (n + n) → RMat (n + n) × RMat (n + n)) (argsort : (Fin n → ℝ) → Fin n → ℕ)
    (G : Op (n + n)) (hG : G = buildOmega n * buildH n A (some B) * (buildOmega n)ᴴ)
    (hschur : ∀ M : RMat (n + n), Complex.I • G = toC M → Spec.IsRealSchur M (schur M).1 (schur M).2)
    (hsort : ArgsortOk argsort) :
    ∃ (L : Op (n + n)) (O : RMat (n + n)), eigmSpCan schur argsort G = .ok (L, O) ∧ O * Oᵀ = 1 ∧
      (toC O)ᵀ * G * toC O = L ∧ Lᵀ = -L ∧
      ((∀ M : RMat (n + n), Complex.I • G = toC M → ∀ x y : Fin (n + n), (x : ℕ) / 2 ≠ (y : ℕ) / 2 →
        (schur M).1 x y = 0) → Spec.IsBlockSkew L) := by
  obtain ⟨M, hM, hih⟩ := ih_facts (buildH_herm A B hA hB) (buildH_ph A B hA hB)
  have hGM : Complex.I • G = toC M := by
    rw [← hih, hG, Matrix.smul_mul, Matrix.smul_mul]
  have hS := hschur M hGM
  obtain ⟨O, φ, hφ, hdiv, hO, hrun, hL⟩ := eigmSpCan_ok schur argsort hM hGM hS hsort
  have hskew : ((toC O)ᵀ * G * toC O)ᵀ = -((toC O)ᵀ * G * toC O) := by
    rw [hL]
    ext x y
    have := skew_apply (schur_skew hS hM) (φ x) (φ y)
    simp [toC, this]
  refine ⟨_, O, hrun, hO, rfl, hskew, fun hal => ⟨hskew, fun x y hxy => ?_⟩⟩
  rw [hL]
  have := hal M hGM (φ x) (φ y) (by rw [hdiv, hdiv]; exact hxy)
  simp [toC, this]

/-- C48, exactly, for one Schur form: `L` is a direct sum of 2 x 2 antisymmetric blocks if and only if the (unsorted) Schur
form that was computed is aligned in 2 x 2 blocks. -/
theorem C48_can_aligned {n : ℕ} (A B : Op n) (hA : A.IsHermitian) (hB : Bᵀ = -B)
    (schur : RMat (n + n) → RMat (n + n) × RMat (n + n)) (argsort : (Fin n → ℝ) → Fin n → ℕ)
    (G : Op (n + n)) (hG : G = buildOmega n * buildH n A (some B) * (buildOmega n)ᴴ)
    (hschur : ∀ M : RMat (n + n), Complex.I • G = toC M → Spec.IsRealSchur M (schur M).1 (schur M).2)
    (hsort : ArgsortOk argsort) :
    ∃ (L : Op (n + n)) (O : RMat (n + n)), eigmSpCan schur argsort G = .ok (L, O) ∧
      (Spec.IsBlockSkew L ↔ ∀ M : RMat (n + n), Complex.I • G = toC M → ∀ x y : Fin (n + n),
        (x : ℕ) / 2 ≠ (y : ℕ) / 2 → (schur M).1 x y = 0) := by
  obtain ⟨L, O, hrun, -, -, -, himp⟩ := C48_can_partial A B hA hB schur argsort G hG hschur hsort
  refine ⟨L, O, hrun, fun hbs M hGM x y hxy => ?_, himp⟩
  obtain ⟨M', hM, hih⟩ := ih_facts (buildH_herm A B hA hB) (buildH_ph A B hA hB)
  have hGM' : Complex.I • G = toC M' := by rw [← hih, hG, Matrix.smul_mul, Matrix.smul_mul]
  obtain rfl : M' = M := toC_injective (hGM'.symm.trans hGM)
  obtain ⟨O', φ, hφ, hdiv, hO, hrun', hL⟩ := eigmSpCan_ok schur argsort hM hGM (hschur _ hGM) hsort
  rw [hrun] at hrun'
  rw [← (Prod.mk.inj (Except.ok.inj hrun')).1] at hL
  obtain ⟨a, rfl⟩ := Finite.injective_iff_surjective.1 hφ x
  obtain ⟨b, rfl⟩ := Finite.injective_iff_surjective.1 hφ y
  have := hbs.2 a b (by rwa [hdiv, hdiv] at hxy)
  rw [hL] at this
  simpa [toC] using this

/-- C48. For an invertible `G`, `eigm_sp_can(G)` returns a direct sum of 2 x 2 antisymmetric blocks. -/
theorem C48_can_invertible_partial {n : ℕ} (A B : Op n) (hA : A.IsHermitian) (hB : Bᵀ = -B)
    (schur : RMat (n + n) → RMat (n + n) × RMat (n + n)) (argsort : (Fin n → ℝ) → Fin n → ℕ)
    (G : Op (n + n)) (hG : G = buildOmega n * buildH n A (some B) * (buildOmega n)ᴴ) (hdet : G.det ≠ 0)
    (hschur : ∀ M : RMat (n + n), Complex.I • G = toC M → Spec.IsRealSchur M (schur M).1 (schur M).2)
    (hsort : ArgsortOk argsort) :
    ∃ (L : Op (n + n)) (O : RMat (n + n)), eigmSpCan schur argsort G = .ok (L, O) ∧ O * Oᵀ = 1 ∧
      (toC O)ᵀ * G * toC O = L ∧ Spec.IsBlockSkew L := by
  obtain ⟨L, O, hrun, hO, hL, -, himp⟩ := C48_can_partial A B hA hB schur argsort G hG hschur hsort
  refine ⟨L, O, hrun, hO, hL, himp fun M hGM x y hxy => ?_⟩
  obtain ⟨M', hM, hih⟩ := ih_facts (buildH_herm A B hA hB) (buildH_ph A B hA hB)
  have hGM' : Complex.I • G = toC M' := by rw [← hih, hG, Matrix.smul_mul, Matrix.smul_mul]
  obtain rfl : M' = M := toC_injective (hGM'.symm.trans hGM)
  refine aligned_of_det (hschur _ hGM) hM (fun h0 => hdet ?_) x y hxy
  have h1 : (toC M').det = 0 := by
    have := RingHom.map_det Complex.ofRealHom M'
    rw [h0, map_zero] at this
    exact this.symm
  rw [← hGM, det_smul] at h1
  exact (mul_eq_zero.1 h1).resolve_left (pow_ne_zero _ Complex.I_ne_zero)

/-- C48, exactly, for all Schur forms: `eigm_sp_can(G)` is certain to return a direct sum of 2 x 2 antisymmetric blocks
if and only if `G` is invertible or zero. -/
theorem C48_can_iff {n : ℕ} (A B : Op n) (hA : A.IsHermitian) (hB : Bᵀ = -B)
    (G : Op (n + n)) (hG : G = buildOmega n * buildH n A (some B) * (buildOmega n)ᴴ) :
    (∀ (schur : RMat (n + n) → RMat (n + n) × RMat (n + n)) (argsort : (Fin n → ℝ) → Fin n → ℕ),
      (∀ M : RMat (n + n), Complex.I • G = toC M → Spec.IsRealSchur M (schur M).1 (schur M).2) → ArgsortOk argsort →
      ∃ (L : Op (n + n)) (O : RMat (n + n)), eigmSpCan schur argsort G = .ok (L, O) ∧ Spec.IsBlockSkew L) ↔
    G = 0 ∨ G.det ≠ 0 := by
  obtain ⟨M, hM, hih⟩ := ih_facts (buildH_herm A B hA hB) (buildH_ph A B hA hB)
  have hGM : Complex.I • G = toC M := by rw [← hih, hG, Matrix.smul_mul, Matrix.smul_mul]
  have huniq : ∀ M' : RMat (n + n), Complex.I • G = toC M' → M' = M := fun M' h => toC_injective (h.symm.trans hGM)
  constructor
  · intro hall
    by_contra hcon
    push Not at hcon
    obtain ⟨hG0, hdet⟩ := hcon
    have hM0 : M ≠ 0 := by
      rintro rfl
      apply hG0
      have : toC (0 : RMat (n + n)) = 0 := by ext; simp [toC]
      rw [this] at hGM
      exact (smul_eq_zero.1 hGM).resolve_left Complex.I_ne_zero
    have hMdet : M.det = 0 := by
      have h1 : (toC M).det = 0 := by rw [← hGM, det_smul, hdet, mul_zero]
      have h2 : (toC M).det = (M.det : ℂ) := (RingHom.map_det Complex.ofRealHom M).symm
      rw [h2] at h1
      exact_mod_cast h1
    obtain ⟨k, hk⟩ : ∃ k, n + n = k + 1 := by
      rcases Nat.eq_zero_or_pos n with h0 | h0
      · subst h0
        exact absurd (by ext i; exact i.elim0) hM0
      · exact ⟨n + n - 1, by omega⟩
    obtain ⟨T, Z, hS, x, y, hxy, hT⟩ : ∃ T Z : RMat (n + n), Spec.IsRealSchur M T Z ∧
        ∃ x y : Fin (n + n), (x : ℕ) / 2 ≠ (y : ℕ) / 2 ∧ T x y ≠ 0 := by
      clear hall hG hGM huniq hih hdet hG0
      generalize n + n = d at *
      subst hk
      exact misaligned_exists hM hMdet hM0
    obtain ⟨as, has⟩ := argsort_exists (n := n)
    have hs : ∀ M' : RMat (n + n), Complex.I • G = toC M' → Spec.IsRealSchur M' T Z := by
      intro M' h
      rw [huniq M' h]
      exact hS
    obtain ⟨L, O, hrun, hbs⟩ := hall (fun _ => (T, Z)) as hs has
    obtain ⟨L', O', hrun', hiff⟩ := C48_can_aligned A B hA hB (fun _ => (T, Z)) as G hG hs has
    rw [hrun] at hrun'
    rw [← (Prod.mk.inj (Except.ok.inj hrun')).1] at hiff
    exact hT (hiff.1 hbs M hGM x y hxy)
  · rintro (h0 | hdet) schur argsort hschur hsort
    · obtain ⟨L, O, hrun, -, hL, -, -⟩ := C48_can_partial A B hA hB schur argsort G hG hschur hsort
      refine ⟨L, O, hrun, ?_⟩
      have hL0 : L = 0 := by rw [← hL, h0, Matrix.mul_zero, Matrix.zero_mul]
      subst hL0
      exact ⟨by simp, fun _ _ _ => rfl⟩
    · obtain ⟨L, O, hrun, -, -, hb⟩ := C48_can_invertible_partial A B hA hB schur argsort G hG hdet hschur hsort
      exact ⟨L, O, hrun, hb⟩

/-- Invertible, zero and singular non-zero `G` all occur, and every `G` has the required decompositions. -/
example : ((buildOmega 1 * buildH 1 !![2] (some 0) * (buildOmega 1)ᴴ).det ≠ 0) ∧
    ∀ {n : ℕ} (A B : Op n), A.IsHermitian → Bᵀ = -B → ∃ (schur : RMat (n + n) → RMat (n + n) × RMat (n + n)),
      ∀ M : RMat (n + n), Complex.I • (buildOmega n * buildH n A (some B) * (buildOmega n)ᴴ) = toC M →
        Spec.IsRealSchur M (schur M).1 (schur M).2 := by
  constructor
  · rw [det_mul_right_comm, omega_unitary', one_mul]
    have : buildH 1 !![2] (some 0) = diagonal ![-2, 2] := by
      have e0 : (finSumFinEquiv.symm (0 : Fin (1 + 1)) : Fin 1 ⊕ Fin 1) = Sum.inl 0 := rfl
      have e1 : (finSumFinEquiv.symm (1 : Fin (1 + 1)) : Fin 1 ⊕ Fin 1) = Sum.inr 0 := rfl
      ext i j
      fin_cases i <;> fin_cases j <;> simp [buildH, blk, cj, e0, e1, Complex.conj_ofNat]
    rw [this, det_diagonal]
    simp
  · intro n A B hA hB
    obtain ⟨schur, hs⟩ := schurOk_exists (buildH_herm A B hA hB) (buildH_ph A B hA hB)
    exact ⟨schur, fun M hM => (hs M (by rw [← hM, Matrix.smul_mul, Matrix.smul_mul])).toIsRealSchur⟩

/-- Every real antisymmetric array is the Majorana form of some Hamiltonian matrix. -/
theorem majorana_exists {n : ℕ} {M : RMat (n + n)} (hM : Mᵀ = -M) :
    ∃ A B : Op n, A.IsHermitian ∧ Bᵀ = -B ∧
      Complex.I • (buildOmega n * buildH n A (some B) * (buildOmega n)ᴴ) = toC M := by
  have hWW' : buildOmega n * (buildOmega n)ᴴ = 1 := omega_unitary' n
  have hcW : cj (buildOmega n) = buildOmega n * swapS n := cj_omega n
  have hcW' : cj ((buildOmega n)ᴴ) = swapS n * (buildOmega n)ᴴ := cj_omega_dag n
  have hct : cj (toC M) = toC M := by ext i j; simp [cj, toC]
  have htt : (toC M)ᴴ = -toC M := by
    ext i j
    have := skew_apply hM j i
    simp [toC, this]
  generalize buildOmega n = W at *
  set H := Wᴴ * ((-Complex.I) • toC M) * W with hH
  have hc : swapS n * cj H * swapS n = -H := by
    rw [hH, cj_mul, cj_mul, cj_smul, hcW, hcW', hct]
    calc swapS n * (swapS n * Wᴴ * ((starRingEnd ℂ) (-Complex.I) • toC M) * (W * swapS n)) * swapS n
        = (swapS n * swapS n) * Wᴴ * ((starRingEnd ℂ) (-Complex.I) • toC M) * W * (swapS n * swapS n) := by
          simp only [mul_assoc]
      _ = _ := by
          rw [swapS_sq, one_mul, mul_one, map_neg, Complex.conj_I, neg_neg]
          simp only [neg_smul, Matrix.mul_neg, Matrix.neg_mul, neg_neg]
  have hh : Hᴴ = H := by
    rw [hH]
    simp only [conjTranspose_mul, conjTranspose_conjTranspose, conjTranspose_smul, htt, mul_assoc]
    simp
  obtain ⟨P, Q, R, T, hb⟩ := exists_blk H
  rw [hb] at hc hh
  have e : cj (blk P Q R T) = blk (cj P) (cj Q) (cj R) (cj T) := by
    apply ext_halves <;> intro i j <;> simp [cj, -Fin.natAdd_eq_addNat]
  rw [e, swapS, blk_mul, blk_mul, blk_neg] at hc
  rw [blk_conjTranspose] at hh
  simp only [zero_mul, mul_zero, one_mul, mul_one, zero_add, add_zero] at hc
  obtain ⟨h1, h2, h3, h4⟩ := blk_inj.1 hc
  obtain ⟨g1, g2, g3, g4⟩ := blk_inj.1 hh
  refine ⟨T, Q, g4, ?_, ?_⟩
  · have : Qᵀ = cj R := by rw [← g3]; ext i j; simp [cj]
    rw [this, h2]
  · have hbH : buildH n T (some Q) = H := by
      rw [hb, buildH]
      simp only [Option.getD_some]
      apply blk_congr
      · rw [h1, neg_neg]
      · rfl
      · rw [h3, neg_neg]
      · rfl
    rw [hbH, hH]
    calc Complex.I • (W * (Wᴴ * ((-Complex.I) • toC M) * W) * Wᴴ)
        = Complex.I • ((W * Wᴴ) * ((-Complex.I) • toC M) * (W * Wᴴ)) := by simp only [mul_assoc]
      _ = toC M := by rw [hWW', one_mul, mul_one, smul_smul]; simp

/-- The array of the second counterexample: `0 ⊕ [[0, 1], [-1, 0]] ⊕ 0`, which is its own real Schur form. -/
def exN : Fin (2 + 2) → Fin (2 + 2) → ℤ := ![![0, 0, 0, 0], ![0, 0, 1, 0], ![0, -1, 0, 0], ![0, 0, 0, 0]]

theorem exN_schur : Spec.IsRealSchur (toR exN) (toR exN) 1 := by
  have hq : ∀ i j : Fin (2 + 2), (j : ℕ) + 1 < i → exN i j = 0 := by decide
  have hb : ∀ i j k : Fin (2 + 2), (j : ℕ) = i + 1 → (k : ℕ) = j + 1 → exN j i = 0 ∨ exN k j = 0 := by decide
  refine { orth := by simp, decomp := by simp, quasi := ?_, blocks := ?_ }
  · intro i j hij
    simp [toR, hq i j hij]
  · intro i j k h1 h2
    rcases hb i j k h1 h2 with h | h
    · left; simp [toR, h]
    · right; simp [toR, h]

/-- C48 fails for `eigm_sp_can`: there are a Hamiltonian matrix and a correct real Schur decomposition of its Majorana
form for which, whatever sorting routine is used, the returned `L` is not a direct sum of 2 x 2 blocks. -/
theorem C48_can_violation :
    ∃ (A B : Op 2) (schur : RMat (2 + 2) → RMat (2 + 2) × RMat (2 + 2)), A.IsHermitian ∧ Bᵀ = -B ∧
      ∃ G : Op (2 + 2), G = buildOmega 2 * buildH 2 A (some B) * (buildOmega 2)ᴴ ∧
      (∀ M : RMat (2 + 2), Complex.I • G = toC M → Spec.IsRealSchur M (schur M).1 (schur M).2) ∧
      ∀ argsort : (Fin 2 → ℝ) → Fin 2 → ℕ, ArgsortOk argsort →
        ∃ L O, eigmSpCan schur argsort G = .ok (L, O) ∧ ¬ Spec.IsBlockSkew L := by
  have hsk : ∀ i j, exN j i = - exN i j := by decide
  have hM : (toR exN)ᵀ = -toR exN := by
    ext i j; simp [toR, hsk i j]
  obtain ⟨A, B, hA, hB, hG⟩ := majorana_exists hM
  have hS : ∀ M : RMat (2 + 2), Complex.I • (buildOmega 2 * buildH 2 A (some B) * (buildOmega 2)ᴴ) = toC M →
      Spec.IsRealSchur M (toR exN) 1 := by
    intro M h
    have hMM : toR exN = M := toC_injective (hG.symm.trans h)
    subst hMM
    exact exN_schur
  refine ⟨A, B, fun _ => (toR exN, 1), hA, hB, _, rfl, hS, fun argsort hsort => ?_⟩
  obtain ⟨O, φ, hφ, hdiv, hO, hrun, hL⟩ := eigmSpCan_ok (fun _ => (toR exN, 1)) argsort hM hG (hS _ hG) hsort
  refine ⟨_, O, hrun, fun hbs => ?_⟩
  obtain ⟨x, hx⟩ := (Finite.injective_iff_surjective.1 hφ) 1
  obtain ⟨y, hy⟩ := (Finite.injective_iff_surjective.1 hφ) 2
  have h0 := hbs.2 x y (by rw [← hdiv x, ← hdiv y, hx, hy]; decide)
  rw [hL] at h0
  have h1 : exN 1 2 = 1 := by decide
  simp [toC, hx, hy, toR, h1] at h0

example : ∃ (schur : RMat (1 + 1) → RMat (1 + 1) × RMat (1 + 1)) (argsort : (Fin 1 → ℝ) → Fin 1 → ℕ) (G : Op (1 + 1)),
    (!![2] : Op 1).IsHermitian ∧ G = buildOmega 1 * buildH 1 !![2] (some 0) * (buildOmega 1)ᴴ ∧
    (∀ M : RMat (1 + 1), Complex.I • G = toC M → Spec.IsRealSchur M (schur M).1 (schur M).2) ∧ ArgsortOk argsort ∧
    SchurOk (buildH 1 !![2] (some 0)) schur := by
  have hA : (!![2] : Op 1).IsHermitian := by ext i j; fin_cases i; fin_cases j; simp
  have h := schurOk_one (buildH_herm !![2] 0 hA (by simp)) (buildH_ph !![2] 0 hA (by simp))
  obtain ⟨as, has⟩ := argsort_exists (n := 1)
  refine ⟨_, as, _, hA, rfl, fun M hM => (h M ?_).toIsRealSchur, has, h⟩
  rw [Matrix.smul_mul, Matrix.smul_mul]
  exact hM

end FF.Props
