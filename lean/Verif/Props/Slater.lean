import Verif.Proofs.Slater
import Verif.Props.Quadratic
import Verif.Props.Combinatorics

/-! # C122: amplitudes of Slater determinants are determinants -/

namespace FF.Props

open Matrix

variable {n : ℕ}

/-- The vacuum, the first basis vector. -/
local notation "vac" n => Spec.fock (fun _ : Fin n => (0 : Fin 2))

theorem rotated_cr {C : Op (n + n)} {b : Fin (n + n) → Op (2 ^ n)}
    (hb : rotateOperators (.matrixFirst C (jordanWignerAlphas n)) false = .ok (some (List.ofFn b))) {r : Fin (n + n)}
    (hr : ∀ j : Fin n, Spec.dropSmall 1e-9 C r (Fin.natAdd n j) = 0) :
    b r = cr fun j => Spec.dropSmall 1e-9 C r (Fin.castAdd n j) := by
  rw [jordanWignerAlphas_eq, C29_right C (al n) le_rfl le_rfl] at hb
  simp only [Except.ok.injEq, Option.some.injEq] at hb
  rw [← List.ofFn_injective hb, cr]
  simp only [Fin.sum_univ_add]
  simp only [Fin.castLE_rfl, id, hr, zero_smul, Finset.sum_const_zero, add_zero, al_left]

/-- C122. Every basis vector is the vector with a strictly ascending sequence of sites filled. -/
theorem C122_basis (b : Fin n → Fin 2) : ∃ (N : ℕ) (s : Fin N → Fin n), StrictMono s ∧ Spec.occ s = b ∧
    N = ∑ i, (b i : ℕ) := exists_occ b

/-- C122. Slater determinants. Let `b = rotate_operators(C, jordan_wigner_alphas(n))`, and let the rows `r_1, ..., r_N` of
`C` mix creation operators only. In the state `b[r_1] ... b[r_N] |0>` the amplitude of the basis vector with the sites
`s_1 < ... < s_N` filled is `dt(C[r, s])`, and basis vectors with another number of particles have amplitude 0. (Entries of
`C` below `1e-9`, which `rotate_operators` skips, are skipped.) -/
theorem C122_amplitude (C : Op (n + n)) (b : Fin (n + n) → Op (2 ^ n))
    (hb : rotateOperators (.matrixFirst C (jordanWignerAlphas n)) false = .ok (some (List.ofFn b))) {N : ℕ}
    (r : Fin N → Fin (n + n)) (hr : ∀ i (j : Fin n), Spec.dropSmall 1e-9 C (r i) (Fin.natAdd n j) = 0) :
    let ψ := (List.ofFn fun i => b (r i)).prod *ᵥ vac n
    (∀ s : Fin N → Fin n, StrictMono s → dt ((Spec.dropSmall 1e-9 C).submatrix r fun i => Fin.castAdd n (s i)) =
      .ok (Spec.inner (Spec.fock (Spec.occ s)) ψ)) ∧
    ∀ c : Fin n → Fin 2, ∑ i, (c i : ℕ) ≠ N → Spec.inner (Spec.fock c) ψ = 0 := by
  have h : (fun i => b (r i)) = fun i => cr fun j => Spec.dropSmall 1e-9 C (r i) (Fin.castAdd n j) := by
    funext i; exact rotated_cr hb (hr i)
  rw [h]
  refine ⟨fun s hs => ?_, fun c hc => cr_amplitude_zero _ hc⟩
  rw [C02_dt_eq_det, cr_amplitude _ hs]
  rfl

/-- C122. The overlap of two Slater determinants, `b[r_1] ... b[r_N] |0>` for the rotation `C` and `e[q_1] ... e[q_N] |0>` for
the rotation `D`, is `dt` of the array of the overlaps of the rows. -/
theorem C122_overlap (C D : Op (n + n)) (b e : Fin (n + n) → Op (2 ^ n))
    (hb : rotateOperators (.matrixFirst C (jordanWignerAlphas n)) false = .ok (some (List.ofFn b)))
    (he : rotateOperators (.matrixFirst D (jordanWignerAlphas n)) false = .ok (some (List.ofFn e))) {N : ℕ}
    (r q : Fin N → Fin (n + n)) (hr : ∀ i (j : Fin n), Spec.dropSmall 1e-9 C (r i) (Fin.natAdd n j) = 0)
    (hq : ∀ i (j : Fin n), Spec.dropSmall 1e-9 D (q i) (Fin.natAdd n j) = 0) :
    dt (Matrix.of fun i j => ∑ l : Fin n, star (Spec.dropSmall 1e-9 D (q i) (Fin.castAdd n l)) *
      Spec.dropSmall 1e-9 C (r j) (Fin.castAdd n l)) =
    .ok (Spec.inner ((List.ofFn fun i => e (q i)).prod *ᵥ vac n) ((List.ofFn fun i => b (r i)).prod *ᵥ vac n)) := by
  have h : (fun i => b (r i)) = fun i => cr fun j => Spec.dropSmall 1e-9 C (r i) (Fin.castAdd n j) := by
    funext i; exact rotated_cr hb (hr i)
  have h' : (fun i => e (q i)) = fun i => cr fun j => Spec.dropSmall 1e-9 D (q i) (Fin.castAdd n j) := by
    funext i; exact rotated_cr he (hq i)
  rw [h, h', C02_dt_eq_det, cr_overlap]
  rfl

/-- The hypotheses of the two theorems are met by a rotation of two sites, for which both orbitals are mixed. -/
example : ∃ (C : Op (2 + 2)) (b : Fin (2 + 2) → Op (2 ^ 2)) (r : Fin 2 → Fin (2 + 2)),
    rotateOperators (.matrixFirst C (jordanWignerAlphas 2)) false = .ok (some (List.ofFn b)) ∧
    (∀ i (j : Fin 2), Spec.dropSmall 1e-9 C (r i) (Fin.natAdd 2 j) = 0) ∧
    Spec.dropSmall 1e-9 C (r 0) 0 = 3 / 5 ∧ Spec.dropSmall 1e-9 C (r 0) 1 = 4 / 5 := by
  obtain ⟨b, hb, -⟩ := C30_algebra 2 (blk !![3 / 5, 4 / 5; -4 / 5, 3 / 5] 0 0 !![3 / 5, 4 / 5; -4 / 5, 3 / 5])
  refine ⟨_, b, fun i => Fin.castAdd 2 i, hb, ?_, ?_, ?_⟩
  · intro i j
    simp only [dropSmall_blk, blk_12, dropSmall_apply, Matrix.zero_apply, ite_self]
  · have : (0 : Fin (2 + 2)) = Fin.castAdd 2 0 := rfl
    rw [this, dropSmall_blk, blk_11, dropSmall_apply, if_neg]
    · simp
    · norm_num
  · have : (1 : Fin (2 + 2)) = Fin.castAdd 2 1 := rfl
    rw [this, dropSmall_blk, blk_11, dropSmall_apply, if_neg]
    · simp
    · norm_num

/-- C122. Transition amplitudes. Let `Q = build_op(n, build_H(n, A), alphas)` and `W = expm(-i t Q)`. The amplitude for going
from the basis vector with the sites `r_1 < ... < r_N` filled to that with the sites `s_1 < ... < s_N` filled is, up to the
phase `exp(i t Tr A)`, `dt` of the block `E[s, r]` of `E = expm(-2 i t A)`, and the number of particles does not change.
(Entries of `A` below `1e-10`, which `build_op` skips, are skipped.) -/
theorem C122_evolution (hn : 1 ≤ n) (A : Op n) (hA : A.IsHermitian) (t : ℝ) :
    ∃ Q, buildOp n (buildH n A none) (jordanWignerAlphas n) false = .ok Q ∧
      let W := expm ((-Complex.I * t) • Q)
      let E := expm ((-2 * Complex.I * t) • Spec.dropSmall 1e-10 A)
      ∀ {N : ℕ} (r : Fin N → Fin n), StrictMono r →
        (∀ s : Fin N → Fin n, StrictMono s → ∃ a, dt (E.submatrix s r) = .ok a ∧
          Spec.inner (Spec.fock (Spec.occ s)) (W *ᵥ Spec.fock (Spec.occ r)) =
            Complex.exp (Complex.I * t * (Spec.dropSmall 1e-10 A).trace) * a) ∧
        ∀ c : Fin n → Fin 2, ∑ i, (c i : ℕ) ≠ N → Spec.inner (Spec.fock c) (W *ᵥ Spec.fock (Spec.occ r)) = 0 := by
  have hA' := drop_herm hA 1e-10
  have hB : Spec.dropSmall 1e-10 (buildH n A none) = buildH n (Spec.dropSmall 1e-10 A) none := by
    have h0 : Spec.dropSmall 1e-10 (0 : Op n) = 0 := by
      ext i j; simp [dropSmall_apply]
    have := dropSmall_buildH (ε := 1e-10) A (0 : Op n)
    rw [Option.getD_some, h0] at this
    exact this
  refine ⟨_, by rw [jordanWignerAlphas_eq, buildOp_square _ _ hn, hB], ?_⟩
  intro W E N r hr
  have hsm : ∀ (c : ℂ) (x y : Fin (2 ^ n) → ℂ), Spec.inner x (c • y) = c * Spec.inner x y := by
    intro c x y
    simp only [Spec.inner, Finset.mul_sum, Pi.smul_apply, smul_eq_mul]
    exact Finset.sum_congr rfl fun i _ => by ring
  have hW : W *ᵥ Spec.fock (Spec.occ r) = _ := hop_fock hA' (-Complex.I * t) hr
  have hE : expm ((2 * (-Complex.I * t)) • Spec.dropSmall 1e-10 A) = E := by
    congr 2; ring
  rw [hE] at hW
  refine ⟨fun s hs => ⟨_, C02_dt_eq_det _, ?_⟩, fun c hc => ?_⟩
  · rw [hW, hsm, cr_amplitude _ hs, ← det_transpose]
    congr 2
    ring
  · rw [hW, hsm, cr_amplitude_zero _ hc, mul_zero]

/-- The hypotheses are met by hopping with a complex amplitude, and two different pairs of sites. -/
example : (!![1, Complex.I, 0; -Complex.I, 2, 1; 0, 1, 3] : Op 3).IsHermitian ∧
    StrictMono (![0, 1] : Fin 2 → Fin 3) ∧ StrictMono (![1, 2] : Fin 2 → Fin 3) := by
  refine ⟨?_, by decide, by decide⟩
  ext i j; fin_cases i <;> fin_cases j <;> simp

end FF.Props
