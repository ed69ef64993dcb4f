import Verif.Props.Workflow
import Verif.Proofs.TightBinding

/-! # Property C126: the many-body spectrum of a quadratic Hamiltonian, and the energies of the tight-binding chain -/

namespace FF.Props

open Matrix
open scoped ComplexOrder

variable {n : ℕ}

/-- `±ε_1, ..., ±ε_n` are the eigenvalues of `H`, with multiplicities. -/
def IsModes (H : Op (n + n)) (ε : Fin n → ℝ) : Prop :=
  H.charpoly = ∏ k, ((Polynomial.X - Polynomial.C ((ε k : ℝ) : ℂ)) * (Polynomial.X + Polynomial.C ((ε k : ℝ) : ℂ)))

/-- C126. Every `H = build_H(A, B)` has real eigenvalues `±ε_1, ..., ±ε_n`. -/
theorem C126_modes_exist (A B : Op n) (hA : A.IsHermitian) (hB : Bᵀ = -B) : ∃ ε, IsModes (buildH n A (some B)) ε := by
  obtain ⟨U, s, -, hU, hL⟩ := exists_canonical (buildH_herm A B hA hB) (buildH_ph A B hA hB)
  refine ⟨s, ?_⟩
  rw [IsModes, prod_pm', ← standardForm_charpoly, ← hL, charpoly_conj hU]

/-- C126. The many-body problem, without conditions on the eigenvalues: if `±ε_1, ..., ±ε_n` are the eigenvalues of
`H = build_H(A, B)` and `H` has no entries that `build_op` skips, then the eigenvalues of `Q = build_op(H)`, with
multiplicities, are the `2^n` sums `± ε_1 ± ... ± ε_n`; the partition function `Tr exp(-β Q)` is `∏ 2 cosh(β ε_k)`, and
the lowest energy is `-Σ |ε_k|`. -/
theorem C126_many_body (hn : 1 ≤ n) (A B : Op n) (hA : A.IsHermitian) (hB : Bᵀ = -B)
    (hsmall : ∀ x y, buildH n A (some B) x y = 0 ∨ 1e-10 ≤ ‖buildH n A (some B) x y‖)
    (ε : Fin n → ℝ) (hε : IsModes (buildH n A (some B)) ε) :
    ∃ Q : Op (2 ^ n), buildOp n (buildH n A (some B)) (jordanWignerAlphas n) false = .ok Q ∧
      Q.charpoly = ∏ c : Fin n → Bool, (Polynomial.X - Polynomial.C ((∑ k, if c k then ε k else -ε k : ℝ) : ℂ)) ∧
      (∀ β : ℝ, (expm ((-β : ℂ) • Q)).trace = ((∏ k, 2 * Real.cosh (β * ε k) : ℝ) : ℂ)) ∧
      IsLeast {E : ℝ | ∃ v : Fin (2 ^ n) → ℂ, v ≠ 0 ∧ Q *ᵥ v = (E : ℂ) • v} (-∑ k, |ε k|) := by
  obtain ⟨U, s, hc, hU, hL⟩ := exists_canonical (buildH_herm A B hA hB) (buildH_ph A B hA hB)
  obtain ⟨h1, h2, h3⟩ := spectrum_canonical hc hU hL
  obtain ⟨π, hπ⟩ := modes_unique hU hL (by rw [← prod_pm']; exact hε)
  refine ⟨Spec.quad (buildH n A (some B)) (al n), ?_, ?_, fun β => ?_, ?_⟩
  · rw [jordanWignerAlphas_eq, buildOp_square _ _ hn, dropSmall_id hsmall]
  · rw [h1]
    exact prod_modes (fun x : ℝ => Polynomial.X - Polynomial.C (x : ℂ)) π hπ
  · rw [h2, ← Equiv.prod_comp π fun k => 2 * Real.cosh (β * ε k)]
    congr 1
    refine Finset.prod_congr rfl fun k _ => ?_
    rw [← Real.cosh_abs (β * s k), ← Real.cosh_abs (β * ε (π k)), abs_mul, abs_mul, hπ]
  · rw [← Equiv.sum_comp π fun k => |ε k|, ← Finset.sum_congr rfl fun k _ => hπ k]
    exact h3

/-- C126. The energies of the tight-binding chain: the eigenvalues of `kitaev_chain(n, mu, t, 0)` are
`±(mu + 2 t cos(π k / (n + 1)))` for `k = 1, ..., n`. -/
theorem C126_tight_binding (mu t : ℝ) :
    IsModes (kitaevChain n mu t 0) fun k => mu + 2 * t * Real.cos (Real.pi * (k + 1) / (n + 1)) := by
  rw [IsModes, prod_pm']
  exact chain_charpoly mu t

/-- C126. The energies that `eigh_sp` returns for the tight-binding chain, up to order and signs (C46, C115). -/
theorem C126_eigh (mu t : ℝ)
    (hgap : ∀ k : Fin n, mu + 2 * t * Real.cos (Real.pi * (k + 1) / (n + 1)) = 0 ∨
      1e-10 < |mu + 2 * t * Real.cos (Real.pi * (k + 1) / (n + 1))|)
    (schur : RMat (n + n) → RMat (n + n) × RMat (n + n)) (argsort : (Fin n → ℝ) → Fin n → ℕ)
    (hschur : SchurOk (kitaevChain n mu t 0) schur) (hsort : ArgsortOk argsort) :
    ∃ (s : Fin n → ℝ) (U : Op (n + n)) (π : Equiv.Perm (Fin n)),
      eighSp schur argsort (kitaevChain n mu t 0) = .ok (Spec.standardForm s, U) ∧
      ∀ k, |s k| = |mu + 2 * t * Real.cos (Real.pi * (π k + 1) / (n + 1))| := by
  obtain ⟨hA, hB⟩ := kitaev_parts n mu t 0
  have hk := kitaev_eq n mu t 0
  have hg : NoTinyEigenvalue (kitaevChain n mu t 0) := by
    obtain ⟨U, s, -, hU, hL⟩ := exists_canonical (buildH_herm _ _ hA hB) (buildH_ph _ _ hA hB)
    rw [← hk] at hL
    obtain ⟨π, hπ⟩ := modes_unique hU hL (chain_charpoly mu t)
    intro μ v hv h
    obtain ⟨i, hi⟩ := (standardForm_eigen hU hL μ).1 ⟨v, hv, h⟩
    have h1 : ‖μ‖ = |s i| := by rcases hi with rfl | rfl <;> simp
    rcases hgap (π i) with h2 | h2
    · left
      rw [← norm_eq_zero, h1, hπ, h2, abs_zero]
    · right
      rw [h1, hπ]
      exact h2
  rw [hk] at hschur hg
  obtain ⟨L, U, s, hrun, hU, hc, hL, -, hex⟩ := eigh_main schur argsort (buildH_herm _ _ hA hB)
    (buildH_ph _ _ hA hB) hschur hsort
  obtain rfl := hex hg
  rw [← hk] at hrun hL
  obtain ⟨π, hπ⟩ := modes_unique hU hL (chain_charpoly mu t)
  exact ⟨s, U, π, hrun, hπ⟩

/-- C126. Ground energy and partition function of the tight-binding chain. -/
theorem C126_chain (hn : 1 ≤ n) (mu t : ℝ) (hmu : mu = 0 ∨ 1e-10 ≤ |mu|) (ht : t = 0 ∨ 1e-10 ≤ |t|) :
    ∃ Q : Op (2 ^ n), buildOp n (kitaevChain n mu t 0) (jordanWignerAlphas n) false = .ok Q ∧
      (∀ β : ℝ, (expm ((-β : ℂ) • Q)).trace =
        ((∏ k : Fin n, 2 * Real.cosh (β * (mu + 2 * t * Real.cos (Real.pi * (k + 1) / (n + 1)))) : ℝ) : ℂ)) ∧
      IsLeast {E : ℝ | ∃ v : Fin (2 ^ n) → ℂ, v ≠ 0 ∧ Q *ᵥ v = (E : ℂ) • v}
        (-∑ k : Fin n, |mu + 2 * t * Real.cos (Real.pi * (k + 1) / (n + 1))|) := by
  obtain ⟨hA, hB⟩ := kitaev_parts n mu t 0
  have hk := kitaev_eq n mu t 0
  have hs := kitaev_small n hmu ht (.inl rfl : (0 : ℝ) = 0 ∨ _)
  have hm := C126_tight_binding (n := n) mu t
  rw [hk] at hs hm
  obtain ⟨Q, h1, -, h2, h3⟩ := C126_many_body hn _ _ hA hB hs _ hm
  rw [← hk] at h1
  exact ⟨Q, h1, h2, h3⟩

/-- The hypotheses of `C126_eigh` and `C126_chain` are met, e.g. for every length with `mu = 3`, `t = 1`. -/
example (n : ℕ) : (∀ k : Fin n, 3 + 2 * 1 * Real.cos (Real.pi * (k + 1) / (n + 1)) = 0 ∨
      1e-10 < |3 + 2 * 1 * Real.cos (Real.pi * ((k : ℕ) + 1) / (n + 1))|) ∧
    ∃ (schur : RMat (n + n) → RMat (n + n) × RMat (n + n)) (argsort : (Fin n → ℝ) → Fin n → ℕ),
      SchurOk (kitaevChain n 3 1 0) schur ∧ ArgsortOk argsort := by
  refine ⟨fun k => Or.inr ?_, ?_⟩
  · have := Real.neg_one_le_cos (Real.pi * ((k : ℕ) + 1) / (n + 1))
    rw [abs_of_nonneg (by linarith)]
    norm_num
    linarith
  · obtain ⟨hA, hB⟩ := kitaev_parts n 3 1 0
    rw [kitaev_eq]
    obtain ⟨schur, hs⟩ := schurOk_exists (buildH_herm _ _ hA hB) (buildH_ph _ _ hA hB)
    obtain ⟨as, has⟩ := argsort_exists (n := n)
    exact ⟨schur, as, hs, has⟩

end FF.Props
