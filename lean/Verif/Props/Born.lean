import Verif.Proofs.Born
import Verif.Props.Circuit
import Verif.Props.FFLaw

/-! # Property C167: measuring the sites of a free-fermion state

The outcome `x` of a measurement of all sites is a position of the basis; bit `k` of it says whether site `k` is filled. -/

namespace FF.Props

open Matrix
open scoped ComplexOrder

variable {n : ℕ} {f : Fin (n + n) → Op (2 ^ n)}

/-- The correlation matrix that belongs to the outcome `x`: 1 for the filled and 0 for the empty sites in the first half of the
diagonal, the other way round in the second half. -/
def outcomeMatrix (n : ℕ) (x : Fin (2 ^ n)) : Op (n + n) :=
  diagonal (Fin.append (fun k => if Spec.digit 2 n x k = 1 then 1 else 0) fun k => if Spec.digit 2 n x k = 1 then 0 else 1)

theorem basis_unit {d : ℕ} (x : Fin d) : Spec.IsUnitVec (Pi.single x 1 : Fin d → ℂ) := by
  rw [Spec.IsUnitVec, Finset.sum_eq_single x] <;> simp +contextual

/-! ## C167 -/

/-- C167. The basis states obey Wick's theorem and their correlation matrices are the `outcomeMatrix`. -/
theorem C167_basis (hf : jordanWignerAlphas n = List.ofFn f) (x : Fin (2 ^ n)) :
    Spec.IsDensity (Spec.proj (Pi.single x 1)) ∧ Spec.ObeysWick f (Spec.proj (Pi.single x 1)) ∧
    compute2Corr (Spec.proj (Pi.single x 1)) n (jordanWignerAlphas n) (some 1) = .ok (outcomeMatrix n x) := by
  rw [jordanWignerAlphas_eq] at hf
  obtain rfl := List.ofFn_injective hf
  obtain ⟨h1, h2⟩ := bits_state (fun k => if Spec.digit 2 n x k = 1 then (1 : ℝ) else 0)
  rw [bits_basis] at h1 h2
  refine ⟨proj_density (basis_unit x), h1, ?_⟩
  rw [jordanWignerAlphas_eq, (C43_entries _ (al n) 1).2]
  refine congrArg Except.ok (h2.trans ?_)
  rw [outcomeMatrix]
  congr 2
  · funext k; split_ifs <;> simp
  · funext k; split_ifs <;> simp

/-- C167. The probabilities of `cast_to_pdf` for a density matrix that obeys Wick's theorem, from its correlation matrix: the
probability of `x` is the square root of `det(P X + (1 - P)(1 - X))` with the diagonal matrix `X` of the outcome. -/
theorem C167_density (hf : jordanWignerAlphas n = List.ofFn f) {ρ : Op (2 ^ n)} (hρ : Spec.IsDensity ρ) (hw : Spec.ObeysWick f ρ)
    (P : Op (n + n)) (hP : compute2Corr ρ n (jordanWignerAlphas n) (some 1) = .ok P) :
    castToPdf (.mat (2 ^ n) (2 ^ n) ρ) = .ok ⟨2 ^ n, fun x =>
      Real.sqrt (P * outcomeMatrix n x + (1 - P) * (1 - outcomeMatrix n x)).det.re⟩ := by
  rw [(C17_density _ ρ hρ).1]
  congr 2
  funext x
  obtain ⟨h1, h2, h3⟩ := C167_basis hf x
  have h := (C165_overlap hf hρ hw h1 h2 P _ hP h3).2.2
  have ht : (ρ * Spec.proj (Pi.single x 1)).trace = ρ x x := by
    simp [trace, diag_apply, Matrix.mul_apply, Spec.proj, Pi.single_apply, apply_ite]
  rw [ht] at h
  rw [h, Complex.ofReal_re]

/-- C167. The same for state vectors. -/
theorem C167_vector (hf : jordanWignerAlphas n = List.ofFn f) {ψ : Fin (2 ^ n) → ℂ} (hψ : Spec.IsUnitVec ψ)
    (hw : Spec.ObeysWick f (Spec.proj ψ)) (P : Op (n + n))
    (hP : compute2Corr (Spec.proj ψ) n (jordanWignerAlphas n) (some 1) = .ok P) :
    castToPdf (.vec (2 ^ n) ψ) = .ok ⟨2 ^ n, fun x =>
      Real.sqrt (P * outcomeMatrix n x + (1 - P) * (1 - outcomeMatrix n x)).det.re⟩ := by
  rw [← C167_density hf (proj_density hψ) hw P hP, (C17_wavefunction _ ψ hψ).1, (C17_density _ _ (proj_density hψ)).1]
  congr 2
  funext x
  simp only [Spec.proj, of_apply, Complex.star_def, Complex.mul_conj, Complex.normSq_eq_norm_sq, Complex.ofReal_re]

/-- C167. Simulation of circuits: start from the basis state `y`, apply any number of free-fermion gates and measure all sites.
`cast_to_pdf` gives the probabilities that follow from the product `E` of the `2n x 2n` matrices of the gates alone. -/
theorem C167_simulation (hn : 1 ≤ n) (gs : List (Gate n)) (Ws : List (Op (2 ^ n))) (h : List.Forall₂ Gate.Is gs Ws) (y : Fin (2 ^ n)) :
    let E := inOrder (gs.map Gate.orbital)
    let P := E * outcomeMatrix n y * Eᴴ
    castToPdf (.vec (2 ^ n) (inOrder Ws *ᵥ Pi.single y 1)) = .ok ⟨2 ^ n, fun x =>
      Real.sqrt (P * outcomeMatrix n x + (1 - P) * (1 - outcomeMatrix n x)).det.re⟩ := by
  intro E P
  obtain ⟨h1, h2, h3⟩ := C167_basis (jordanWignerAlphas_eq n) y
  obtain ⟨c1, -, c3, -⟩ := C166_correlations hn gs Ws h (Spec.proj (Pi.single y 1))
  obtain ⟨-, w2⟩ := C166_wick (jordanWignerAlphas_eq n) hn gs Ws h h1 h2
  have e : Spec.proj (inOrder Ws *ᵥ Pi.single y 1) = inOrder Ws * Spec.proj (Pi.single y 1) * (inOrder Ws)ᴴ :=
    (proj_conj _ _).symm
  refine C167_vector (jordanWignerAlphas_eq n) ?_ (e ▸ w2) P ?_
  · exact unit_mulVec c1 (basis_unit y)
  · rw [e]; exact c3 _ h3

/-- The hypotheses of `C167_density` are met by the basis states, and by the mixed states of the examples beside C165; those of
`C167_vector` by the basis states, here of two sites. -/
example : Spec.IsUnitVec (Pi.single 2 1 : Fin (2 ^ 2) → ℂ) ∧ Spec.ObeysWick (al 2) (Spec.proj (Pi.single 2 1)) ∧
    compute2Corr (Spec.proj (Pi.single 2 1)) 2 (jordanWignerAlphas 2) (some 1) = .ok (outcomeMatrix 2 2) :=
  ⟨basis_unit _, (C167_basis (jordanWignerAlphas_eq 2) 2).2⟩

/-- The hypotheses of `C167_simulation` are met by every list of gates. -/
example (gs : List (Gate 2)) : ∃ Ws, List.Forall₂ Gate.Is gs Ws := C166_defined (by norm_num) gs

/-- The outcome 2 of two sites: the first site is filled and the second one is empty. -/
example : outcomeMatrix 2 2 = diagonal ![1, 0, 0, 1] := by
  rw [outcomeMatrix]
  congr 1
  funext i
  fin_cases i <;> simp [Fin.append, Fin.addCases, Spec.digit]

end FF.Props
