import Verif.Model.Numpy
import Mathlib.LinearAlgebra.Matrix.Charpoly.Basic
import Mathlib.Analysis.Complex.Basic

/-! # Specification: eigenvalues up to errors -/

namespace FF.Spec

/-- `np.linalg.eigvals` on `n × n` arrays with entries of modulus at most 1, up to errors: it returns the eigenvalues, in
some order, each up to an error of at most `η`. -/
def EigvalsWithin (η : ℝ) (n : ℕ) (eigvals : {n : ℕ} → Matrix (Fin n) (Fin n) ℂ → Except PyErr (List ℂ)) : Prop :=
  ∀ A : Matrix (Fin n) (Fin n) ℂ, (∀ i j, ‖A i j‖ ≤ 1) → ∃ l l' : List ℂ, eigvals A = .ok l ∧
    (l' : Multiset ℂ) = A.charpoly.roots ∧ List.Forall₂ (fun a b => ‖a - b‖ ≤ η) l l'

end FF.Spec
