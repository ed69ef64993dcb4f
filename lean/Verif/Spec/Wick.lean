import Mathlib.Data.Fin.SuccPred
import Mathlib.LinearAlgebra.Matrix.Trace
import Mathlib.Analysis.Complex.Basic

/-! # Specification: Wick's theorem -/

namespace FF.Spec

open Matrix

/-- The sum over all ways to pair up the sequence of indices `L_0, L_1, ..., L_(m-1)`, each with the product of the
numbers `G_ab` of its pairs and the sign of its crossings: the first index is paired with each of the others in turn,
with a minus sign for each index in between, and the rest is paired up in the same way. -/
def contract {k : ℕ} (G : Matrix (Fin k) (Fin k) ℂ) : (m : ℕ) → (Fin m → Fin k) → ℂ
  | 0, _ => 1
  | 1, _ => 0
  | m + 2, L => ∑ p : Fin (m + 1), (-1) ^ (p : ℕ) * G (L 0) (L p.succ) * contract G m fun i => L (p.succAbove i).succ

/-- The antisymmetric matrix with the entries `G_(L_a)(L_b)` above the diagonal. -/
def contraction {k m : ℕ} (G : Matrix (Fin k) (Fin k) ℂ) (L : Fin m → Fin k) : Matrix (Fin m) (Fin m) ℂ :=
  Matrix.of fun a b => if a < b then G (L a) (L b) else if b < a then -G (L b) (L a) else 0

/-- Wick's theorem holds for the operators `f` in the state `ρ`: the expectation value of every product of the
operators is the sum over all pairings of the pair correlations. -/
def ObeysWick {d k : ℕ} (f : Fin k → Matrix (Fin d) (Fin d) ℂ) (ρ : Matrix (Fin d) (Fin d) ℂ) : Prop :=
  ∀ (m : ℕ) (L : Fin m → Fin k), (ρ * (List.ofFn fun i => f (L i)).prod).trace =
    contract (Matrix.of fun i j => (ρ * f i * f j).trace) m L

end FF.Spec
