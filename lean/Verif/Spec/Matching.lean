import Mathlib.Data.Fintype.Powerset
import Mathlib.Data.Fintype.Prod
import Mathlib.Combinatorics.SimpleGraph.Basic
import Mathlib.Algebra.BigOperators.Fin

/-!
# Specification: perfect matchings

A perfect matching of the vertices `0, …, n-1` is a set of pairs `(i, j)` with `i < j` such that every
vertex belongs to exactly one pair.
-/

namespace FF.Spec

/-- `M` is a perfect matching of the complete graph on `n` vertices. -/
structure IsPerfectMatching {n : ℕ} (M : Finset (Fin n × Fin n)) : Prop where
  ordered : ∀ e ∈ M, e.1 < e.2
  covers : ∀ v : Fin n, ∃! e, e ∈ M ∧ (e.1 = v ∨ e.2 = v)

open Classical in
/-- All perfect matchings on `n` vertices. -/
noncomputable def perfectMatchings (n : ℕ) : Finset (Finset (Fin n × Fin n)) :=
  Finset.univ.filter IsPerfectMatching

open Classical in
/-- All perfect matchings of the graph `G`. -/
noncomputable def matchingsOf {n : ℕ} (G : SimpleGraph (Fin n)) : Finset (Finset (Fin n × Fin n)) :=
  Finset.univ.filter fun M => IsPerfectMatching M ∧ ∀ e ∈ M, G.Adj e.1 e.2

/-- The number of crossings of a matching, drawn with the vertices in order on a line and the pairs as arcs above it:
pairs `(a, b)` and `(c, d)` with `a < c < b < d`. -/
def crossings {n : ℕ} (M : Finset (Fin n × Fin n)) : ℕ :=
  ((M ×ˢ M).filter fun p => p.1.1 < p.2.1 ∧ p.2.1 < p.1.2 ∧ p.1.2 < p.2.2).card

end FF.Spec
