import Verif.Spec.Operators

/-! # Specification: filled sites -/

namespace FF.Spec

/-- The occupations in which exactly the sites `s_0, s_1, ...` are filled. -/
def occ {n N : ℕ} (s : Fin N → Fin n) : Fin n → Fin 2 := fun i => if ∃ j, s j = i then 1 else 0

/-- The amplitude of the basis vector with occupations `b` in the state `ψ`. -/
def amp {n : ℕ} (ψ : Fin (2 ^ n) → ℂ) (b : Fin n → Fin 2) : ℂ := ∑ x, fock b x * ψ x

/-- The occupations with site `i` changed from empty to filled or back. -/
def toggle {n : ℕ} (b : Fin n → Fin 2) (i : Fin n) : Fin n → Fin 2 := Function.update b i (1 - b i)

/-- The number of filled sites before site `i`. -/
def before {n : ℕ} (b : Fin n → Fin 2) (i : Fin n) : ℕ := ∑ k : Fin n, if k < i then (b k : ℕ) else 0

/-- The amount by which the matchgate identity for the occupations `b`, `c` fails in the state `ψ`: the sum over the sites
where `b` and `c` differ of the product of the two amplitudes obtained by changing this site in both, with the sign
`(-1)^(filled sites before it in b and c)`. -/
def matchgateDefect {n : ℕ} (ψ : Fin (2 ^ n) → ℂ) (b c : Fin n → Fin 2) : ℂ :=
  ∑ i with b i ≠ c i, (-1) ^ (before b i + before c i) * amp ψ (toggle b i) * amp ψ (toggle c i)

end FF.Spec
