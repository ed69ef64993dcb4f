import Verif.Model.Coefficients

/-! # Array types in the functions that accumulate in place

The other models work with complex numbers throughout. Here an array also carries its numpy type. -/

namespace FF

open Matrix

/-- The kinds of numpy types that matter for in-place operations. -/
inductive Kind where
  | int
  | float
  | complex
  deriving DecidableEq, Repr

/-- numpy's order of the kinds. -/
def Kind.rank : Kind → ℕ
  | .int => 0
  | .float => 1
  | .complex => 2

/-- `np.result_type(a, b)`: the type of a product of two arrays, or of an array and a numpy scalar. -/
def Kind.promote (a b : Kind) : Kind := if a.rank ≤ b.rank then b else a

/-- A square array with its type. The entries of integer arrays are not reduced modulo `2^64` here. -/
structure TArr (d : ℕ) where
  kind : Kind
  val : Op d

/-- `acc += x` on numpy arrays: the type of `acc` is kept, and `UFuncTypeError` (a `TypeError`) is raised if the type of `x`
is of a higher kind. -/
def TArr.addInto {d : ℕ} (acc x : TArr d) : Except PyErr (TArr d) :=
  if x.kind.rank ≤ acc.kind.rank then .ok ⟨acc.kind, acc.val + x.val⟩ else .error .typeError

/-- `_perform_rotation(C, alphas)`, ff_lib.py:299-345, with array types: `b_j = np.zeros_like(alphas[0])`, then
`b_j += C[j, i] * alphas[i]`. -/
noncomputable def performRotationT {m k d : ℕ} (kC : Kind) (C : Matrix (Fin m) (Fin k) ℂ) (alphas : List (TArr d)) :
    Except PyErr (List (TArr d)) :=
  open Classical in
  (List.range alphas.length).mapM fun j => do
    let a0 ← listGet alphas 0
    (List.range alphas.length).foldlM (fun b i => do
      let c ← get2 C j i
      if ‖c‖ < 1e-9 then pure b
      else do
        let a ← listGet alphas i
        b.addInto ⟨kC.promote a.kind, c • a.val⟩) (⟨a0.kind, 0⟩ : TArr d)

/-- `rotate_operators(C, alphas, Left)`, ff_lib.py:259-296, with array types (the other order of the arguments is
exchanged first). -/
noncomputable def rotateOperatorsT {m k d : ℕ} (kC : Kind) (C : Matrix (Fin m) (Fin k) ℂ) (alphas : List (TArr d))
    (left : Bool) : Except PyErr (Option (List (TArr d))) :=
  let n := alphas.length
  if m ≠ n ∧ k ≠ n ∧ ¬ (m > n ∧ k > n) then .ok none
  else if left then return some (← performRotationT kC C.conjTranspose alphas)
  else return some (← performRotationT kC C alphas)

/-- `build_op(n_sites, R, alphas, direct)`, ff_lib.py:758-794, with array types: `R_op = np.zeros_like(alphas[0])`, then
`R_op += R[i, j] * (...)`. -/
noncomputable def buildOpT {m k d : ℕ} (nSites : ℕ) (kR : Kind) (R : Matrix (Fin m) (Fin k) ℂ)
    (alphas : List (TArr d)) (direct : Bool) : Except PyErr (TArr d) :=
  open Classical in do
  let a0 ← listGet alphas 0
  (List.range (2 * nSites)).foldlM (fun acc i =>
    (List.range (2 * nSites)).foldlM (fun acc j => do
      let r ← get2 R i j
      if ‖r‖ < 1e-10 then pure acc
      else do
        let ai ← listGet alphas i
        let aj ← listGet alphas j
        if direct then acc.addInto ⟨kR.promote (ai.kind.promote aj.kind), r • (ai.val * aj.val)⟩
        else acc.addInto ⟨kR.promote (ai.kind.promote aj.kind), r • (ai.val.conjTranspose * aj.val)⟩) acc)
    (⟨a0.kind, 0⟩ : TArr d)

/-- A Python number with its type. -/
structure TNum where
  kind : Kind
  val : ℂ

/-- `A[i, j] = x` for a Python number: a complex number cannot be stored in an array of another type (`TypeError`).
(Storing a float in an integer array would truncate it; this does not occur in `kitaev_chain`.) -/
def TArr.set {d : ℕ} (A : TArr d) (i j : Fin d) (x : TNum) : Except PyErr (TArr d) :=
  if x.kind = .complex ∧ A.kind ≠ .complex then .error .typeError else .ok ⟨A.kind, set2 A.val i j x.val⟩

/-- `kitaev_chain(n_sites, mu, t, delta)`, ff_lib.py:541-557, for Python numbers of any type: `A = -mu * np.eye(n)` has the
type of `mu` or float, `B` is a float array; `build_H` returns a complex array. -/
noncomputable def kitaevChainT (n : ℕ) (mu t delta : TNum) : Except PyErr (Op (n + n)) := do
  let A ← (List.range (n - 1)).foldlM (fun (A : TArr n) i =>
    if h : i + 1 < n then do
      let A ← A.set ⟨i, by omega⟩ ⟨i + 1, h⟩ ⟨t.kind, -t.val⟩
      A.set ⟨i + 1, h⟩ ⟨i, by omega⟩ ⟨t.kind, -t.val⟩
    else pure A) (⟨Kind.float.promote mu.kind, (-mu.val) • 1⟩ : TArr n)
  let B ← (List.range (n - 1)).foldlM (fun (B : TArr n) i =>
    if h : i + 1 < n then do
      let B ← B.set ⟨i, by omega⟩ ⟨i + 1, h⟩ delta
      B.set ⟨i + 1, h⟩ ⟨i, by omega⟩ ⟨delta.kind, -delta.val⟩
    else pure B) (⟨.float, 0⟩ : TArr n)
  pure (buildH n A.val (some B.val))

end FF
