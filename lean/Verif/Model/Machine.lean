import Verif.Model.Combinatorics
import Verif.Model.Numpy
import Mathlib.Data.Int.Log

/-!
# Model of `src/ff/ff_combinatorics.py` with machine numbers

`Verif/Model/Combinatorics.lean` computes with exact numbers. Here the same loops run on the numbers numpy computes
with: 64-bit integers (the entries of `np.array([[0, 1], [-1, 0]])`), which wrap around, and 64-bit floats, where every
operation is rounded. Overflow and underflow of floats, infinities and nan are in
`Model/Ieee.lean`, complex floats in `Model/MachineComplex.lean`.
-/

namespace FF

/-- The scalar operations the loops use. `ofInt` converts the Python integers 0, 1, -1 that start the loops and that `sgn`
returns. -/
structure Arith (K : Type) where
  ofInt : ℤ → K
  add : K → K → K
  mul : K → K → K

/-- Exact arithmetic. -/
def exactArith (K : Type) [CommRing K] : Arith K := ⟨Int.cast, (· + ·), (· * ·)⟩

/-- A 64-bit integer result: numpy reduces modulo `2^64` into `[-2^63, 2^63)` (and emits a RuntimeWarning, which is not
modelled). -/
def wrap64 (z : ℤ) : ℤ := Int.bmod z (2 ^ 64)

/-- numpy's `int64` scalars. -/
def int64 : Arith ℤ := ⟨id, fun x y => wrap64 (x + y), fun x y => wrap64 (x * y)⟩

/-- Rounding to a 64-bit float: the nearest number with 53 significant binary digits, ties to even. The exponent is
unbounded (no overflow or underflow). -/
noncomputable def rnd (x : ℝ) : ℝ :=
  open Classical in
  if x = 0 then 0
  else
    let e : ℤ := Int.log 2 |x| - 52
    rint (x * 2 ^ (-e)) * 2 ^ e

/-- numpy's `float64` scalars. -/
noncomputable def float64 : Arith ℝ := ⟨fun z => rnd z, fun x y => rnd (x + y), fun x y => rnd (x * y)⟩

variable {K : Type}

/-- The inner loop of `pf` and `hf`, ff_combinatorics.py:68-70 and 108-110. -/
def matchProdOn (ar : Arith K) {m n : ℕ} (A : Matrix (Fin m) (Fin n) K) (perm : List ℕ) (nEdges : ℕ) :
    Except PyErr K :=
  (List.range nEdges).foldlM (fun prod i => do
    let r ← listGet perm (2 * i)
    let c ← listGet perm (2 * i + 1)
    let x ← get2 A r c
    pure (ar.mul prod x)) (ar.ofInt 1)

/-- The inner loop of `pt` and `dt`, ff_combinatorics.py:140-142 and 172-174. -/
def permProdOn (ar : Arith K) {m n : ℕ} (A : Matrix (Fin m) (Fin n) K) (perm : List ℕ) (len : ℕ) :
    Except PyErr K :=
  (List.range len).foldlM (fun prod i => do
    let c ← listGet perm i
    let x ← get2 A i c
    pure (ar.mul prod x)) (ar.ofInt 1)

/-- `pt`, ff_combinatorics.py:116-145. -/
def ptOn (ar : Arith K) {m n : ℕ} (A : Matrix (Fin m) (Fin n) K) : Except PyErr K :=
  (permutations (List.range m)).foldlM (fun s perm => do
    let prod ← permProdOn ar A perm m
    pure (ar.add s prod)) (ar.ofInt 0)

/-- `dt`, ff_combinatorics.py:148-177. -/
def dtOn (ar : Arith K) {m n : ℕ} (A : Matrix (Fin m) (Fin n) K) : Except PyErr K :=
  (permutations (List.range m)).foldlM (fun s perm => do
    let prod ← permProdOn ar A perm m
    pure (ar.add s (ar.mul (ar.ofInt (sgn perm)) prod))) (ar.ofInt 0)

/-- `pf`, ff_combinatorics.py:36-73. `div s k` is the last line's `s / k` with the Python integer `k`. -/
def pfOn {L : Type} [Zero L] (ar : Arith K) (div : K → ℤ → L) {m n : ℕ} (A : Matrix (Fin m) (Fin n) K) : Except PyErr L :=
  if m % 2 ≠ 0 then .ok 0
  else do
    let nEdges := m / 2
    let pfSum ← (permutations (List.range m)).foldlM (fun s perm => do
      let prod ← matchProdOn ar A perm nEdges
      pure (ar.add s (ar.mul (ar.ofInt (sgn perm)) prod))) (ar.ofInt 0)
    pure (div pfSum (2 ^ nEdges * nEdges.factorial))

/-- `hf`, ff_combinatorics.py:76-113. -/
def hfOn {L : Type} [Zero L] (ar : Arith K) (div : K → ℤ → L) {m n : ℕ} (A : Matrix (Fin m) (Fin n) K) : Except PyErr L :=
  if m % 2 ≠ 0 then .ok 0
  else do
    let nEdges := m / 2
    let hfSum ← (permutations (List.range m)).foldlM (fun s perm => do
      let prod ← matchProdOn ar A perm nEdges
      pure (ar.add s prod)) (ar.ofInt 0)
    pure (div hfSum (2 ^ nEdges * nEdges.factorial))

/-- `s / k` for an `int64` scalar: both are converted to floats. (A Python integer `k` beyond 64 bits, here an array
with more than 32 rows, is not representable; such calls would run over more than 32! permutations.) -/
noncomputable def divInt (s k : ℤ) : ℝ := rnd (rnd s / rnd k)

/-- `s / k` for a `float64` scalar: `k` is converted to a float. -/
noncomputable def divFloat (s : ℝ) (k : ℤ) : ℝ := rnd (s / rnd k)

end FF
