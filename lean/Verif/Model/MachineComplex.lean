import Verif.Model.Machine
import Verif.Model.MachineSum

/-!
# Model of `src/ff/ff_combinatorics.py` with complex floats

As in `Model/Machine.lean` every operation on the parts is rounded to 53 digits, without overflow and underflow (`Model/Ieee.lean` has both). numpy
multiplies two complex numbers with four products and two sums; fused multiply-add, which a compiler may use on some processors, is
not modelled.
-/

namespace FF

/-- `z * w`. -/
noncomputable def mulC (z w : ℂ) : ℂ :=
  ⟨rnd (rnd (z.re * w.re) - rnd (z.im * w.im)), rnd (rnd (z.re * w.im) + rnd (z.im * w.re))⟩

/-- numpy's `complex128` scalars. -/
noncomputable def complex128 : Arith ℂ := ⟨fun z => ((rnd z : ℝ) : ℂ), addC, mulC⟩

/-- `s / k` for a `complex128` scalar: `k` is converted to the complex number `k + 0j`, and numpy divides with Smith's method. -/
noncomputable def divComplex (s : ℂ) (k : ℤ) : ℂ :=
  let rat := rnd (0 / rnd k)
  let scl := rnd (1 / rnd (rnd k + rnd (0 * rat)))
  ⟨rnd (rnd (s.re + rnd (s.im * rat)) * scl), rnd (rnd (s.im - rnd (s.re * rat)) * scl)⟩

end FF
