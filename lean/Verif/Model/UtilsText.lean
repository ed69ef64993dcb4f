import Verif.Model.Numpy

/-!
# Model of `src/ff/ff_utils.py`: `clean`, `formatted_output`, `print_custom`
-/

namespace FF

/-! ## clean -/

/-- The `threshold` argument of `clean`: a Python `int` or a `float`. -/
inductive Threshold where
  | int (k : ℤ)
  | float (t : ℝ)

/-- ff_utils.py:80-85: the number of digits. For floats `-round(np.log10(threshold))`;
`np.log10(0)` is `-inf` and `round(-inf)` raises `OverflowError`; `np.log10` of a negative number is `nan`
and `round(nan)` raises `ValueError`. -/
noncomputable def Threshold.ndigits : Threshold → Except PyErr ℤ
  | .int k => .ok k
  | .float t =>
    open Classical in
    if t = 0 then .error .overflowError
    else if t < 0 then .error .valueError
    else .ok (-rint (Real.logb 10 t))

/-- ff_utils.py:80-85: the threshold as a number. -/
noncomputable def Threshold.value : Threshold → ℝ
  | .int k => 10 ^ (-k)
  | .float t => t

/-- The kinds of objects `clean` distinguishes. Arrays and lists are given by their entries (the
operations are entrywise, shapes are kept); arrays with no axes are not modelled. Strings are given
by the number they parse to when `obj.replace(".", "", 1).isnumeric()` (`some x`), or not (`none`). -/
inductive CleanObj where
  | list (v : List ℂ)
  | array (v : List ℂ)
  | str (parsed : Option ℝ) (s : String)
  | real (x : ℝ)
  | complex (z : ℂ)
  | other

/-- What `clean` returns. `strOf x` stands for `str(x)` of a rounded number. -/
inductive CleanRes where
  | list (v : List ℂ)
  | array (v : List ℂ)
  | strOf (x : ℝ)
  | str (s : String)
  | real (x : ℝ)
  | complex (z : ℂ)

/-- `obj = np.round(obj, ndigits); obj[np.abs(obj) < threshold] = 0` (lines 90-92 and 103-104). -/
noncomputable def roundAndZero (nd : ℤ) (thr : ℝ) (v : List ℂ) : List ℂ :=
  open Classical in
  (v.map (npRoundC nd)).map fun z => if ‖z‖ < thr then 0 else z

/-- Lines 87-129 of `clean`, with `ndigits` and the numeric threshold. -/
noncomputable def cleanWith (nd : ℤ) (thr : ℝ) (obj : CleanObj) : Except PyErr CleanRes :=
  open Classical in
  match obj with
  | .list v => .ok (.list (roundAndZero nd thr v))
  | .array v =>
    if ∀ z ∈ v, |z.im| < thr then .ok (.array (v.map fun z => (npRound nd z.re : ℂ)))
    else .ok (.array (roundAndZero nd thr v))
  | .str (some x) _ => .ok (.strOf (npRound nd x))
  | .str none s => .ok (.str s)
  | .real x => .ok (.real (npRound nd x))
  | .complex z =>
    if |z.im| < thr then .ok (.real (npRound nd z.re))
    else .ok (.complex (npRoundC nd z))
  | .other => .error .typeError

/-- `clean(obj, threshold)`, ff_utils.py:66-129. -/
noncomputable def clean (obj : CleanObj) (threshold : Threshold) : Except PyErr CleanRes := do
  let nd ← threshold.ndigits
  cleanWith nd threshold.value obj

/-! ## formatted_output -/

/-- Decimal digit characters of `N`, most significant first, at least one. -/
def natDigits (N : ℕ) : List Char := (Nat.toDigits 10 N)

/-- The last `p` decimal digits of `N`, most significant first, zero padded. -/
def lastDigits : ℕ → ℕ → List Char
  | 0, _ => []
  | p + 1, N => lastDigits p (N / 10) ++ [Nat.digitChar (N % 10)]

/-- `f"{x:.{p}f}"` for a real number: the correctly rounded (half to even) decimal with `p` fractional
digits; the sign is printed for every negative number, even if it rounds to zero. -/
noncomputable def fmtFixed (p : ℕ) (x : ℝ) : List Char :=
  open Classical in
  let N : ℕ := (rint (|x| * 10 ^ p)).toNat
  (if x < 0 then ['-'] else []) ++ natDigits (N / 10 ^ p) ++
    (if p = 0 then [] else '.' :: lastDigits p N)

/-- The kinds of objects `formatted_output` distinguishes; for other objects `str(obj)` is returned. -/
inductive FmtObj where
  | real (x : ℝ)
  | complex (z : ℂ)
  | other (str : List Char)

/-- `formatted_output(obj, precision)`, ff_utils.py:132-152 (strings as lists of characters). -/
noncomputable def formattedOutput (obj : FmtObj) (precision : ℕ) : List Char :=
  open Classical in
  match obj with
  | .complex z =>
    if |z.im| < 1e-10 then fmtFixed precision z.re
    else fmtFixed precision z.re ++ [' ', '+', ' '] ++ fmtFixed precision z.im ++ ['j']
  | .real x => fmtFixed precision x
  | .other s => s

/-! ## print_custom -/

/-- The global state `print_custom` touches: numpy's print precision and what has been printed. -/
structure PrintState where
  precision : ℕ
  output : List String

/-- A step that may raise. -/
abbrev Step := Except PyErr Unit

/-- Behaviour of the library calls made by `_print` (each may raise): `np.array(obj)`, the
`np.allclose` test, `np.set_printoptions(precision=k)`, `clean(val, k)`, the first `print` and the
fallback `print(obj)`. A failing `print` may have written part of its text. -/
structure PrintEnv where
  mkArray : Step
  checkReal : Step
  setPrec : Step
  clean : Step
  printVal : Step × List String
  printObj : Step × List String

/-- `_print(obj, k)`, ff_utils.py:30-63: try / except (ValueError, TypeError) / finally. Returns the
final state and the exception that propagates, if any. -/
def printInner (env : PrintEnv) (k : ℕ) (s : PrintState) : PrintState × Step :=
  let p := s.precision
  -- the body of `try`
  let body : PrintState × Step :=
    match env.mkArray with
    | .error e => (s, .error e)
    | .ok _ => match env.checkReal with
      | .error e => (s, .error e)
      | .ok _ => match env.setPrec with
        | .error e => (s, .error e)
        | .ok _ =>
          let s1 := { s with precision := k }
          match env.clean with
          | .error e => (s1, .error e)
          | .ok _ => ({ s1 with output := s1.output ++ env.printVal.2 }, env.printVal.1)
  -- `except (ValueError, TypeError): print(obj)`
  let handled : PrintState × Step :=
    match body.2 with
    | .error .valueError | .error .typeError =>
      ({ body.1 with output := body.1.output ++ env.printObj.2 }, env.printObj.1)
    | _ => body
  -- `finally: np.set_printoptions(precision=p)`
  ({ handled.1 with precision := p }, handled.2)

/-- `print_custom(obj, k)`, ff_utils.py:14-27; `isNumeric` is the `isinstance` test on line 24. -/
def printCustom (env : PrintEnv) (isNumeric : Bool) (k : ℕ) (s : PrintState) : PrintState × Step :=
  if isNumeric then printInner env k s
  else ({ s with output := s.output ++ env.printObj.2 }, env.printObj.1)

end FF
