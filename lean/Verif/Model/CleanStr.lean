import Verif.Model.UtilsText

/-!
# Model of `src/ff/ff_utils.py`: `clean` on strings, character by character
-/

namespace FF

/-- The two tables of the Unicode database that are used: whether `str.isnumeric` holds for a character, and the value of
a character that `float` takes for a decimal digit. -/
structure CharTable where
  isNumeric : Char → Bool
  decimal : Char → Option ℕ

/-- The number with the given decimal digits. -/
def digitsValue (ds : List ℕ) : ℕ := ds.foldl (fun v d => 10 * v + d) 0

/-- `float(obj)` (ff_utils.py:110), for strings made of numeric characters and at most one point: the others do not get
here, so signs, exponents, blanks, underscores, `inf` and `nan` are left out. ValueError unless every character next to
the point is a decimal digit and there is at least one. The number is exact; rounding to double precision and the
overflow to `inf` beyond 308 digits are not modelled. -/
noncomputable def pyFloat (U : CharTable) (s : List Char) : Except PyErr ℝ :=
  let whole := s.takeWhile (· ≠ '.')
  let frac := (s.dropWhile (· ≠ '.')).drop 1
  match (whole ++ frac).mapM U.decimal with
  | none => .error .valueError
  | some [] => .error .valueError
  | some ds => .ok ((digitsValue ds : ℝ) / 10 ^ frac.length)

/-- `clean(obj, threshold)` for a string, ff_utils.py:80-85 and 107-115: `obj.replace(".", "", 1)` deletes the first point;
`isnumeric` is False for the empty string. -/
noncomputable def cleanString (U : CharTable) (s : List Char) (threshold : Threshold) : Except PyErr CleanRes := do
  let nd ← threshold.ndigits
  let t := s.erase '.'
  if t ≠ [] ∧ t.all U.isNumeric then do
    let x ← pyFloat U s
    pure (.strOf (npRound nd x))
  else pure (.str (String.ofList s))

end FF
