import Verif.Model.Random
import Verif.Model.UtilsText

/-!
# Model of `analyze_pdf` (`src/ff/ff_utils.py`) and `random_CHP_state` (`src/ff/ff_random_states.py`)

The plot made by `analyze_pdf` is represented by the data and texts handed to matplotlib. Colours, markers, axis labels
and the grid are not modelled. The package stim is a parameter; its contract is in `Spec/Plot.lean`.
-/

namespace FF

/-! ## analyze_pdf -/

/-- What `analyze_pdf` draws: the two data series in drawing order, whether `plt.stem` or `plt.plot` is called, and the
title. The index of a point is its position in the list. The scale of the vertical axis is always logarithmic. -/
structure PdfPlot where
  stem : Bool
  diag : List ℂ
  eigenvalues : List ℂ
  title : String

/-- `rho.size`. -/
def Arr.size (x : Arr) : ℕ := x.flatten.1

/-- The entries of the array `clean` returned; `clean` returns an array for an array. -/
def CleanRes.entries : CleanRes → List ℂ
  | .array v => v
  | .list v => v
  | .strOf _ => []
  | .str _ => []
  | .real x => [(x : ℂ)]
  | .complex z => [z]

/-- `np.sort(v)[::-1]` (ff_utils.py:325) for an array with real entries. -/
noncomputable def npSortDesc (v : List ℂ) : List ℂ :=
  open Classical in (v.mergeSort fun a b => decide (a.re ≤ b.re)).reverse

/-- `analyze_pdf(rho, name, stem)`, ff_utils.py:260-370: `none` stands for an argument that is neither an array nor a
list. `np.linalg.eigh` reads the same triangle as `eigvalsh` and returns the same eigenvalues. `clean` is called with
its default threshold `1e-6`. -/
noncomputable def analyzePdf (rho : Option Arr) (name : Option String) (stem : Bool) : Except PyErr PdfPlot :=
  match rho with
  | none => .error .typeError
  | some rho =>
    if rho.size = 0 then .error .valueError
    else do
      let r ← castToDensityMatrix rho
      let pdf : List ℂ := List.ofFn fun i => r.2 i i
      let eigenvals : List ℂ := List.ofFn fun i => ((eigvalsh r.2 i : ℝ) : ℂ)
      let pdf ← clean (.array pdf) (.float 1e-6)
      let eigenvals ← clean (.array eigenvals) (.float 1e-6)
      let eigenvals := npSortDesc eigenvals.entries
      let title := match name with
        | none => "Population analysis"
        | some s => "Population analysis" ++ " of " ++ s
      .ok { stem := stem, diag := pdf.entries, eigenvalues := eigenvals, title := title }

/-! ## random_CHP_state -/

/-- The package stim, drawing from its own random generator: `stim.Tableau.random(n).to_state_vector()`, a 1-D array of
length `2^n`. (It has the type complex64; rounding is not modelled.) -/
structure Stim (σ : Type) where
  stateVector : (n : ℕ) → σ → (Fin (2 ^ n) → ℂ) × σ

/-- `random_CHP_state(n_qubits)`, ff_random_states.py:158-219. `none` stands for a missing package: `import stim`
(line 199) comes before the validation of the argument. The column of shape `(2^n, 1)` is a function
`Fin (2^n) → ℂ`. -/
def randomCHPState {σ : Type} (stim : Option (Stim σ)) (n : PyObj) : Rand σ (Σ n : ℕ, Fin (2 ^ n) → ℂ) :=
  match stim with
  | none => throw .importError
  | some stim => do
    let n ← noDraw (checkPositive n)
    let wf ← draw (stim.stateVector n)
    pure ⟨n, wf⟩

end FF
