import Verif.Model.Random
import Verif.Model.Shapes

/-!
# Model of `src/ff/ff_random_states.py`: the paths between vectors whose lengths may differ
-/

namespace FF

open Matrix

/-- `W[:, i]` for a result of `get_orthogonal_vectors` (ff_random_states.py:712-713): the empty array has one axis only, so
two subscripts raise IndexError. -/
def columnAt {k : ℕ} (W : Option (Op k)) (i : ℕ) : Except PyErr (List ℂ) :=
  match W with
  | none => .error .indexError
  | some M => if h : i < k then .ok (List.ofFn fun x => M x ⟨i, h⟩) else .error .indexError

/-- `np.reshape(a, (N, 1))` for a 1-D array `a`, ff_random_states.py:712-713: ValueError unless the length is `N`. -/
def reshapeCol (a : List ℂ) (N : ℕ) : Except PyErr (Fin N → ℂ) :=
  if h : a.length = N then .ok fun i => a.get (i.cast h.symm) else .error .valueError

/-- The loop that builds `U` in `build_unitary_path`, ff_random_states.py:710-716. -/
def pathUAny {n m : ℕ} (N : ℕ) (W : Option (Op n)) (V : Option (Op m)) : Except PyErr (Op N) :=
  (List.range N).foldlM (fun U i => do
    let a ← columnAt W i
    let vIn ← reshapeCol a N
    let b ← columnAt V i
    let vOut ← reshapeCol b N
    pure (U + Matrix.of fun x y => vOut x * star (vIn y))) 0

/-- `build_unitary_path(w, v)`, ff_random_states.py:655-742, for 1-D arrays or columns of any two lengths. `max(w.shape)` is the
length of `w`, or 1 for the empty vector. The lines behind the loop, which are reached for equal lengths only, are those of
`buildUnitaryPath`. -/
noncomputable def buildUnitaryPathAny {n m : ℕ} (qr : (d : ℕ) → Op d → Op d × Op d)
    (svd : (d : ℕ) → Op d → Op d × (Fin d → ℝ) × Op d) (logm : (d : ℕ) → Op d → Op d) (w : Fin n → ℂ) (v : Fin m → ℂ) :
    Except PyErr (ℝ → Fin n → ℂ) := do
  let W := getOrthogonalVectors (qr n) (((vnorm w : ℝ) : ℂ)⁻¹ • w)
  let V := getOrthogonalVectors (qr m) (((vnorm v : ℝ) : ℂ)⁻¹ • v)
  let _U ← pathUAny (max n 1) W V
  if h : n = m then buildUnitaryPath (qr n) (svd n) (logm n) w fun i => v (i.cast h) else .error .assertionError

/-- `x + y` for two columns: a column of length 1 is repeated. -/
def addCols {m n : ℕ} (x : Fin m → ℂ) (y : Fin n → ℂ) : Except PyErr (Σ k : ℕ, Fin k → ℂ) :=
  if h : n = m then .ok ⟨n, fun i => x (i.cast h) + y i⟩
  else if h : m = 1 then .ok ⟨n, fun i => x ⟨0, by omega⟩ + y i⟩
  else if h : n = 1 then .ok ⟨m, fun i => x i + y ⟨0, by omega⟩⟩
  else .error .valueError

/-- `build_linear_path(w, v)`, ff_random_states.py:745-800, for 1-D arrays or columns of any two lengths. The call itself never
raises; the sum is formed when the path is evaluated. -/
noncomputable def buildLinearPathAny {n m : ℕ} (w : Fin n → ℂ) (v : Fin m → ℂ) : ℝ → Except PyErr (Σ k : ℕ, Fin k → ℂ) :=
  let w : Fin n → ℂ := ((vnorm w : ℝ) : ℂ)⁻¹ • w
  let v : Fin m → ℂ := ((vnorm v : ℝ) : ℂ)⁻¹ • v
  fun s => do
    let p ← addCols ((s : ℂ) • v) ((1 - (s : ℂ)) • w)
    pure ⟨p.1, ((vnorm p.2 : ℝ) : ℂ)⁻¹ • p.2⟩

end FF
