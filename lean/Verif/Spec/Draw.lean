import Verif.Model.Draw
import Verif.Spec.Graph

/-!
# What a user sees of a list of actions
-/

namespace FF.Spec

/-- The printed lines. -/
def printed (es : List Event) : List String := es.filterMap fun e =>
  match e with
  | .print s => some s
  | _ => none

/-- The number of figures shown. -/
def figures (es : List Event) : ℕ := (es.filter fun e => e matches .show).length

/-- The arrows drawn, each from its first to its second node. -/
def arrows (es : List Event) : List (ℕ × ℕ) := es.filterMap fun e =>
  match e with
  | .arrow u v => some (u, v)
  | _ => none

/-- The titles set, one after the other. -/
def titles (es : List Event) : List String := es.filterMap fun e =>
  match e with
  | .title s => some s
  | _ => none

/-- The title after the actions: the last one set. -/
def titleAfter (es : List Event) : Option String := (titles es).getLast?

/-- The figures shown, one after the other, each with the actions since the previous one; the last action of each is `show`. -/
def shown : List Event → List (List Event)
  | [] => []
  | .show :: es => [.show] :: shown es
  | e :: es =>
    match shown es with
    | [] => []
    | f :: fs => (e :: f) :: fs

/-- A pair of numbers as Python prints it. -/
def pairText (d : ℕ × ℕ) : String := "(" ++ toString d.1 ++ ", " ++ toString d.2 ++ ")"

/-- The rest of a list after a first entry as Python prints it. -/
def restText : List (ℕ × ℕ) → String
  | [] => "]"
  | d :: l => ", " ++ pairText d ++ restText l

/-- A face as Python prints it, for example `[(0, 1), (1, 2), (2, 0)]`. -/
def faceText : List (ℕ × ℕ) → String
  | [] => "[]"
  | d :: l => "[" ++ pairText d ++ restText l

example : faceText [(0, 1), (1, 2), (2, 0)] = "[(0, 1), (1, 2), (2, 0)]" := by decide

end FF.Spec
