import Verif.Model.Memory

/-! # Specification: what a call does to the memory -/

namespace FF.Spec

/-- Everything that was in memory in `h` is still there, unchanged, in `h'`. -/
def Untouched (h h' : Heap) : Prop := h.next ≤ h'.next ∧ ∀ b < h.next, ∀ p, h'.mem b p = h.mem b p

/-- The array refers to memory in use. -/
def InUse {ι : Type} (h : Heap) (a : Nd ι) : Prop := a.buf < h.next

/-- An array argument refers to memory in use. -/
def InUseAny (h : Heap) : NdAny → Prop
  | .vec _ a => InUse h a
  | .mat _ _ a => InUse h a

/-- After a call that led from `h` to `h'`, the array `a` has memory of its own: its entries stay the same whatever is stored
later in memory that was in use before the call or is taken into use after it. -/
def Own {ι : Type} (h h' : Heap) (a : Nd ι) : Prop :=
  ∀ h'' : Heap, (∀ b, h.next ≤ b → b < h'.next → ∀ p, h''.mem b p = h'.mem b p) → ∀ i, a.val h'' i = a.val h' i

/-- The array can be assigned to, and different entries are stored at different places. -/
def Assignable {ι : Type} (a : Nd ι) : Prop := a.writable = true ∧ Function.Injective a.pos

end FF.Spec
