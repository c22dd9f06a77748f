import Verif.Memory
/-!
# Specification of slices in memory
-/

namespace Rodkina.Mem

/-- A slice that Go could have made: inside its array, and not longer than its room. -/
def Ptr.Valid {α : Type} (h : Heap α) (p : Ptr) : Prop :=
  p.arr < h.length ∧ p.len ≤ p.cap ∧ p.off + p.cap ≤ (h.getD p.arr []).length

/-- The elements of `q` are not in the room behind the elements of `p`. -/
def Apart (p q : Ptr) : Prop := q.arr ≠ p.arr ∨ q.off + q.len ≤ p.off + p.len ∨ p.off + p.cap ≤ q.off

/-- Memory whose objects hold slices that Go could have made. -/
def State.Valid (s : State) : Prop := ∀ p ∈ s.objs, p.Valid s.heap

end Rodkina.Mem
