import Verif.Handed
import Verif.BuffersSpec
/-!
# Specification of the use of lists of commits
-/

namespace Rodkina
namespace DB

open Ref

/-- The step writes to an element that the slice shows. -/
def HCall.Touches (p : Mem.Ptr) : HCall → Prop
  | .store arr i _ => p.arr = arr ∧ p.off ≤ i ∧ i < p.off + p.len
  | _ => False

/-- Every step of a program keeps its hands off the lists of the open databases. -/
def ReadsOnly (cfg : Cfg) (grow : Nat → Nat) : Handed → List HCall → Prop
  | _, [] => True
  | s, x :: L => (∀ id p, s.lists id = some p → ¬ x.Touches p) ∧ ReadsOnly cfg grow (x.run cfg grow s) L

/-- The calls of a program, without what it does to memory. -/
def HCall.meant : HCall → Option Call
  | .call x => some x
  | _ => none

/-- Memory in order: the list of each context is a slice that Go could have made, and shows the commits that the context was made
with; the lists of two contexts are not in the same array. -/
structure Handed.InOrder (s : Handed) : Prop where
  without : ∀ e ∈ s.app, e.2.reference = none → s.lists e.1 = none
  list : ∀ e ∈ s.app, ∀ r, e.2.reference = some r → ∃ p, s.lists e.1 = some p ∧ Mem.read s.heap p = r.commits.list
  valid : ∀ id p, s.lists id = some p → p.Valid s.heap
  apart : ∀ id p id' p', s.lists id = some p → s.lists id' = some p' → id ≠ id' → p.arr ≠ p'.arr

end DB
end Rodkina
