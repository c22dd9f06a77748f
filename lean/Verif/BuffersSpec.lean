import Verif.Buffers
import Verif.MemorySpec
import Verif.DatabaseHistory
/-!
# Specification of the use of buffers
-/

namespace Rodkina
namespace DB

open Ref

/-- The step keeps its hands off the buffers of pending contents, and passes slices that Go could have made. -/
def BCall.Careful (s : Buffered) : BCall → Prop
  | .write _ _ p _ => p.Valid s.heap
  | .store arr i _ => ∀ id, ∀ x ∈ s.held id, ¬ (x.data.arr = arr ∧ x.data.off ≤ i ∧ i < x.data.off + x.data.len)
  | _ => True

/-- Every step of a program does. -/
def CarefulAll (cfg : Cfg) : Buffered → List BCall → Prop
  | _, [] => True
  | s, x :: L => x.Careful s ∧ CarefulAll cfg (x.run cfg s) L

/-- The call as it is meant: `Write` passes the bytes that its buffer holds at that time. -/
def BCall.meant (s : Buffered) : BCall → Option Call
  | .new n => some (.new n)
  | .delete n => some (.delete n)
  | .open' n => some (.open' n)
  | .close id => some (.close id)
  | .write id hash p kind => some (.write id hash (Mem.read s.heap p) kind)
  | .cancel id => some (.cancel id)
  | .commit id o now => some (.commit id o now)
  | .restart => some .restart
  | .readByHash _ _ => none
  | .alloc _ => none
  | .store _ _ _ => none

/-- The calls of a program as they are meant. -/
def meantAll (cfg : Cfg) : Buffered → List BCall → List Call
  | _, [] => []
  | s, x :: L => (x.meant s).toList ++ meantAll cfg (x.run cfg s) L

/-- Calls on one application that takes data by value. -/
def runCalls (cfg : Cfg) (s : FS × App) (L : List Call) : FS × App := L.foldl (fun s x => x.run cfg s.1 s.2) s

/-- The slices of the pending contents are slices that Go could have made, and not empty. -/
def Buffered.Valid (s : Buffered) : Prop := ∀ id, ∀ x ∈ s.held id, x.data.Valid s.heap ∧ 0 < x.data.len

/-- The step is one that the histories of `Step` allow; what happens to memory is not restricted. -/
def BCall.Allowed (cfg : Cfg) (u : Usage) (s : Buffered) : BCall → Prop
  | .new n => u.names n
  | .delete n => u.names n ∧ (u.tidy → ∀ e ∈ s.app, e.2.name ≠ n)
  | .open' n => u.names n
  | .write _ hash p kind => hash.length = 64 ∧ kind < 2 ^ 64 ∧ p.Valid s.heap
  | .commit id o now => ∀ c, s.view.get id = some c → CommitFits cfg u o now s.fs s.view id c
  | _ => True

/-- Every step of a program is. -/
def AllowedAll (cfg : Cfg) (u : Usage) : Buffered → List BCall → Prop
  | _, [] => True
  | s, x :: L => x.Allowed cfg u s ∧ AllowedAll cfg u (x.run cfg s) L

/-- Before the first call: a new process, with anything in memory. -/
structure Fresh (cfg : Cfg) (u : Usage) (s : Buffered) : Prop where
  init : Started cfg u ⟨s.fs, s.app⟩
  held : s.held = fun _ => []

/-- The states a program can get into, also by writing to buffers that it gave to `Write`. -/
def BufferedReachable (cfg : Cfg) (u : Usage) (s : Buffered) : Prop :=
  ∃ s0 L, Fresh cfg u s0 ∧ AllowedAll cfg u s0 L ∧ s = s0.run cfg L

end DB
end Rodkina
