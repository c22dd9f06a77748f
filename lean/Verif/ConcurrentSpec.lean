import Verif.Concurrent
/-!
# Specification for concurrent commits: commits one after the other

The system in which a commit is one indivisible step (`updateDatabaseOnFile` of `Database`, without faults), and what is asked
of a schedule.
-/

namespace Rodkina
namespace DB

open Ref

/-- One commit as a whole: either all of it, or it is refused because the database is locked and nothing happens. -/
inductive AtomicStep (cfg : Cfg) : FS × (Nat → Client) → FS × (Nat → Client) → Prop
  | commit (fs : FS) (cl : Nat → Client) (p : Nat) (c : Ctx) (r : Reference) (k : Out (Conn × Nat) → Client)
      (o : Out (Conn × Nat)) (w : World) :
      cl p = .commit c r k → (updateDatabaseOnFile cfg calm c r).run ⟨fs, c.conn⟩ = (o, w) → o ≠ .hang →
      AtomicStep cfg (fs, cl) (w.fs, upd cl p (k o))
  | refused (fs : FS) (cl : Nat → Client) (p : Nat) (c : Ctx) (r : Reference) (k : Out (Conn × Nat) → Client) :
      cl p = .commit c r k → AtomicStep cfg (fs, cl) (fs, upd cl p (k .err))

/-- Any number of commits one after the other. -/
inductive AtomicSteps (cfg : Cfg) : FS × (Nat → Client) → FS × (Nat → Client) → Prop
  | refl (a : FS × (Nat → Client)) : AtomicSteps cfg a a
  | tail (a b c : FS × (Nat → Client)) : AtomicSteps cfg a b → AtomicStep cfg b c → AtomicSteps cfg a c

/-- Process `p` is between two commits, or has only opened the database file for the lock: it still has to do all that its
client `cl` does. -/
def NotStarted (cfg : Cfg) (cl : Client) (t : Prog Unit) : Prop :=
  t = cl.prog cfg ∨ ∃ (i : Nat) (k : Nat → Prog Unit) (p : Name), cl.prog cfg = .op (.lockOpen p) k ∧ t = k i

/-- All contexts are for the database `n`. -/
def Client.On (n : Name) : Client → Prop
  | .done => True
  | .commit c _ k => c.name = n ∧ ∀ o, (k o).On n

/-- Every locked file is the file the path names. -/
def LocksCurrent (src : Name) (s : System) : Prop :=
  ∀ i q, s.shared.locks i = some q → s.shared.fs.dir src = some i

/-- If the next operation of `p` opens the database file for the lock, or locks it, then every locked file is still the
database file; and the file it is about to lock still is. -/
def Undisturbing (src : Name) (s : System) (p : Nat) : Prop :=
  match s.threads p with
  | .op (.lockOpen _) _ => LocksCurrent src s
  | .op (.flock i) _ => LocksCurrent src s ∧ s.shared.fs.dir src = some i
  | _ => True

/-- A schedule in which no lock is attempted between the moment another process has removed the database file and the moment
it has unlocked, and none on a file that has been replaced since it was opened. -/
def Undisturbed (src : Name) : System → List Nat → Prop
  | _, [] => True
  | s, p :: ps => Undisturbing src s p ∧ Undisturbed src (s.step p) ps

end DB
end Rodkina
