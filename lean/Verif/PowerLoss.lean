import Verif.ConcurrentSpec
/-!
# Specification of a power loss: C139

The code never asks the operating system to flush a file (`Sync` is called nowhere in
libs/databases/infrastructure/files/application.go).  So what was written since the system last flushed everything by itself may be
missing when the machine goes down.
-/

namespace Rodkina
namespace DB

/-- The files at every moment of a schedule, from the first to the last (operations of
libs/databases/infrastructure/files/application.go:503-697). -/
def System.moments (s : System) : List Nat → List FS
  | [] => [s.shared.fs]
  | p :: ps => s.shared.fs :: (s.step p).moments ps

/-- What a power loss can leave of the files, whose past since the last flush is given.  The names are as at some moment since then;
a file that was not changed since then is as it was; nothing is said about the others. -/
def PowerLoss (past : List FS) (after : FS) : Prop :=
  ∃ f ∈ past, after.dir = f.dir ∧ ∀ i b, (∀ g ∈ past, g.ino i = b) → after.ino i = b

/-- What a power loss can leave if names reach the disk only after all that was written before: the names are as at some
moment since the last flush; a file that was not changed after that moment is as it was then; nothing is said about the others. -/
def OrderedLoss (past : List FS) (after : FS) : Prop :=
  ∃ early f late, past = early ++ f :: late ∧ after.dir = f.dir ∧ ∀ i b, (∀ g ∈ f :: late, g.ino i = b) → after.ino i = b

end DB
end Rodkina
