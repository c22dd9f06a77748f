import Verif.Database
/-!
# Opening a database while other processes act

`Open` opens the database file twice: once to read the reference, and once for the context.
-/

namespace Rodkina
namespace DB

open Ref

/-- `Open`, libs/databases/infrastructure/files/application.go:128-166, when other processes act during the call: `fs1` are the
files when the database file is opened to read the reference (177-181 in
libs/databases/infrastructure/files/application.go), `fs2` when the reference is read (186-224), `fs3` when the file is opened for
the context (143-147). Simplification: the reference is read at one moment. -/
def openAt (cfg : Cfg) (fs1 fs2 fs3 : FS) (a : App) (n : Name) : Res (Nat × App) :=
  if a.any (fun e => e.2.name == n) then .err
  else
    match fs1.dir (cfg.path n) with
    | none => .err
    | some i => do
      let r ← retrieveReference cfg (fs2.ino i)
      match fs3.dir (cfg.path n) with
      | none => .err
      | some j => pure (a.length, a.set a.length ⟨n, ⟨j, 0, true⟩, r.1, r.2, []⟩)

end DB
end Rodkina
