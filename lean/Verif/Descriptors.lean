import Verif.DatabaseHistory
/-!
# Model of the open files of libs/databases/infrastructure/files

The calls of the file database again, function by function, now with the descriptors each one opens and closes: `pConn` of a context, the
`pConn` of `retrieveReference`, the lock, the destination and the backup. What they do to the files and to the contexts is taken from
`Verif/Database.lean`; here each operating-system call that opens a file also adds a descriptor to the table of the process, and each one
that closes a file removes it.
-/

namespace Rodkina
namespace Fd

open DB Ref

/-- The descriptors of the process that are open, the number of the next one, and how many were open at most at once (operating system;
trusted base, not code of /repo). Simplification: a number is not used again, so that it names one opening of a file. A descriptor
nothing refers to any more stays open: that the finalizer of `*os.File` may close it at some later garbage collection is not modelled. -/
structure Tab where
  live : List Nat
  next : Nat
  peak : Nat

/-- A descriptor is opened (`os.Open`, `os.Create`, `syscall.Open`). -/
def Tab.opened (t : Tab) : Tab := ⟨t.next :: t.live, t.next + 1, max t.peak (t.live.length + 1)⟩

/-- A descriptor is closed (`File.Close`, `syscall.Close`; a failing close releases it too). -/
def Tab.closed (t : Tab) (d : Nat) : Tab := { t with live := t.live.filter (fun e => !(e == d)) }

/-- Computations on the files, the handle of the context and the descriptors, ending as those of `DB.M` do. -/
structure DM (α : Type) where
  run : World → Tab → Out α × World × Tab

/-- Sequencing, as `DB.M.bind`. -/
def DM.bind {α β : Type} (x : DM α) (f : α → DM β) : DM β := ⟨fun w t =>
  match x.run w t with
  | (.ok a, w', t') => (f a).run w' t'
  | (.err, w', t') => (.err, w', t')
  | (.panic, w', t') => (.panic, w', t')
  | (.crash, w', t') => (.crash, w', t')
  | (.hang, w', t') => (.hang, w', t')⟩

instance : Monad DM where
  pure a := ⟨fun w t => (.ok a, w, t)⟩
  bind := DM.bind

/-- A step that opens and closes nothing. -/
def lift {α : Type} (x : M α) : DM α := ⟨fun w t => ((x.run w).1, (x.run w).2, t)⟩

/-- A step that opens a file when it works: what it gives, and the descriptor. -/
def opening {α : Type} (x : M α) : DM (α × Nat) := ⟨fun w t =>
  match x.run w with
  | (.ok a, w') => (.ok (a, t.next), w', t.opened)
  | (.err, w') => (.err, w', t)
  | (.panic, w') => (.panic, w', t)
  | (.crash, w') => (.crash, w', t)
  | (.hang, w') => (.hang, w', t)⟩

/-- Closing a descriptor. -/
def closing (d : Nat) : DM Unit := ⟨fun w t => (.ok (), w, t.closed d)⟩

/-- `defer d.Close()` before the rest of a function: the descriptor is closed when the function returns, with a value, an error or a
panic. -/
def deferClose {α : Type} (d : Nat) (x : DM α) : DM α := ⟨fun w t =>
  match x.run w t with
  | (.ok a, w', t') => (.ok a, w', t'.closed d)
  | (.err, w', t') => (.err, w', t'.closed d)
  | (.panic, w', t') => (.panic, w', t'.closed d)
  | (.crash, w', t') => (.crash, w', t')
  | (.hang, w', t') => (.hang, w', t')⟩

/-- `writeDataAndReferenceOnDestinationFile`, libs/databases/infrastructure/files/application.go:578-656: the destination is opened at 584
and closed by the `defer` at 590. -/
def writeDestination (cfg : Cfg) (o : Pt → Fault) (c : Ctx) (r : Reference) : DM Nat := do
  let i ← lift (inoOf (cfg.dst c.name))
  let d ← opening (createOp (o .createDst) (cfg.dst c.name))
  deferClose d.2 (lift (do
    writeOp (o .writeRef) i 0 (refData r)
    let wo ← copyOld cfg o c i (refData r).length
    writeContents o i 0 wo c.contentList
    pure (refData r).length))

/-- Making and filling the backup file, libs/databases/infrastructure/files/application.go:522-541: opened at 527, closed at 538, with no
`defer`, so not when the copy at 532 fails. -/
def backup (cfg : Cfg) (o : Pt → Fault) (n : Name) : DM Unit := do
  let i ← lift (inoOf (cfg.bck n))
  let d ← opening (createOp (o .createBck) (cfg.bck n))
  lift (copyBackup (o .copyBck) i)
  closing d.2
  lift (atomic (o .closeBck) id)

/-- `context.pConn.Close()`, libs/databases/infrastructure/files/application.go:544: the descriptor goes with it unless it was closed
before. -/
def closeConn (f : Fault) (fd : Nat) : DM Unit := ⟨fun w t =>
  (((DB.closeConn f).run w).1, ((DB.closeConn f).run w).2, if w.conn.isOpen then t.closed fd else t)⟩

/-- Replacing the source by the destination, libs/databases/infrastructure/files/application.go:543-575: `fd` is the descriptor of the
handle that is closed; gives the new handle and its descriptor. -/
def swap (cfg : Cfg) (o : Pt → Fault) (n : Name) (fd : Nat) : DM (Conn × Nat) := do
  closeConn (o .closeConn) fd
  lift (removeOp (o .removeSrc) (cfg.path n))
  lift (renameOp (o .rename) (cfg.dst n) (cfg.path n))
  lift (removeOp (o .removeBck) (cfg.bck n))
  opening (openOp (o .reopen) (cfg.path n))

/-- `updateDatabaseOnFile`, libs/databases/infrastructure/files/application.go:503-576. The descriptor of the lock is opened by `TryLock`
and closed by it when it fails (vendor/github.com/juju/fslock/fslock_nix.go:36-55), otherwise by the deferred `Unlock` at 511
(vendor/github.com/juju/fslock/fslock_nix.go:58-61). -/
def updateDatabaseOnFile (cfg : Cfg) (o : Pt → Fault) (c : Ctx) (fd : Nat) (r : Reference) : DM ((Conn × Nat) × Nat) := do
  let l ← opening (atomic (o .tryLock) (fun w => { w with fs := w.fs.touch (cfg.path c.name) }))
  deferClose l.2 (do
    let off ← writeDestination cfg o c r
    backup cfg o c.name
    let conn ← swap cfg o c.name fd
    pure ((conn.1, off), conn.2))

/-- A process: its files and contexts, its descriptors, and for every context the descriptor of its `pConn`
(libs/databases/infrastructure/files/context.go:15). -/
structure Proc where
  fs : FS
  app : App
  tab : Tab
  fd : Nat → Nat

/-- The outcome of `Commit` and the process after it. -/
structure Done where
  out : Out Unit
  proc : Proc

/-- The end of `Commit`, libs/databases/infrastructure/files/application.go:399-409, as `DB.finish`: the context keeps the new descriptor. -/
def finish (s : Proc) (id : Nat) (c : Ctx) (r : Reference) : Out ((Conn × Nat) × Nat) × World × Tab → Done
  | (.ok ((conn, off), d), w, t) =>
    ⟨.ok (), ⟨w.fs, s.app.set id { c with conn := conn, reference := some r, dataOffset := off }, t, upd s.fd id d⟩⟩
  | (.err, w, t) => ⟨.err, ⟨w.fs, s.app.set id { c with conn := w.conn }, t, s.fd⟩⟩
  | (.panic, w, t) => ⟨.panic, ⟨w.fs, s.app.set id { c with conn := w.conn }, t, s.fd⟩⟩
  | (.crash, w, t) => ⟨.crash, ⟨w.fs, s.app.set id { c with conn := w.conn }, t, s.fd⟩⟩
  | (.hang, w, t) => ⟨.hang, ⟨w.fs, s.app.set id { c with conn := w.conn }, t, s.fd⟩⟩

/-- `Commit`, libs/databases/infrastructure/files/application.go:391-414. -/
def commit (cfg : Cfg) (o : Pt → Fault) (now : Int) (s : Proc) (id : Nat) : Done :=
  match s.app.get id with
  | none => ⟨.err, s⟩
  | some c =>
    match updateReference cfg c now with
    | .err => ⟨.err, s⟩
    | .panic => ⟨.panic, s⟩
    | .ok r => finish s id c r ((updateDatabaseOnFile cfg o c (s.fd id) r).run ⟨s.fs, c.conn⟩ s.tab)

/-- The part of `Open` before the second `os.Open`, libs/databases/infrastructure/files/application.go:131-141: `retrieveReference` opens
the file (178) and closes it when it returns (183). -/
def lookup (cfg : Cfg) (s : Proc) (n : Name) : Res (Option Reference × Nat) × Tab :=
  if s.app.any (fun e => e.2.name == n) then (.err, s.tab)
  else
    match s.fs.file (cfg.path n) with
    | none => (.err, s.tab)
    | some f => (retrieveReference cfg f, s.tab.opened.closed s.tab.next)

/-- `Open`, libs/databases/infrastructure/files/application.go:130-166; `works` says whether the second `os.Open` (145) works. -/
def open' (cfg : Cfg) (works : Bool) (s : Proc) (n : Name) : Res Nat × Proc :=
  match lookup cfg s n with
  | (.err, t) => (.err, { s with tab := t })
  | (.panic, t) => (.panic, { s with tab := t })
  | (.ok r, t) =>
    if works then
      (.ok s.app.length,
        ⟨s.fs, s.app.set s.app.length ⟨n, ⟨(s.fs.dir (cfg.path n)).getD 0, 0, true⟩, r.1, r.2, []⟩, t.opened, upd s.fd s.app.length t.next⟩)
    else (.err, { s with tab := t })

/-- `Close`, libs/databases/infrastructure/files/application.go:700-713. -/
def close (s : Proc) (id : Nat) : Res Unit × Proc :=
  match s.app.get id with
  | none => (.err, s)
  | some c => if c.conn.isOpen then (.ok (), { s with app := s.app.delete id, tab := s.tab.closed (s.fd id) }) else (.err, s)

/-- `New`, libs/databases/infrastructure/files/application.go:90-111: the new file is closed at once (110). -/
def new (cfg : Cfg) (s : Proc) (n : Name) : Res Unit × Proc :=
  match new' cfg s.fs n with
  | .ok fs => (.ok (), { s with fs := fs, tab := s.tab.opened.closed s.tab.next })
  | .err => (.err, s)
  | .panic => (.panic, s)

/-- The calls of an application (libs/databases/applications/sdk.go:16-47) that change something; the reading calls open nothing. -/
inductive Call where
  | new (n : Name)
  | delete (n : Name)
  | open' (n : Name) (works : Bool)
  | write (id : Nat) (h data : Bytes) (kind : Nat)
  | cancel (id : Nat)
  | commit (id : Nat) (o : Pt → Fault) (now : Int)
  | close (id : Nat)

/-- What a call leaves, whatever it returns. -/
def call (cfg : Cfg) (s : Proc) : Call → Proc
  | .new n => (new cfg s n).2
  | .delete n =>
    match delete' cfg s.fs n with
    | .ok fs => { s with fs := fs }
    | _ => s
  | .open' n works => (open' cfg works s n).2
  | .write id h data kind =>
    match write s.app id h data kind with
    | .ok a => { s with app := a }
    | _ => s
  | .cancel id =>
    match cancel s.app id with
    | .ok a => { s with app := a }
    | _ => s
  | .commit id o now => (commit cfg o now s id).proc
  | .close id => (close s id).2

/-- The calls of a history, one after the other. -/
def calls (cfg : Cfg) (s : Proc) : List Call → Proc
  | [] => s
  | k :: ks => calls cfg (call cfg s k) ks

end Fd
end Rodkina
