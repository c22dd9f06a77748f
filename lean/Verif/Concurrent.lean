import Verif.Database
/-!
# Several applications committing to one database at the same time

`updateDatabaseOnFile` as a program of file operations, so that the operations of several processes can be interleaved in
any order.  The lock is `flock` on the inode that the database path names when it is opened for the lock.
-/

namespace Rodkina
namespace DB

open Ref

/-- The operations on shared state a commit performs, libs/databases/infrastructure/files/application.go:503-697 and
vendor/github.com/juju/fslock/fslock_nix.go:35-61.  Simplifications: no faults other than those the other processes cause;
no process dies; `Seek` and closing a file handle concern the process alone and are left out; `io.Copy` reads the rest of the file in one
operation. -/
inductive Op where
  | lockOpen (p : Name)
  | flock (i : Nat)
  | unlock (i : Nat)
  | create (p : Name)
  | write (i off : Nat) (bs : Bytes)
  | size (i : Nat)
  | read (c : Conn) (len off : Nat)
  | readRest (i pos : Nat)
  | remove (p : Name)
  | rename (p q : Name)
  | openFile (p : Name)

/-- What an operation returns to the process: the inode of the handle (vendor/github.com/juju/fslock/fslock_nix.go:50, libs/databases/infrastructure/files/application.go:527, 584), whether the
lock was obtained (vendor/github.com/juju/fslock/fslock_nix.go:39), the size (libs/databases/infrastructure/files/application.go:613), the bytes read (libs/databases/infrastructure/files/application.go:620, 532), whether the path
existed (libs/databases/infrastructure/files/application.go:550, 558, 564), the inode opened if the path exists (libs/databases/infrastructure/files/application.go:570). -/
abbrev Op.Resp : Op → Type
  | .lockOpen _ => Nat
  | .flock _ => Bool
  | .unlock _ => Unit
  | .create _ => Nat
  | .write _ _ _ => Unit
  | .size _ => Nat
  | .read _ _ _ => Res Bytes
  | .readRest _ _ => Bytes
  | .remove _ => Bool
  | .rename _ _ => Bool
  | .openFile _ => Option Nat

/-- The state all processes share: the files, and for each inode who holds the lock on it. -/
structure Shared where
  fs : FS
  locks : Nat → Option Nat

/-- One operation of process `pid`.  File operations as in `Database`; `flock` with `LOCK_EX|LOCK_NB` fails when the inode is
locked (vendor/github.com/juju/fslock/fslock_nix.go:39); closing the descriptor releases the lock (vendor/github.com/juju/fslock/fslock_nix.go:59-61). -/
def exec (pid : Nat) : (o : Op) → Shared → o.Resp × Shared
  | .lockOpen p, s => (((s.fs.touch p).dir p).getD 0, { s with fs := s.fs.touch p })
  | .flock i, s =>
    match s.locks i with
    | none => (true, { s with locks := upd s.locks i (some pid) })
    | some _ => (false, s)
  | .unlock i, s => ((), { s with locks := upd s.locks i none })
  | .create p, s => (s.fs.createIno p, { s with fs := s.fs.create p })
  | .write i off bs, s => ((), { s with fs := s.fs.write i off bs })
  | .size i, s => ((s.fs.ino i).length, s)
  | .read c len off, s => (connRead s.fs c len off, s)
  | .readRest i pos, s => ((s.fs.ino i).drop pos, s)
  | .remove p, s => if (s.fs.dir p).isSome then (true, { s with fs := s.fs.remove p }) else (false, s)
  | .rename p q, s => if (s.fs.dir p).isSome then (true, { s with fs := s.fs.rename p q }) else (false, s)
  | .openFile p, s => (s.fs.dir p, s)

/-- A sequential program: finished with a value, or an operation and what follows for each response. -/
inductive Prog (α : Type) where
  | ret (a : α)
  | op (o : Op) (k : o.Resp → Prog α)

/-- Sequencing. -/
def Prog.bind {α β : Type} : Prog α → (α → Prog β) → Prog β
  | .ret a, f => f a
  | .op o k, f => .op o (fun r => (k r).bind f)

/-- Sequencing of steps that can end the commit: `if err != nil { return err }` throughout libs/databases/infrastructure/files/application.go:503-656. -/
def Prog.next {α β : Type} (x : Prog (Out α)) (f : α → Prog (Out β)) : Prog (Out β) :=
  x.bind (fun o =>
    match o with
    | .ok a => f a
    | .err => .ret .err
    | .panic => .ret .panic
    | .crash => .ret .crash
    | .hang => .ret .hang)

/-- The copy loop, libs/databases/infrastructure/files/application.go:617-639; running out of fuel stands for an endless loop, see `copyLoop`. -/
def copyProg (chunk : Nat) (conn : Conn) (d : Nat) : Nat → Nat → Nat → Prog (Out Nat)
  | 0, _, _ => .ret .hang
  | fuel + 1, ro, wo => .op (.read conn chunk ro) (fun (r : Res Bytes) =>
      match r with
      | .ok b => .op (.write d wo b) (fun _ => copyProg chunk conn d fuel (ro + chunk) (wo + chunk))
      | .err => .ret (.ok wo)
      | .panic => .ret .panic)

/-- The copy of the old data, libs/databases/infrastructure/files/application.go:612-640. -/
def copyOldProg (cfg : Cfg) (c : Ctx) (d wo : Nat) : Prog (Out Nat) :=
  match c.reference with
  | none => .ret (.ok wo)
  | some _ =>
    if c.conn.isOpen then
      .op (.size c.conn.ino) (fun (size : Nat) =>
        copyProg (makeChunkSize cfg (sub64 size c.dataOffset)) c.conn d
          (copyFuel (makeChunkSize cfg (sub64 size c.dataOffset)) size) c.dataOffset wo)
    else .ret .panic

/-- The loop writing the pending contents, libs/databases/infrastructure/files/application.go:643-652. -/
def contentsProg (d : Nat) : Nat → List Content → Prog (Out Unit)
  | _, [] => .ret (.ok ())
  | wo, x :: xs => .op (.write d wo x.data) (fun _ => contentsProg d (wo + x.data.length) xs)

/-- `writeDataAndReferenceOnDestinationFile`, libs/databases/infrastructure/files/application.go:578-656. -/
def destinationProg (cfg : Cfg) (c : Ctx) (r : Reference) : Prog (Out Nat) :=
  .op (.create (cfg.dst c.name)) (fun (d : Nat) =>
    .op (.write d 0 (refData r)) (fun _ =>
      (copyOldProg cfg c d (refData r).length).next (fun wo =>
        (contentsProg d wo c.contentList).next (fun _ => .ret (.ok (refData r).length)))))

/-- Making and filling the backup file, libs/databases/infrastructure/files/application.go:522-541. -/
def backupProg (cfg : Cfg) (c : Ctx) : Prog (Out Unit) :=
  .op (.create (cfg.bck c.name)) (fun (b : Nat) =>
    if c.conn.isOpen then
      .op (.readRest c.conn.ino c.conn.pos) (fun (bs : Bytes) =>
        .op (.write b 0 bs) (fun _ => .ret (.ok ())))
    else .ret .err)

/-- Replacing the source by the destination, libs/databases/infrastructure/files/application.go:543-575. -/
def swapProg (cfg : Cfg) (c : Ctx) : Prog (Out Conn) :=
  if c.conn.isOpen then
    .op (.remove (cfg.path c.name)) (fun (ok : Bool) =>
      if ok then .op (.rename (cfg.dst c.name) (cfg.path c.name)) (fun (ok : Bool) =>
        if ok then .op (.remove (cfg.bck c.name)) (fun (ok : Bool) =>
          if ok then .op (.openFile (cfg.path c.name)) (fun (i : Option Nat) =>
            match i with
            | some i => .ret (.ok ⟨i, 0, true⟩)
            | none => .ret .err)
          else .ret .err)
        else .ret .err)
      else .ret .err)
  else .ret .err

/-- What is done under the lock, libs/databases/infrastructure/files/application.go:513-575. -/
def bodyProg (cfg : Cfg) (c : Ctx) (r : Reference) : Prog (Out (Conn × Nat)) :=
  (destinationProg cfg c r).next (fun off =>
    (backupProg cfg c).next (fun _ =>
      (swapProg cfg c).next (fun conn => .ret (.ok (conn, off)))))

/-- `defer context.pLock.Unlock()`, libs/databases/infrastructure/files/application.go:511: also after an error or a panic; an endless loop never gets there. -/
def unlockProg (i : Nat) (o : Out (Conn × Nat)) : Prog (Out (Conn × Nat)) :=
  match o with
  | .hang => .ret .hang
  | o => .op (.unlock i) (fun _ => .ret o)

/-- `updateDatabaseOnFile`, libs/databases/infrastructure/files/application.go:503-576. -/
def commitProg (cfg : Cfg) (c : Ctx) (r : Reference) : Prog (Out (Conn × Nat)) :=
  .op (.lockOpen (cfg.path c.name)) (fun (i : Nat) =>
    .op (.flock i) (fun (got : Bool) =>
      if got then (bodyProg cfg c r).bind (unlockProg i) else .ret .err))

/-- What a process does over time as far as the files are concerned: it stops, or updates the database for a context and a
reference (as `Commit`, libs/databases/infrastructure/files/application.go:391-414, does), and goes on depending on the outcome. -/
inductive Client where
  | done
  | commit (c : Ctx) (r : Reference) (k : Out (Conn × Nat) → Client)

/-- The operations of a process; after an endless loop there is nothing. -/
def Client.prog (cfg : Cfg) : Client → Prog Unit
  | .done => .ret ()
  | .commit c r k => (commitProg cfg c r).bind (fun o =>
      match o with
      | .hang => .ret ()
      | o => (k o).prog cfg)

/-- Shared state and what each process still has to do. -/
structure System where
  shared : Shared
  threads : Nat → Prog Unit

/-- All processes before their first operation. -/
def System.start (cfg : Cfg) (fs : FS) (cs : Nat → Client) : System :=
  ⟨⟨fs, fun _ => none⟩, fun p => (cs p).prog cfg⟩

/-- Process `p` performs its next operation. -/
def System.step (s : System) (p : Nat) : System :=
  match s.threads p with
  | .ret _ => s
  | .op o k => ⟨(exec p o s.shared).2, upd s.threads p (k (exec p o s.shared).1)⟩

/-- A schedule: which process performs the next operation. -/
def System.run (s : System) (schedule : List Nat) : System := schedule.foldl System.step s

end DB
end Rodkina
