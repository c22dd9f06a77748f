import Verif.Concurrent
/-!
# Several processes using databases at the same time

A process is a program written against the `Application` interface (libs/databases/applications/sdk.go:15-47). Every call is a
sequence of file operations; the operations of several processes are interleaved in any order.
-/

namespace Rodkina
namespace DB

open Ref

/-- A program that calls the functions of `Application` (libs/databases/applications/sdk.go:15-47) and goes on depending on what
they return; errors are `false` or `none`. `ContentKeysByKind`, `CommitByHash`, `ReadByHash`, `ReadAll` and `ReadAllByHashes` are
made of the calls below (libs/databases/infrastructure/files/application.go:235-272, 313-359). -/
inductive Session (α : Type) where
  | done (a : α)
  | exists' (n : Name) (k : Bool → Session α)
  | new (n : Name) (k : Bool → Session α)
  | delete (n : Name) (k : Bool → Session α)
  | open' (n : Name) (k : Option Nat → Session α)
  | keys (id : Nat) (k : Res ContentKeys → Session α)
  | commits (id : Nat) (k : Res Commits → Session α)
  | read (id : Nat) (p : Pointer) (k : Option Bytes → Session α)
  | write (id : Nat) (h data : Bytes) (kind : Nat) (k : Bool → Session α)
  | cancel (id : Nat) (k : Bool → Session α)
  | commit (id : Nat) (now : Int) (k : Bool → Session α)
  | close (id : Nat) (k : Bool → Session α)

/-- The reading loop of `retrieveReference`, libs/databases/infrastructure/files/application.go:209-223, one operation for each
`ReadAt`. -/
def readLoopProg (i chunk last : Nat) : Nat → Nat → Prog (Res Bytes)
  | 0, _ => .ret (.ok [])
  | n + 1, off => .op (.read ⟨i, 0, true⟩ (if n = 0 then last else chunk) off) (fun (r : Res Bytes) =>
      match r with
      | .ok b => (readLoopProg i chunk last n (off + b.length)).bind (fun rest =>
          match rest with
          | .ok rest => .ret (.ok (b ++ rest))
          | .err => .ret .err
          | .panic => .ret .panic)
      | .err => .ret .err
      | .panic => .ret .panic)

/-- `retrieveReference` after the file was opened, libs/databases/infrastructure/files/application.go:183-232; see
`retrieveReference`. -/
def retrieveProg (cfg : Cfg) (i : Nat) : Prog (Res (Option Reference × Nat)) :=
  .op (.read ⟨i, 0, true⟩ 8 0) (fun (r : Res Bytes) =>
    match r with
    | .ok l =>
      if makeChunkSize cfg (leNat l) = 0 then .ret .panic
      else if 2 ^ 63 ≤ leNat l then
        if 2 ^ 64 - leNat l < makeChunkSize cfg (leNat l) then .ret .panic else .ret .err
      else
        (readLoopProg i (makeChunkSize cfg (leNat l))
          (leNat l - makeChunkSize cfg (leNat l) * (leNat l / makeChunkSize cfg (leNat l) + 1 - 1))
          (leNat l / makeChunkSize cfg (leNat l) + 1) 8).bind (fun b =>
            match b with
            | .ok b => .ret (do
                let r ← toReference cfg.S cfg.miningValue ⟨b, cfg.spare b⟩
                pure (some r, 8 + b.length))
            | .err => .ret .err
            | .panic => .ret .panic)
    | _ => .ret (.ok (none, 0)))

/-- `Commit` after the reference was updated, libs/databases/infrastructure/files/application.go:398-410: the context afterwards, if
the process goes on, and whether it succeeded. When it fails after the lock was obtained and the handle was open, the handle has
been closed before (544-547); its position does not matter then. -/
def lockedProg (cfg : Cfg) (c : Ctx) (r : Reference) : Prog (Option (Ctx × Bool)) :=
  .op (.lockOpen (cfg.path c.name)) (fun (i : Nat) =>
    .op (.flock i) (fun (got : Bool) =>
      if got then
        ((bodyProg cfg c r).bind (unlockProg i)).bind (fun o =>
          match o with
          | .ok (conn, off) => .ret (some ({ c with conn := conn, reference := some r, dataOffset := off }, true))
          | .err => .ret (some ({ c with conn := { c.conn with isOpen := false } }, false))
          | _ => .ret none)
      else .ret (some (c, false))))

/-- The file operations of a process with these contexts; `none` when it has panicked or is in an endless loop. `os.Stat`
(libs/databases/infrastructure/files/application.go:81, 99, 116) is the operation that looks a path up. -/
def Session.prog {α : Type} (cfg : Cfg) : Session α → App → Prog (Option α)
  | .done a, _ => .ret (some a)
  | .exists' n k, a => .op (.openFile (cfg.path n)) (fun (i : Option Nat) => (k i.isSome).prog cfg a)
  | .new n k, a => .op (.openFile (cfg.path n)) (fun (i : Option Nat) =>
      if i.isSome then (k false).prog cfg a
      else .op (.create (cfg.path n)) (fun _ => (k true).prog cfg a))
  | .delete n k, a => .op (.openFile (cfg.path n)) (fun (i : Option Nat) =>
      if i.isSome then .op (.remove (cfg.path n)) (fun (ok : Bool) => (k ok).prog cfg a)
      else (k false).prog cfg a)
  | .open' n k, a =>
    if a.any (fun e => e.2.name == n) then (k none).prog cfg a
    else .op (.openFile (cfg.path n)) (fun (i : Option Nat) =>
      match i with
      | none => (k none).prog cfg a
      | some i => (retrieveProg cfg i).bind (fun r =>
          match r with
          | .ok r => .op (.openFile (cfg.path n)) (fun (j : Option Nat) =>
              match j with
              | none => (k none).prog cfg a
              | some j => (k (some a.length)).prog cfg (a.set a.length ⟨n, ⟨j, 0, true⟩, r.1, r.2, []⟩))
          | .err => (k none).prog cfg a
          | .panic => .ret none))
  | .keys id k, a => (k (contentKeys a id)).prog cfg a
  | .commits id k, a => (k (DB.commits a id)).prog cfg a
  | .read id p k, a =>
    match a.get id with
    | none => (k none).prog cfg a
    | some c => .op (.read c.conn p.length ((c.dataOffset + p.from') % 2 ^ 64)) (fun (r : Res Bytes) =>
        match r with
        | .ok b => (k (some b)).prog cfg a
        | .err => (k none).prog cfg a
        | .panic => .ret none)
  | .write id h data kind k, a =>
    match DB.write a id h data kind with
    | .ok a' => (k true).prog cfg a'
    | .err => (k false).prog cfg a
    | .panic => .ret none
  | .cancel id k, a =>
    match DB.cancel a id with
    | .ok a' => (k true).prog cfg a'
    | .err => (k false).prog cfg a
    | .panic => .ret none
  | .commit id now k, a =>
    match a.get id with
    | none => (k false).prog cfg a
    | some c =>
      match updateReference cfg c now with
      | .ok r => (lockedProg cfg c r).bind (fun o =>
          match o with
          | some (c', ok) => (k ok).prog cfg (a.set id c')
          | none => .ret none)
      | .err => (k false).prog cfg a
      | .panic => .ret none
  | .close id k, a =>
    match DB.close a id with
    | .ok a' => (k true).prog cfg a'
    | .err => (k false).prog cfg a
    | .panic => .ret none

/-- Shared files and locks, and what each process still has to do. -/
structure Procs (α : Type) where
  shared : Shared
  threads : Nat → Prog (Option α)

/-- All processes before their first operation: nothing is open, nothing is locked (`createApplication`,
libs/databases/infrastructure/files/application.go:39-76). Each process has its own parameters. -/
def Procs.start {α : Type} (cfg : Nat → Cfg) (fs : FS) (ss : Nat → Session α) : Procs α :=
  ⟨⟨fs, fun _ => none⟩, fun p => (ss p).prog (cfg p) []⟩

/-- Process `p` performs its next operation. -/
def Procs.step {α : Type} (s : Procs α) (p : Nat) : Procs α :=
  match s.threads p with
  | .ret _ => s
  | .op o k => ⟨(exec p o s.shared).2, upd s.threads p (k (exec p o s.shared).1)⟩

/-- A schedule: which process performs the next operation. -/
def Procs.run {α : Type} (s : Procs α) (schedule : List Nat) : Procs α := schedule.foldl Procs.step s

end DB
end Rodkina
