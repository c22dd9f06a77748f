import Verif.Sessions
/-!
# One application used by several goroutines

The calls of `application` as sequences of accesses to its map of contexts, to the contexts the map points to, and of file
operations; the accesses of several goroutines are interleaved in any order. Nothing in libs/databases/infrastructure/files uses
a mutex.
-/

namespace Rodkina
namespace DB
namespace Go

open Ref

/-- The memory of an `application`: the contexts (libs/databases/infrastructure/files/context.go:11-19), the map from identifiers
to them (libs/databases/infrastructure/files/application.go:36), which goroutine is in the middle of an assignment to the map or
a deletion from it; a mutex of the program around the application; and the files and their locks. -/
structure Mem where
  heap : Nat → Ctx
  next : Nat
  table : List (Nat × Nat)
  writer : Option Nat
  mutex : Option Nat
  shared : Shared

/-- Accesses: `app.contexts[id]`, `range app.contexts`, `len(app.contexts)`, the fields of a context, the assignment to
`contentList`, the assignments of `Commit` to `reference`, `dataOffset` and `pConn`, a new context, the beginning and the end of an
assignment to the map (`some`) or a deletion from it (`none`), closing the handle of a context, a file operation, a panic, and
locking and unlocking the mutex (libs/databases/infrastructure/files/application.go:79-166, 250-310, 362-414, 503-576, 700-713).
Simplifications: the loop over the map is one access; the fields of a context are read at once; the three assignments of `Commit`
are one. -/
inductive Acc where
  | look (id : Nat)
  | range
  | len
  | fields (p : Nat)
  | setList (p : Nat) (l : List Content)
  | setRef (p : Nat) (r : Reference) (off : Nat) (conn : Conn)
  | alloc (c : Ctx)
  | begin'
  | finish (id : Nat) (p : Option Nat)
  | close (p : Nat)
  | file (o : Op)
  | stop
  | lock
  | unlock

/-- What an access returns (libs/databases/infrastructure/files/application.go:79-166, 250-310, 362-414, 503-576, 700-713). -/
abbrev Acc.Resp : Acc → Type
  | .look _ => Option Nat
  | .range => List Name
  | .len => Nat
  | .fields _ => Ctx
  | .setList _ _ => Unit
  | .setRef _ _ _ _ => Unit
  | .alloc _ => Nat
  | .begin' => Unit
  | .finish _ _ => Unit
  | .close _ => Bool
  | .file o => o.Resp
  | .stop => Empty
  | .lock => Unit
  | .unlock => Unit

/-- One access of goroutine `g`; `none` is the end of the whole process. The Go runtime stops the process when it finds a map accessed
while another goroutine is writing to it ("fatal error: concurrent map read and map write", "concurrent map writes"); a panic in
one goroutine stops the process as well. -/
def exec (g : Nat) : (o : Acc) → Mem → Option (o.Resp × Mem)
  | .look id, m => if m.writer.isSome then none else some ((m.table.find? (fun e => e.1 == id)).map (·.2), m)
  | .range, m => if m.writer.isSome then none else some (m.table.map (fun e => (m.heap e.2).name), m)
  | .len, m => if m.writer.isSome then none else some (m.table.length, m)
  | .fields p, m => some (m.heap p, m)
  | .setList p l, m => some ((), { m with heap := upd m.heap p { m.heap p with contentList := l } })
  | .setRef p r off conn, m =>
    some ((), { m with heap := upd m.heap p { m.heap p with conn := conn, reference := some r, dataOffset := off } })
  | .alloc c, m => some (m.next, { m with heap := upd m.heap m.next c, next := m.next + 1 })
  | .begin', m => if m.writer.isSome then none else some ((), { m with writer := some g })
  | .finish id (some p), m =>
    some ((), { m with writer := none, table := (id, p) :: m.table.filter (fun e => !(e.1 == id)) })
  | .finish id none, m => some ((), { m with writer := none, table := m.table.filter (fun e => !(e.1 == id)) })
  | .close p, m =>
    some ((m.heap p).conn.isOpen,
      { m with heap := upd m.heap p { m.heap p with conn := { (m.heap p).conn with isOpen := false } } })
  | .file o, m => some ((DB.exec g o m.shared).1, { m with shared := (DB.exec g o m.shared).2 })
  | .stop, _ => none
  | .lock, m => some ((), { m with mutex := some g })
  | .unlock, m => some ((), { m with mutex := none })

/-- Whether a goroutine can go on with this access: locking waits until the mutex is free. -/
def Acc.ready : Acc → Mem → Bool
  | .lock, m => m.mutex.isNone
  | _, _ => true

/-- A sequential program of accesses. -/
inductive Prog (α : Type) where
  | ret (a : α)
  | op (o : Acc) (k : o.Resp → Prog α)

/-- Sequencing. -/
def Prog.bind {α β : Type} : Prog α → (α → Prog β) → Prog β
  | .ret a, f => f a
  | .op o k, f => .op o (fun r => (k r).bind f)

/-- Sequencing of steps that can end a commit, see `DB.Prog.next`. -/
def Prog.next {α β : Type} (x : Prog (Out α)) (f : α → Prog (Out β)) : Prog (Out β) :=
  x.bind (fun o =>
    match o with
    | .ok a => f a
    | .err => .ret .err
    | .panic => .ret .panic
    | .crash => .ret .crash
    | .hang => .ret .hang)

/-- A panic. -/
def stop {α : Type} : Prog α := .op .stop (fun (e : Empty) => e.elim)

/-- File operations as accesses. -/
def files {α : Type} : DB.Prog α → Prog α
  | .ret a => .ret a
  | .op o k => .op (.file o) (fun r => files (k r))

/-- `Exists`, libs/databases/infrastructure/files/application.go:79-87. In this and the following programs `none` is a call that
never returns, errors are `false`, `none` or `.err`. -/
def existsProg (cfg : Cfg) (n : Name) : Prog (Option Bool) :=
  .op (.file (.openFile (cfg.path n))) (fun (i : Option Nat) => .ret (some i.isSome))

/-- `New`, libs/databases/infrastructure/files/application.go:90-111. -/
def newProg (cfg : Cfg) (n : Name) : Prog (Option Bool) :=
  .op (.file (.openFile (cfg.path n))) (fun (i : Option Nat) =>
    if i.isSome then .ret (some false)
    else .op (.file (.create (cfg.path n))) (fun _ => .ret (some true)))

/-- `Delete`, libs/databases/infrastructure/files/application.go:114-127. -/
def deleteProg (cfg : Cfg) (n : Name) : Prog (Option Bool) :=
  .op (.file (.openFile (cfg.path n))) (fun (i : Option Nat) =>
    if i.isSome then .op (.file (.remove (cfg.path n))) (fun (ok : Bool) => .ret (some ok))
    else .ret (some false))

/-- `Open` after the reference was read, libs/databases/infrastructure/files/application.go:138-165. -/
def openRest (cfg : Cfg) (n : Name) : Res (Option Reference × Nat) → Prog (Option (Option Nat))
  | .ok r => .op (.file (.openFile (cfg.path n))) (fun (j : Option Nat) =>
      match j with
      | none => .ret (some none)
      | some j => .op .len (fun (id : Nat) =>
          .op (.alloc ⟨n, ⟨j, 0, true⟩, r.1, r.2, []⟩) (fun (p : Nat) =>
            .op .begin' (fun _ => .op (.finish id (some p)) (fun _ => .ret (some (some id)))))))
  | .err => .ret (some none)
  | .panic => stop

/-- `Open`, libs/databases/infrastructure/files/application.go:130-166. -/
def openProg (cfg : Cfg) (n : Name) : Prog (Option (Option Nat)) :=
  .op .range (fun (names : List Name) =>
    if names.any (· == n) then .ret (some none)
    else .op (.file (.openFile (cfg.path n))) (fun (i : Option Nat) =>
      match i with
      | none => .ret (some none)
      | some i => (files (retrieveProg cfg i)).bind (openRest cfg n)))

/-- The field `reference` of a context, for `contentKeys` and `Commits`, libs/databases/infrastructure/files/application.go:250-262,
275-287. -/
def referenceProg (id : Nat) : Prog (Res Reference) :=
  .op (.look id) (fun (p : Option Nat) =>
    match p with
    | none => .ret .err
    | some p => .op (.fields p) (fun (c : Ctx) =>
        match c.reference with
        | none => .ret .err
        | some r => .ret (.ok r)))

/-- `contentKeys`, libs/databases/infrastructure/files/application.go:250-262. -/
def keysProg (id : Nat) : Prog (Option (Res ContentKeys)) :=
  (referenceProg id).bind (fun r =>
    match r with
    | .ok r => .ret (some (.ok r.contentKeys))
    | _ => .ret (some .err))

/-- `Commits`, libs/databases/infrastructure/files/application.go:275-287. -/
def commitsProg (id : Nat) : Prog (Option (Res Commits)) :=
  (referenceProg id).bind (fun r =>
    match r with
    | .ok r => .ret (some (.ok r.commits))
    | _ => .ret (some .err))

/-- `Read` after reading from the file, libs/databases/infrastructure/files/application.go:294-305. -/
def readRest : Res Bytes → Prog (Option (Option Bytes))
  | .ok b => .ret (some (some b))
  | .err => .ret (some none)
  | .panic => stop

/-- `Read`, libs/databases/infrastructure/files/application.go:290-310. -/
def readProg (id : Nat) (q : Pointer) : Prog (Option (Option Bytes)) :=
  .op (.look id) (fun (p : Option Nat) =>
    match p with
    | none => .ret (some none)
    | some p => .op (.fields p) (fun (c : Ctx) =>
        .op (.file (.read c.conn q.length ((c.dataOffset + q.from') % 2 ^ 64))) readRest))

/-- `Write`, libs/databases/infrastructure/files/application.go:362-376: `append` reads the list before it is assigned. -/
def writeProg (id : Nat) (h data : Bytes) (kind : Nat) : Prog (Option Bool) :=
  .op (.look id) (fun (p : Option Nat) =>
    match p with
    | none => .ret (some false)
    | some p =>
      match contentNow h data kind with
      | .ok x => .op (.fields p) (fun (c : Ctx) =>
          .op (.setList p (c.contentList ++ [x])) (fun _ =>
            .op .begin' (fun _ => .op (.finish id (some p)) (fun _ => .ret (some true)))))
      | .err => .ret (some false)
      | .panic => stop)

/-- `Cancel`, libs/databases/infrastructure/files/application.go:379-388. -/
def cancelProg (id : Nat) : Prog (Option Bool) :=
  .op (.look id) (fun (p : Option Nat) =>
    match p with
    | none => .ret (some false)
    | some p => .op (.setList p []) (fun _ => .op .begin' (fun _ => .op (.finish id (some p)) (fun _ => .ret (some true)))))

/-- What `Commit` does under the lock, libs/databases/infrastructure/files/application.go:513-575, for the context at `p`; see
`bodyProg`. The handle of the context is closed in between (544). -/
def bodyProg (cfg : Cfg) (p : Nat) (c : Ctx) (r : Reference) : Prog (Out (Conn × Nat)) :=
  (files (destinationProg cfg c r)).next (fun off =>
    (files (backupProg cfg c)).next (fun _ =>
      .op (.close p) (fun (ok : Bool) =>
        if ok then (files (swapProg cfg c)).next (fun conn => .ret (.ok (conn, off))) else .ret .err)))

/-- `Commit` after `updateDatabaseOnFile`, libs/databases/infrastructure/files/application.go:400-410. -/
def commitRest (id : Nat) (r : Reference) : Out (Conn × Nat) → Prog (Option Bool)
  | .ok (conn, off) => .op (.look id) (fun (p : Option Nat) =>
      match p with
      | none => stop
      | some p => .op (.setRef p r off conn) (fun _ => .ret (some true)))
  | .err => .ret (some false)
  | .hang => .ret none
  | _ => stop

/-- `Commit`, libs/databases/infrastructure/files/application.go:391-414, 503-511. The context is looked up three times. -/
def commitProg (cfg : Cfg) (id : Nat) (now : Int) : Prog (Option Bool) :=
  .op (.look id) (fun (p : Option Nat) =>
    match p with
    | none => .ret (some false)
    | some p => .op (.fields p) (fun (c : Ctx) =>
        match updateReference cfg c now with
        | .err => .ret (some false)
        | .panic => stop
        | .ok r => .op (.look id) (fun (p : Option Nat) =>
            match p with
            | none => .ret (some false)
            | some p => .op (.fields p) (fun (c : Ctx) =>
                .op (.file (.lockOpen (cfg.path c.name))) (fun (i : Nat) =>
                  .op (.file (.flock i)) (fun (got : Bool) =>
                    if got then ((bodyProg cfg p c r).bind (fun o => files (unlockProg i o))).bind (commitRest id r)
                    else .ret (some false)))))))

/-- `Close`, libs/databases/infrastructure/files/application.go:700-713. -/
def closeProg (id : Nat) : Prog (Option Bool) :=
  .op (.look id) (fun (p : Option Nat) =>
    match p with
    | none => .ret (some false)
    | some p => .op (.close p) (fun (ok : Bool) =>
        if ok then .op .begin' (fun _ => .op (.finish id none) (fun _ => .ret (some true))) else .ret (some false)))

/-- What follows a call. -/
def Prog.andThen {α β : Type} (x : Prog (Option β)) (f : β → Prog (Option α)) : Prog (Option α) :=
  x.bind (fun r =>
    match r with
    | none => .ret none
    | some r => f r)

/-- A call between locking and unlocking the mutex; a call that never returns does not unlock it. -/
def guarded {β : Type} (x : Prog (Option β)) : Prog (Option β) :=
  .op .lock (fun _ => x.andThen (fun r => .op .unlock (fun _ => .ret (some r))))

/-- A call, made with the mutex locked or not. -/
def call {β : Type} (guard : Bool) (x : Prog (Option β)) : Prog (Option β) := if guard then guarded x else x

/-- The accesses of a goroutine that runs this program (libs/databases/applications/sdk.go:15-47); `none` when a call never returns. -/
def _root_.Rodkina.DB.Session.go {α : Type} (guard : Bool) (cfg : Cfg) : Session α → Prog (Option α)
  | .done a => .ret (some a)
  | .exists' n k => (call guard (existsProg cfg n)).andThen (fun r => (k r).go guard cfg)
  | .new n k => (call guard (newProg cfg n)).andThen (fun r => (k r).go guard cfg)
  | .delete n k => (call guard (deleteProg cfg n)).andThen (fun r => (k r).go guard cfg)
  | .open' n k => (call guard (openProg cfg n)).andThen (fun r => (k r).go guard cfg)
  | .keys id k => (call guard (keysProg id)).andThen (fun r => (k r).go guard cfg)
  | .commits id k => (call guard (commitsProg id)).andThen (fun r => (k r).go guard cfg)
  | .read id p k => (call guard (readProg id p)).andThen (fun r => (k r).go guard cfg)
  | .write id h data kind k => (call guard (writeProg id h data kind)).andThen (fun r => (k r).go guard cfg)
  | .cancel id k => (call guard (cancelProg id)).andThen (fun r => (k r).go guard cfg)
  | .commit id now k => (call guard (commitProg cfg id now)).andThen (fun r => (k r).go guard cfg)
  | .close id k => (call guard (closeProg id)).andThen (fun r => (k r).go guard cfg)

/-- The memory and what each goroutine still has to do. -/
structure System (α : Type) where
  mem : Mem
  threads : Nat → Prog (Option α)

/-- Goroutines that run these programs, before their first access. -/
def System.start {α : Type} (guard : Bool) (cfg : Cfg) (m : Mem) (tasks : Nat → Session α) : System α :=
  ⟨m, fun g => (tasks g).go guard cfg⟩

/-- Goroutine `g` performs its next access, if it can; `none` when the process has ended. -/
def System.step {α : Type} (s : System α) (g : Nat) : Option (System α) :=
  match s.threads g with
  | .ret _ => some s
  | .op o k =>
    if o.ready s.mem then
      match exec g o s.mem with
      | none => none
      | some (r, m) => some ⟨m, upd s.threads g (k r)⟩
    else some s

/-- A schedule: which goroutine performs the next access. -/
def System.run {α : Type} : System α → List Nat → Option (System α)
  | s, [] => some s
  | s, g :: gs =>
    match s.step g with
    | none => none
    | some s' => s'.run gs

end Go
end DB
end Rodkina
