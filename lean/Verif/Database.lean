import Verif.References
/-!
# Model of libs/databases/infrastructure/files (the file database) and of the file system below it

The file system maps paths to inodes and inodes to contents, so that an open handle keeps reading the file it opened
after the path was removed or renamed over. Every file operation of a commit takes a fault from an oracle: it works, fails
(possibly after a partial write), or the process stops there (possibly after a partial write).
-/

namespace Rodkina
namespace DB

open Ref

set_option linter.unusedVariables false

/-! ## File system (operating system and Go `os` package; trusted base, not code of /repo) -/

/-- Paths and database names: strings, as lists of characters (`string` parameters in libs/databases/infrastructure/files/application.go:79-166). -/
abbrev Name := List Char

/-- Directory entries, inode contents and the next unused inode. Simplifications: one directory, which exists; no
subdirectories, so the `IsDir` branches of libs/databases/infrastructure/files/application.go:83 and 121-124 and the `MkdirAll` of 91-96 are not modelled;
no permissions. -/
structure FS where
  dir : Name → Option Nat
  ino : Nat → Bytes
  next : Nat

/-- Function update. -/
def upd {α β : Type} [DecidableEq α] (f : α → β) (a : α) (b : β) : α → β := fun x => if x = a then b else f x

/-- `os.Create` (used at libs/databases/infrastructure/files/application.go:105, 527, 584): truncates the file the path names, or makes a new one. -/
def FS.create (fs : FS) (p : Name) : FS :=
  match fs.dir p with
  | some i => { fs with ino := upd fs.ino i [] }
  | none => { dir := upd fs.dir p (some fs.next), ino := upd fs.ino fs.next [], next := fs.next + 1 }

/-- The inode `os.Create` returns a handle on (libs/databases/infrastructure/files/application.go:105, 527, 584). -/
def FS.createIno (fs : FS) (p : Name) : Nat := (fs.dir p).getD fs.next

/-- `open(path, O_CREAT|O_RDONLY)` in vendor/github.com/juju/fslock/fslock_nix.go:49-56: creates a missing file, leaves an
existing one alone. -/
def FS.touch (fs : FS) (p : Name) : FS :=
  match fs.dir p with
  | some _ => fs
  | none => fs.create p

/-- `os.Remove` of an existing path (libs/databases/infrastructure/files/application.go:126, 550, 564). Open handles keep their inode. -/
def FS.remove (fs : FS) (p : Name) : FS := { fs with dir := upd fs.dir p none }

/-- `os.Rename` (libs/databases/infrastructure/files/application.go:558): atomically replaces the target. -/
def FS.rename (fs : FS) (p q : Name) : FS := { fs with dir := upd (upd fs.dir q (fs.dir p)) p none }

/-- Content after writing `bs` at an offset (a gap is filled with zeros), as `Seek` then `Write` do at
libs/databases/infrastructure/files/application.go:674-688. -/
def writeBytes (c : Bytes) (off : Nat) (bs : Bytes) : Bytes :=
  (c ++ List.replicate (off - c.length) 0).take off ++ bs ++ c.drop (off + bs.length)

/-- Writing to an inode at an offset (libs/databases/infrastructure/files/application.go:674-688). -/
def FS.write (fs : FS) (i off : Nat) (bs : Bytes) : FS := { fs with ino := upd fs.ino i (writeBytes (fs.ino i) off bs) }

/-- The bytes of the file a path names. -/
def FS.file (fs : FS) (p : Name) : Option Bytes := (fs.dir p).map fs.ino

/-- `File.ReadAt` with a buffer of `len` bytes (used at libs/databases/infrastructure/files/application.go:187, 216, 295, 620): fewer bytes than asked for is an
error; an empty buffer never is. -/
def readAt (c : Bytes) (len off : Nat) : Res Bytes :=
  if len = 0 then .ok []
  else if off + len ≤ c.length then .ok ((c.drop off).take len)
  else .err

/-! ## State of the application -/

/-- An `*os.File` opened for reading (`context.pConn`, libs/databases/infrastructure/files/context.go:15): inode, position, and whether it is still open. -/
structure Conn where
  ino : Nat
  pos : Nat
  isOpen : Bool

/-- `context`, libs/databases/infrastructure/files/context.go:11-19. `identifier` is the key under which it is stored,
`pLock` is determined by the name (libs/databases/infrastructure/files/application.go:151). -/
structure Ctx where
  name : Name
  conn : Conn
  reference : Option Reference
  dataOffset : Nat
  contentList : List Content

/-- The parameters of `NewApplication`, libs/databases/infrastructure/files/sdk.go:15-50; `path` is
`filepath.Join(dirPath, name)`. `spare` is not a parameter of the code: it is whatever lies between the length and the
capacity of the buffer grown by `append` at libs/databases/infrastructure/files/application.go:221, which the Go runtime decides. -/
structure Cfg where
  S : Sha
  miningValue : UInt8
  path : Name → Name
  dstExtension : Name
  bckExtension : Name
  readChunkSize : Nat
  spare : Bytes → Bytes

/-- `destinationFile`, libs/databases/infrastructure/files/application.go:556-557 and 580-581 (`fileNameExtensionDelimiter` is ".", libs/databases/infrastructure/files/sdk.go:10). -/
def Cfg.dst (cfg : Cfg) (n : Name) : Name := cfg.path (n ++ '.' :: cfg.dstExtension)

/-- `backupFile`, libs/databases/infrastructure/files/application.go:523-524. -/
def Cfg.bck (cfg : Cfg) (n : Name) : Name := cfg.path (n ++ '.' :: cfg.bckExtension)

/-- `application.contexts` (libs/databases/infrastructure/files/application.go:36): a Go map, here an association list with at most one entry per key. -/
abbrev App := List (Nat × Ctx)

/-- `app.contexts[id]`. -/
def App.get (a : App) (id : Nat) : Option Ctx := (a.find? (fun e => e.1 == id)).map (·.2)

/-- `app.contexts[id] = c`. -/
def App.set (a : App) (id : Nat) (c : Ctx) : App := (id, c) :: a.filter (fun e => !(e.1 == id))

/-- `delete(app.contexts, id)`. -/
def App.delete (a : App) (id : Nat) : App := a.filter (fun e => !(e.1 == id))

/-! ## Existence, creation, deletion -/

/-- `Exists`, libs/databases/infrastructure/files/application.go:79-87. -/
def exists' (cfg : Cfg) (fs : FS) (n : Name) : Bool := (fs.dir (cfg.path n)).isSome

/-- `New`, libs/databases/infrastructure/files/application.go:90-111. -/
def new' (cfg : Cfg) (fs : FS) (n : Name) : Res FS :=
  if (fs.dir (cfg.path n)).isSome then .err else .ok (fs.create (cfg.path n))

/-- `Delete`, libs/databases/infrastructure/files/application.go:114-127. -/
def delete' (cfg : Cfg) (fs : FS) (n : Name) : Res FS :=
  if (fs.dir (cfg.path n)).isSome then .ok (fs.remove (cfg.path n)) else .err

/-! ## Opening -/

/-- `makeChunkSize`, libs/databases/infrastructure/files/application.go:168-174. -/
def makeChunkSize (cfg : Cfg) (length : Nat) : Nat :=
  if cfg.readChunkSize > length then length else cfg.readChunkSize

/-- The reading loop of `retrieveReference`, libs/databases/infrastructure/files/application.go:209-223: `n` iterations are left, the last one reads `last`
bytes. -/
def readLoop (c : Bytes) (chunk last : Nat) : Nat → Nat → Res Bytes
  | 0, _ => .ok []
  | n + 1, off => do
    let b ← readAt c (if n = 0 then last else chunk) off
    let rest ← readLoop c chunk last n (off + b.length)
    pure (b ++ rest)

/-- `retrieveReference` on the bytes of the file, libs/databases/infrastructure/files/application.go:176-232. The length field is a signed `int` in Go: for a
negative value the loop makes a negative-size buffer (panic) when its absolute value is below the chunk size, and otherwise
does not run, so that the decoder rejects the empty content. Simplifications: the chunk size is below 2^63; a buffer that
does not fit in memory is not distinguished from a short read. -/
def retrieveReference (cfg : Cfg) (c : Bytes) : Res (Option Reference × Nat) :=
  match readAt c 8 0 with
  | .ok l =>
    let refLength := leNat l
    let chunk := makeChunkSize cfg refLength
    if chunk = 0 then .panic
    else if 2 ^ 63 ≤ refLength then
      if 2 ^ 64 - refLength < chunk then .panic else .err
    else do
      let amount := refLength / chunk + 1
      let last := refLength - chunk * (amount - 1)
      let b ← readLoop c chunk last amount 8
      let r ← toReference cfg.S cfg.miningValue ⟨b, cfg.spare b⟩
      pure (some r, 8 + b.length)
  | _ => .ok (none, 0)

/-- Reading the reference of the file a path names; `os.Open` fails when it does not exist (libs/databases/infrastructure/files/application.go:177-181). -/
def retrieveAt (cfg : Cfg) (fs : FS) (p : Name) : Res (Option Reference × Nat) :=
  match fs.file p with
  | none => .err
  | some c => retrieveReference cfg c

/-- `Open`, libs/databases/infrastructure/files/application.go:130-166: the new identifier and the contexts. -/
def open' (cfg : Cfg) (fs : FS) (a : App) (n : Name) : Res (Nat × App) :=
  if a.any (fun e => e.2.name == n) then .err
  else do
    let r ← retrieveAt cfg fs (cfg.path n)
    let ctx : Ctx := ⟨n, ⟨(fs.dir (cfg.path n)).getD 0, 0, true⟩, r.1, r.2, []⟩
    pure (a.length, a.set a.length ctx)

/-! ## Reading -/

/-- `contentKeys`, libs/databases/infrastructure/files/application.go:250-262. -/
def contentKeys (a : App) (id : Nat) : Res ContentKeys :=
  match a.get id with
  | none => .err
  | some c =>
    match c.reference with
    | none => .err
    | some r => .ok r.contentKeys

/-- `ContentKeysByKind`, libs/databases/infrastructure/files/application.go:235-248. -/
def contentKeysByKind (a : App) (id kind : Nat) : Res ContentKeys := do
  let k ← contentKeys a id
  if (k.listByKind kind).isEmpty then .err else contentKeysNow (k.listByKind kind)

/-- `Commits`, libs/databases/infrastructure/files/application.go:275-287. -/
def commits (a : App) (id : Nat) : Res Commits :=
  match a.get id with
  | none => .err
  | some c =>
    match c.reference with
    | none => .err
    | some r => .ok r.commits

/-- `CommitByHash`, libs/databases/infrastructure/files/application.go:265-272. -/
def commitByHash (a : App) (id : Nat) (h : Bytes) : Res Commit := do
  let c ← commits a id
  c.fetch h

/-- `pConn.ReadAt` with a `uint` offset converted to `int64` (libs/databases/infrastructure/files/application.go:292-295): a negative offset and a closed file
are errors; a buffer length of 2^63 or more makes `make` panic. -/
def connRead (fs : FS) (c : Conn) (len off : Nat) : Res Bytes :=
  if 2 ^ 63 ≤ len then .panic
  else if c.isOpen = false then .err
  else if 2 ^ 63 ≤ off then .err
  else readAt (fs.ino c.ino) len off

/-- `Read`, libs/databases/infrastructure/files/application.go:290-310; the addition of the offsets wraps. -/
def read (fs : FS) (a : App) (id : Nat) (p : Pointer) : Res Bytes :=
  match a.get id with
  | none => .err
  | some c => connRead fs c.conn p.length ((c.dataOffset + p.from') % 2 ^ 64)

/-- `ReadByHash`, libs/databases/infrastructure/files/application.go:313-329. -/
def readByHash (fs : FS) (a : App) (id : Nat) (h : Bytes) : Res Bytes := do
  let k ← contentKeys a id
  let key ← k.fetch h
  read fs a id key.content

/-- `ReadAll`, libs/databases/infrastructure/files/application.go:332-344. -/
def readAll (fs : FS) (a : App) (id : Nat) : List Pointer → Res (List Bytes)
  | [] => .ok []
  | p :: ps => do
    let b ← read fs a id p
    let rest ← readAll fs a id ps
    pure (b :: rest)

/-- `ReadAllByHashes`, libs/databases/infrastructure/files/application.go:347-359. -/
def readAllByHashes (fs : FS) (a : App) (id : Nat) : List Bytes → Res (List Bytes)
  | [] => .ok []
  | h :: hs => do
    let b ← readByHash fs a id h
    let rest ← readAllByHashes fs a id hs
    pure (b :: rest)

/-! ## Writing -/

/-- `Write`, libs/databases/infrastructure/files/application.go:362-376. -/
def write (a : App) (id : Nat) (h data : Bytes) (kind : Nat) : Res App :=
  match a.get id with
  | none => .err
  | some c => do
    let x ← contentNow h data kind
    pure (a.set id { c with contentList := c.contentList ++ [x] })

/-- `Cancel`, libs/databases/infrastructure/files/application.go:379-388. -/
def cancel (a : App) (id : Nat) : Res App :=
  match a.get id with
  | none => .err
  | some c => .ok (a.set id { c with contentList := [] })

/-- `Close`, libs/databases/infrastructure/files/application.go:700-713. -/
def close (a : App) (id : Nat) : Res App :=
  match a.get id with
  | none => .err
  | some c => if c.conn.isOpen then .ok (a.delete id) else .err

/-! ## Commit: the new reference -/

/-- The loop building the new content keys, libs/databases/infrastructure/files/application.go:466-486. -/
def newKeys (commitHash : Bytes) : Int → List Content → Res (List ContentKey)
  | _, [] => .ok []
  | off, x :: xs => do
    let p ← pointerNow (some (toU64 off)) x.data.length
    let rest ← newKeys commitHash (off + x.data.length) xs
    pure (⟨x.hash, x.kind, p, commitHash⟩ :: rest)

/-- The parent of the new commit, libs/databases/infrastructure/files/application.go:419-423. -/
def latestHash : Option Reference → Res (Option Bytes)
  | none => .ok none
  | some r => do
    let c ← r.commits.latest
    pure (some c.hash)

/-- The commits already in the reference, libs/databases/infrastructure/files/application.go:443-446. -/
def oldCommits : Option Reference → List Commit
  | none => []
  | some r => r.commits.list

/-- The content keys already in the reference, libs/databases/infrastructure/files/application.go:455-458. -/
def oldKeys : Option Reference → List ContentKey
  | none => []
  | some r => r.contentKeys.list

/-- The first free offset of the data area, libs/databases/infrastructure/files/application.go:461-464. -/
def nextOffset : Option Reference → Int
  | none => 0
  | some r => r.contentKeys.next

/-- `updateReference`, libs/databases/infrastructure/files/application.go:416-501; `now` is `time.Now().UTC()` as `UnixNano`. -/
def updateReference (cfg : Cfg) (c : Ctx) (now : Int) : Res Reference := do
  let parent ← latestHash c.reference
  let values ← HashTree.build cfg.S (some (c.contentList.map (·.hash)))
  let commit := commitNow cfg.S cfg.miningValue values now parent none
  let commits ← commitsNow (oldCommits c.reference ++ [commit])
  let keys ← newKeys commit.hash (nextOffset c.reference) c.contentList
  let contentKeys ← contentKeysNow (oldKeys c.reference ++ keys)
  pure ⟨contentKeys, commits⟩

/-! ## Commit: the files -/

/-- What happens at a file operation: it works, it fails after writing `k` bytes, or the process stops there after `k`
bytes were written. -/
inductive Fault where
  | none
  | fail (k : Nat)
  | crash (k : Nat)
  deriving DecidableEq

/-- The file operations of a commit, libs/databases/infrastructure/files/application.go:503-697; the index counts loop iterations. -/
inductive Pt where
  | tryLock | createDst | writeRef
  | copyRead (i : Nat) | copySeek (i : Nat) | copyWrite (i : Nat)
  | dataSeek (i : Nat) | dataWrite (i : Nat)
  | createBck | copyBck | closeBck | closeConn | removeSrc | rename | removeBck | reopen
  deriving DecidableEq

/-- Outcome of a commit: value, error, panic, process stopped, or an endless loop. -/
inductive Out (α : Type) where
  | ok (a : α)
  | err
  | panic
  | crash
  | hang

/-- What a commit works on: the file system and the handle of its context. -/
structure World where
  fs : FS
  conn : Conn

/-- State-passing computations. -/
structure M (α : Type) where
  run : World → Out α × World

/-- Sequencing: anything but a value stops the commit (the deferred `Unlock` and `Close`, libs/databases/infrastructure/files/application.go:511 and 590, change
no file). -/
def M.bind {α β : Type} (x : M α) (f : α → M β) : M β := ⟨fun w =>
  match x.run w with
  | (.ok a, w') => (f a).run w'
  | (.err, w') => (.err, w')
  | (.panic, w') => (.panic, w')
  | (.crash, w') => (.crash, w')
  | (.hang, w') => (.hang, w')⟩

instance : Monad M where
  pure a := ⟨fun w => (.ok a, w)⟩
  bind := M.bind

/-- One file operation under a fault: `full` is its effect, `part k` its effect when it stops after `k` bytes. -/
def attempt (f : Fault) (full : World → World) (part : Nat → World → World) : M Unit := ⟨fun w =>
  match f with
  | .none => (.ok (), full w)
  | .fail k => (.err, part k w)
  | .crash k => (.crash, part k w)⟩

/-- An operation with no partial effect. -/
def atomic (f : Fault) (full : World → World) : M Unit := attempt f full (fun _ w => w)

/-- Errors the code handles with `break` (libs/databases/infrastructure/files/application.go:621-623, 632-634, 646-648): the loop ends and the commit goes on. -/
def swallow (x : M Unit) : M Bool := ⟨fun w =>
  match x.run w with
  | (.ok _, w') => (.ok true, w')
  | (.err, w') => (.ok false, w')
  | (.panic, w') => (.panic, w')
  | (.crash, w') => (.crash, w')
  | (.hang, w') => (.hang, w')⟩

/-- `Write` on the destination handle at an offset. -/
def writeOp (f : Fault) (i off : Nat) (bs : Bytes) : M Unit :=
  attempt f (fun w => { w with fs := w.fs.write i off bs }) (fun k w => { w with fs := w.fs.write i off (bs.take k) })

/-- `saveDataOnDisk`, libs/databases/infrastructure/files/application.go:672-697. -/
def saveDataOnDisk (fseek fwrite : Fault) (i off : Nat) (bs : Bytes) : M Unit := do
  atomic fseek id
  writeOp fwrite i off bs

/-- `pConn.ReadAt` in the copy loop (libs/databases/infrastructure/files/application.go:619-623); `none` is the error that ends the loop. -/
def copyRead (f : Fault) (chunk off : Nat) : M (Option Bytes) := ⟨fun w =>
  match f with
  | .none =>
    match connRead w.fs w.conn chunk off with
    | .ok b => (.ok (some b), w)
    | .err => (.ok .none, w)
    | .panic => (.panic, w)
  | .fail _ => (.ok .none, w)
  | .crash _ => (.crash, w)⟩

/-- What one iteration of the copy loop does with the bytes it read, libs/databases/infrastructure/files/application.go:621-638; `next` is the rest of the
loop. -/
def copyStep (o : Pt → Fault) (i k wo : Nat) (r : Option Bytes) (next : M Nat) : M Nat :=
  match r with
  | none => pure wo
  | some b => do
    let go ← swallow (saveDataOnDisk (o (.copySeek k)) (o (.copyWrite k)) i wo b)
    if go then next else pure wo

/-- The copy loop, libs/databases/infrastructure/files/application.go:617-639, with `fuel` iterations left, the iteration number and the two offsets; gives the
final write offset. A successful read returns exactly `chunk` bytes (the check at 615-618 never fails). Running out of fuel stands for an endless loop: every iteration advances by `chunk`, so with a positive
chunk size and as much fuel as the source file has bytes this does not happen unless the source grows meanwhile. -/
def copyLoop (o : Pt → Fault) (chunk i : Nat) : Nat → Nat → Nat → Nat → M Nat
  | 0, _, _, _ => ⟨fun w => (.hang, w)⟩
  | fuel + 1, k, ro, wo => do
    let r ← copyRead (o (.copyRead k)) chunk ro
    copyStep o i k wo r (copyLoop o chunk i fuel (k + 1) (ro + chunk) (wo + chunk))

/-- `pConn.Stat().Size()`, libs/databases/infrastructure/files/application.go:613-614: the error is ignored, so a closed file is a nil dereference. -/
def statSize : M Nat := ⟨fun w =>
  if w.conn.isOpen then (.ok (w.fs.ino w.conn.ino).length, w) else (.panic, w)⟩

/-- Unsigned 64-bit subtraction, `uint(pInfo.Size() - int64(context.dataOffset))` (libs/databases/infrastructure/files/application.go:614-615). -/
def sub64 (a b : Nat) : Nat := (a + 2 ^ 64 - b) % 2 ^ 64

/-- Enough iterations for the copy loop of libs/databases/infrastructure/files/application.go:617-639 to end, when it ends: with a chunk size of zero it reads
nothing for ever. -/
def copyFuel (chunk size : Nat) : Nat := if chunk = 0 then 0 else size + 1

/-- The copy of the old data once the size of the file is known, libs/databases/infrastructure/files/application.go:614-639. -/
def copyFrom (cfg : Cfg) (o : Pt → Fault) (dataOffset i wo size : Nat) : M Nat :=
  copyLoop o (makeChunkSize cfg (sub64 size dataOffset)) i (copyFuel (makeChunkSize cfg (sub64 size dataOffset)) size) 0
    dataOffset wo

/-- The copy of the old data, libs/databases/infrastructure/files/application.go:612-640. -/
def copyOld (cfg : Cfg) (o : Pt → Fault) (c : Ctx) (i wo : Nat) : M Nat :=
  match c.reference with
  | none => pure wo
  | some _ => statSize >>= copyFrom cfg o c.dataOffset i wo

/-- The loop writing the pending contents, libs/databases/infrastructure/files/application.go:643-652. -/
def writeContents (o : Pt → Fault) (i : Nat) : Nat → Nat → List Content → M Unit
  | _, _, [] => pure ()
  | k, wo, x :: xs => do
    let go ← swallow (saveDataOnDisk (o (.dataSeek k)) (o (.dataWrite k)) i wo x.data)
    if go then writeContents o i (k + 1) (wo + x.data.length) xs else pure ()

/-- `referenceToContent`, libs/databases/infrastructure/files/application.go:658-670. -/
def refData (r : Reference) : Bytes := le64 (referenceToContent r).length ++ referenceToContent r

/-- The inode a following `os.Create` returns a handle on (libs/databases/infrastructure/files/application.go:527 and 584). -/
def inoOf (p : Name) : M Nat := ⟨fun w => (.ok (w.fs.createIno p), w)⟩

/-- `os.Create` (libs/databases/infrastructure/files/application.go:527 and 584). -/
def createOp (f : Fault) (p : Name) : M Unit := atomic f (fun w => { w with fs := w.fs.create p })

/-- `writeDataAndReferenceOnDestinationFile`, libs/databases/infrastructure/files/application.go:578-656. -/
def writeDestination (cfg : Cfg) (o : Pt → Fault) (c : Ctx) (r : Reference) : M Nat := do
  let i ← inoOf (cfg.dst c.name)
  createOp (o .createDst) (cfg.dst c.name)
  writeOp (o .writeRef) i 0 (refData r)
  let wo ← copyOld cfg o c i (refData r).length
  writeContents o i 0 wo c.contentList
  pure (refData r).length

/-- `io.Copy(backupPtr, context.pConn)`, libs/databases/infrastructure/files/application.go:532-535: from the handle's position to the end of the file. A failing
copy leaves the first `k` bytes (the handle's position after a failure is approximated by the bytes written). -/
def copyBackup (f : Fault) (i : Nat) : M Unit := ⟨fun w =>
  if w.conn.isOpen = false then (.err, w)
  else
    let src := (w.fs.ino w.conn.ino).drop w.conn.pos
    (attempt f
      (fun w => ⟨w.fs.write i 0 src, { w.conn with pos := w.conn.pos + src.length }⟩)
      (fun k w => ⟨w.fs.write i 0 (src.take k), { w.conn with pos := w.conn.pos + (src.take k).length }⟩)).run w⟩

/-- `context.pConn.Close()`, libs/databases/infrastructure/files/application.go:544-547: a second close is an error; after a failing one the file is closed too. -/
def closeConn (f : Fault) : M Unit := ⟨fun w =>
  if w.conn.isOpen = false then (.err, w)
  else
    (attempt f (fun w => { w with conn := { w.conn with isOpen := false } })
      (fun _ w => { w with conn := { w.conn with isOpen := false } })).run w⟩

/-- `os.Remove`, libs/databases/infrastructure/files/application.go:550 and 564. -/
def removeOp (f : Fault) (p : Name) : M Unit := ⟨fun w =>
  if (w.fs.dir p).isSome then (atomic f (fun w => { w with fs := w.fs.remove p })).run w else (.err, w)⟩

/-- `os.Rename`, libs/databases/infrastructure/files/application.go:558. -/
def renameOp (f : Fault) (p q : Name) : M Unit := ⟨fun w =>
  if (w.fs.dir p).isSome then (atomic f (fun w => { w with fs := w.fs.rename p q })).run w else (.err, w)⟩

/-- `os.Open`, libs/databases/infrastructure/files/application.go:570. -/
def openOp (f : Fault) (p : Name) : M Conn := ⟨fun w =>
  match w.fs.dir p with
  | some i => (do atomic f id; pure ⟨i, 0, true⟩ : M Conn).run w
  | none => (.err, w)⟩

/-- Making and filling the backup file, libs/databases/infrastructure/files/application.go:522-541. -/
def backup (cfg : Cfg) (o : Pt → Fault) (n : Name) : M Unit := do
  let i ← inoOf (cfg.bck n)
  createOp (o .createBck) (cfg.bck n)
  copyBackup (o .copyBck) i
  atomic (o .closeBck) id

/-- Replacing the source by the destination, libs/databases/infrastructure/files/application.go:543-575. -/
def swap (cfg : Cfg) (o : Pt → Fault) (n : Name) : M Conn := do
  closeConn (o .closeConn)
  removeOp (o .removeSrc) (cfg.path n)
  renameOp (o .rename) (cfg.dst n) (cfg.path n)
  removeOp (o .removeBck) (cfg.bck n)
  openOp (o .reopen) (cfg.path n)

/-- `updateDatabaseOnFile`, libs/databases/infrastructure/files/application.go:503-576. A lock held by another process is a `fail` of `tryLock`. -/
def updateDatabaseOnFile (cfg : Cfg) (o : Pt → Fault) (c : Ctx) (r : Reference) : M (Conn × Nat) := do
  atomic (o .tryLock) (fun w => { w with fs := w.fs.touch (cfg.path c.name) })
  let off ← writeDestination cfg o c r
  backup cfg o c.name
  let conn ← swap cfg o c.name
  pure (conn, off)

/-- The outcome of `Commit` seen by the caller, the file system and the contexts. After a crash or a panic nobody can use
the contexts any more, whatever they are. -/
structure Committed where
  out : Out Unit
  fs : FS
  app : App

/-- The end of `Commit`, libs/databases/infrastructure/files/application.go:399-409: on success the context gets the new reference, offset and handle. On
failure its handle is left as the failed operations left it (it is the same `*os.File`). The pending contents stay. -/
def finish (fs : FS) (a : App) (id : Nat) (c : Ctx) (r : Reference) : Out (Conn × Nat) × World → Committed
  | (.ok (conn, off), w) => ⟨.ok (), w.fs, a.set id { c with conn := conn, reference := some r, dataOffset := off }⟩
  | (.err, w) => ⟨.err, w.fs, a.set id { c with conn := w.conn }⟩
  | (.panic, w) => ⟨.panic, w.fs, a.set id { c with conn := w.conn }⟩
  | (.crash, w) => ⟨.crash, w.fs, a.set id { c with conn := w.conn }⟩
  | (.hang, w) => ⟨.hang, w.fs, a.set id { c with conn := w.conn }⟩

/-- `Commit`, libs/databases/infrastructure/files/application.go:391-414. -/
def commit (cfg : Cfg) (o : Pt → Fault) (now : Int) (fs : FS) (a : App) (id : Nat) : Committed :=
  match a.get id with
  | none => ⟨.err, fs, a⟩
  | some c =>
    match updateReference cfg c now with
    | .err => ⟨.err, fs, a⟩
    | .panic => ⟨.panic, fs, a⟩
    | .ok r => finish fs a id c r ((updateDatabaseOnFile cfg o c r).run ⟨fs, c.conn⟩)

/-- No fault anywhere. -/
def calm : Pt → Fault := fun _ => .none

end DB
end Rodkina
