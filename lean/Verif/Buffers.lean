import Verif.Snapshot
import Verif.Memory
/-!
# The buffers given to `Write`

`Database` takes the data given to `Write` by value. The code keeps the caller's slice
(libs/databases/domain/contents/content_builder.go:36-40, libs/databases/domain/contents/content.go:11-23) and looks at its bytes when it commits, so what is
stored also depends on what the caller does with the buffer in between. Here the buffers are slices in memory and the caller may
write to memory. Simplified: a hash, which is a slice of bytes too, is taken by value.
-/

namespace Rodkina
namespace DB

open Ref

/-- A pending content with the slice it was given, libs/databases/domain/contents/content.go:5-9. -/
structure Held where
  hash : Bytes
  data : Mem.Ptr
  kind : Nat

/-- What a pending content is when the commit looks at it (`Data()`, libs/databases/domain/contents/content.go:30-33, called at
libs/databases/infrastructure/files/application.go:469 and 644). -/
def Held.now (h : Mem.Heap UInt8) (x : Held) : Content := ⟨x.hash, Mem.read h x.data, x.kind⟩

/-- The caller's memory, the files, the contexts and, for each context, its pending contents (the field `contentList`,
libs/databases/infrastructure/files/context.go:18). The field `contentList` of the contexts in `app` is not used. -/
structure Buffered where
  heap : Mem.Heap UInt8
  fs : FS
  app : App
  held : Nat → List Held

/-- The contexts with other pending contents (libs/databases/infrastructure/files/context.go:18). -/
def fill (f : Nat → List Content) (a : App) : App := a.map (fun e => (e.1, { e.2 with contentList := f e.1 }))

/-- The contexts as a commit finds them: the pending contents have the bytes that are in memory now
(libs/databases/infrastructure/files/application.go:467-469 and 643-644). -/
def Buffered.view (s : Buffered) : App := fill (fun id => (s.held id).map (Held.now s.heap)) s.app

/-- What a program does: the calls of the `Application` interface (libs/databases/applications/sdk.go:15-47), with slices for data;
and making an array and writing one byte of an array. -/
inductive BCall where
  | new (n : Name)
  | delete (n : Name)
  | open' (n : Name)
  | close (id : Nat)
  | write (id : Nat) (hash : Bytes) (data : Mem.Ptr) (kind : Nat)
  | cancel (id : Nat)
  | commit (id : Nat) (o : Pt → Fault) (now : Int)
  | readByHash (id : Nat) (hash : Bytes)
  | restart
  | alloc (bytes : Bytes)
  | store (arr i : Nat) (b : UInt8)

/-- Writing one byte of an array (Go's memory, not code of the repository). -/
def poke (h : Mem.Heap UInt8) (arr i : Nat) (b : UInt8) : Mem.Heap UInt8 := h.set arr ((h.getD arr []).set i b)

/-- The state after a step, whatever its outcome: libs/databases/infrastructure/files/application.go:90-166, 290-329, 362-414, 700-713. `Read` makes a new array
(294). A call other than `Commit` that returns an error changes nothing. -/
def BCall.run (cfg : Cfg) (s : Buffered) : BCall → Buffered
  | .new n =>
    match new' cfg s.fs n with
    | .ok fs' => { s with fs := fs' }
    | _ => s
  | .delete n =>
    match delete' cfg s.fs n with
    | .ok fs' => { s with fs := fs' }
    | _ => s
  | .open' n =>
    match DB.open' cfg s.fs s.app n with
    | .ok (id, a') => { s with app := a', held := upd s.held id [] }
    | _ => s
  | .close id =>
    match DB.close s.app id with
    | .ok a' => { s with app := a', held := upd s.held id [] }
    | _ => s
  | .write id hash data kind =>
    match s.app.get id with
    | none => s
    | some c =>
      if data.len = 0 then s
      else { s with app := s.app.set id c, held := upd s.held id (s.held id ++ [⟨hash, data, kind⟩]) }
  | .cancel id =>
    match s.app.get id with
    | none => s
    | some c => { s with app := s.app.set id c, held := upd s.held id [] }
  | .commit id o now =>
    { s with fs := (DB.commit cfg o now s.fs s.view id).fs, app := (DB.commit cfg o now s.fs s.view id).app }
  | .readByHash id hash =>
    match DB.readByHash s.fs s.app id hash with
    | .ok bytes => { s with heap := s.heap ++ [bytes] }
    | _ => s
  | .restart => { s with app := [], held := fun _ => [] }
  | .alloc bytes => { s with heap := s.heap ++ [bytes] }
  | .store arr i b => { s with heap := poke s.heap arr i b }

/-- A program that uses an application, step by step (`run` for each call of libs/databases/applications/sdk.go:15-47). -/
def Buffered.run (cfg : Cfg) (s : Buffered) (L : List BCall) : Buffered := L.foldl (fun s x => x.run cfg s) s

end DB
end Rodkina
