import Verif.Snapshot
import Verif.Memory
/-!
# The lists of commits that are handed out

`Database` takes the list of the commits of an open database by value. `Commits(context).List()` returns the slice that the open
context itself holds (libs/databases/infrastructure/files/application.go:275-287, libs/databases/domain/references/commits.go:28-30), and a
commit appends to that slice (libs/databases/infrastructure/files/application.go:443-448), into its array if there is room. Here the
lists are slices in memory and the caller may write to memory. Simplified: the commits in a list are taken by value, and the lists of
content keys too, which are never handed out (`ContentKeysByKind` makes a new list,
libs/databases/infrastructure/files/application.go:233-246).
-/

namespace Rodkina
namespace DB

open Ref

/-- Some commit, to fill the room of a new array; in Go it is nil (libs/databases/infrastructure/files/application.go:448). -/
instance : Inhabited Commit := ⟨⟨[], ⟨[], .base [], .base []⟩, 0, none, none⟩⟩

/-- Memory, the files, the contexts and, for each context, the slice that the commits of its reference hold (the field `list`,
libs/databases/domain/references/commits.go:12; none if the context has no reference). The field `list` of the commits in `app` is not
used. -/
structure Handed where
  heap : Mem.Heap Commit
  fs : FS
  app : App
  lists : Nat → Option Mem.Ptr

/-- A context with another list of commits, the map by hash being the same (libs/databases/domain/references/commits.go:10-13). -/
def Ctx.relist (l : List Commit) (c : Ctx) : Ctx :=
  { c with reference := c.reference.map (fun r => ⟨r.contentKeys, ⟨r.commits.mp, l⟩⟩) }

/-- The commits in the list of a context, as they are in memory now (libs/databases/domain/references/commits.go:28-35). -/
def Handed.listed (s : Handed) (id : Nat) : List Commit :=
  match s.lists id with
  | some p => Mem.read s.heap p
  | none => []

/-- The contexts as a call finds them: the lists have the commits that are in memory now
(libs/databases/infrastructure/files/application.go:420, 444-446). -/
def Handed.view (s : Handed) : App := s.app.map (fun e => (e.1, e.2.relist (s.listed e.1)))

/-- The commit that `updateReference` makes, libs/databases/infrastructure/files/application.go:417-440. -/
def newCommit (cfg : Cfg) (c : Ctx) (now : Int) : Res Commit := do
  let parent ← latestHash c.reference
  let values ← HashTree.build cfg.S (some (c.contentList.map (·.hash)))
  pure (commitNow cfg.S cfg.miningValue values now parent none)

/-- What a program does: the calls of the `Application` interface (libs/databases/applications/sdk.go:15-47) that can change something,
making an array of commits, and writing one element of an array. `append` to a slice with room is such a write. -/
inductive HCall where
  | call (x : Call)
  | alloc (l : List Commit)
  | store (arr i : Nat) (x : Commit)

/-- The slice that a commit appends to: that of the context or, without reference, a new empty one
(libs/databases/infrastructure/files/application.go:443-446). -/
def Handed.base (s : Handed) (id : Nat) : Mem.Heap Commit × Mem.Ptr :=
  match s.lists id with
  | some p => (s.heap, p)
  | none => (s.heap ++ [[]], ⟨s.heap.length, 0, 0, 0⟩)

/-- `Commit`, libs/databases/infrastructure/files/application.go:391-414: the new commit is appended (448) before anything can fail after
it has been made; the context gets the new slice only if everything succeeds (402). -/
def Handed.commit (cfg : Cfg) (grow : Nat → Nat) (s : Handed) (id : Nat) (o : Pt → Fault) (now : Int) : Handed :=
  match s.view.get id with
  | none => s
  | some c =>
    let res := DB.commit cfg o now s.fs s.view id
    match newCommit cfg c now with
    | .ok x =>
      let a := Mem.push grow (s.base id).1 (s.base id).2 x
      match res.out with
      | .ok () => ⟨a.1, res.fs, res.app, upd s.lists id (some a.2)⟩
      | _ => ⟨a.1, res.fs, res.app, s.lists⟩
    | _ => ⟨s.heap, res.fs, res.app, s.lists⟩

/-- `Open`, libs/databases/infrastructure/files/application.go:134-166: the list is read from the file into a new array
(libs/databases/domain/references/commits_adapter.go:54-72). Simplified: only the last of the arrays that the appends there make. -/
def Handed.open' (cfg : Cfg) (grow : Nat → Nat) (s : Handed) (n : Name) : Handed :=
  match DB.open' cfg s.fs s.app n with
  | .ok (id, a') =>
    match (a'.get id).bind (·.reference) with
    | none => ⟨s.heap, s.fs, a', upd s.lists id none⟩
    | some r =>
      let l := r.commits.list
      ⟨s.heap ++ [l ++ List.replicate (grow l.length) default], s.fs, a',
        upd s.lists id (some ⟨s.heap.length, 0, l.length, l.length + grow l.length⟩)⟩
  | _ => s

/-- Writing one element of an array (Go's memory, not code of the repository). -/
def Handed.store (s : Handed) (arr i : Nat) (x : Commit) : Handed :=
  { s with heap := s.heap.set arr ((s.heap.getD arr []).set i x) }

/-- The state after a step, whatever its outcome: libs/databases/infrastructure/files/application.go:90-166, 362-414, 700-713. The calls
other than `Open`, `Commit` and `Close` do not look at the lists. `grow` says how much room `append` leaves in a new array. -/
def HCall.run (cfg : Cfg) (grow : Nat → Nat) (s : Handed) : HCall → Handed
  | .call (.open' n) => s.open' cfg grow n
  | .call (.commit id o now) => s.commit cfg grow id o now
  | .call (.close id) =>
    match DB.close s.app id with
    | .ok a' => { s with app := a', lists := upd s.lists id none }
    | _ => s
  | .call .restart => { s with app := [], lists := fun _ => none }
  | .call x => { s with fs := (x.run cfg s.fs s.app).1, app := (x.run cfg s.fs s.app).2 }
  | .alloc l => { s with heap := s.heap ++ [l] }
  | .store arr i x => s.store arr i x

/-- A program that uses an application, step by step (`run` for each call of libs/databases/applications/sdk.go:15-47). -/
def Handed.run (cfg : Cfg) (grow : Nat → Nat) (s : Handed) (L : List HCall) : Handed := L.foldl (fun s x => x.run cfg grow s) s

end DB
end Rodkina
