import Verif.Database
/-!
# Several applications on the same files, one call at a time

A commit may stop or fail at any of its file operations (the fault oracle of `Database`), so every state of the files in the
middle of a commit is a state of the files after some call.
-/

namespace Rodkina
namespace DB

open Ref

/-- The calls of the `Application` interface (libs/databases/applications/sdk.go:15-47) that can change something, and the
end of the process. `o` says
what happens at each file operation of the commit, `now` what the clock shows. -/
inductive Call where
  | new (n : Name)
  | delete (n : Name)
  | open' (n : Name)
  | close (id : Nat)
  | write (id : Nat) (hash data : Bytes) (kind : Nat)
  | cancel (id : Nat)
  | commit (id : Nat) (o : Pt → Fault) (now : Int)
  | restart

/-- The files and contexts after a call, whatever its outcome (libs/databases/infrastructure/files/application.go:90-166, 362-414, 700-713 in
libs/databases/infrastructure/files): a call other than `Commit` that returns an error changes nothing. -/
def Call.run (cfg : Cfg) (fs : FS) (a : App) : Call → FS × App
  | .new n =>
    match new' cfg fs n with
    | .ok fs' => (fs', a)
    | _ => (fs, a)
  | .delete n =>
    match delete' cfg fs n with
    | .ok fs' => (fs', a)
    | _ => (fs, a)
  | .open' n =>
    match DB.open' cfg fs a n with
    | .ok (_, a') => (fs, a')
    | _ => (fs, a)
  | .close id =>
    match DB.close a id with
    | .ok a' => (fs, a')
    | _ => (fs, a)
  | .write id hash data kind =>
    match DB.write a id hash data kind with
    | .ok a' => (fs, a')
    | _ => (fs, a)
  | .cancel id =>
    match DB.cancel a id with
    | .ok a' => (fs, a')
    | _ => (fs, a)
  | .commit id o now => ((DB.commit cfg o now fs a id).fs, (DB.commit cfg o now fs a id).app)
  | .restart => (fs, [])

/-- The files, and the contexts of each application (each with its own `contexts`,
libs/databases/infrastructure/files/application.go:36). -/
structure Multi where
  fs : FS
  apps : Nat → App

/-- Application `k` makes a call; each application has its own parameters. -/
def Multi.call (cfg : Nat → Cfg) (s : Multi) (k : Nat) (x : Call) : Multi :=
  ⟨(x.run (cfg k) s.fs (s.apps k)).1, upd s.apps k (x.run (cfg k) s.fs (s.apps k)).2⟩

/-- A history: who calls what. -/
def Multi.run (cfg : Nat → Cfg) (s : Multi) (L : List (Nat × Call)) : Multi := L.foldl (fun s x => s.call cfg x.1 x.2) s

/-- Specification: the call only names these databases. -/
def Call.Names (names : Name → Prop) : Call → Prop
  | .new n => names n
  | .delete n => names n
  | .open' n => names n
  | _ => True

/-- Specification: the call neither closes nor commits the context `id`, nor ends the process, nor opens a database under the
identifier `id`. -/
def Call.Spares (cfg : Cfg) (fs : FS) (a : App) (id : Nat) : Call → Prop
  | .close j => j ≠ id
  | .commit j _ _ => j ≠ id
  | .restart => False
  | .open' n => ∀ a', DB.open' cfg fs a n ≠ .ok (id, a')
  | _ => True

/-- Specification: in this history the application `k` itself spares its context `id`; the other applications do as they like. -/
def SparesAll (cfg : Nat → Cfg) (k id : Nat) : Multi → List (Nat × Call) → Prop
  | _, [] => True
  | s, x :: L => (x.1 = k → x.2.Spares (cfg k) s.fs (s.apps k) id) ∧ SparesAll cfg k id (s.call cfg x.1 x.2) L

/-- Specification: the files of databases are not the temporary files of any commit of any application. -/
structure Apart (cfg : Nat → Cfg) (names : Name → Prop) : Prop where
  dst : ∀ k l n m, names n → names m → (cfg k).path n ≠ (cfg l).dst m
  bck : ∀ k l n m, names n → names m → (cfg k).path n ≠ (cfg l).bck m
  scratch : ∀ k n, names n → (cfg k).dst n ≠ (cfg k).bck n

end DB
end Rodkina
