import Verif.Goroutines
import Verif.SessionsSpec
/-!
# What is claimed about goroutines sharing an application
-/

namespace Rodkina
namespace DB

open Ref

/-- The first call of a program, with nothing else happening: what is left of the program, the files and the contexts. -/
def Session.call {α : Type} (cfg : Cfg) : Session α → FS → App → Out (Session α × FS × App)
  | .done x, fs, a => .ok (.done x, fs, a)
  | .exists' n k, fs, a => .ok (k (DB.exists' cfg fs n), fs, a)
  | .new n k, fs, a =>
    match DB.new' cfg fs n with
    | .ok fs' => .ok (k true, fs', a)
    | .err => .ok (k false, fs, a)
    | .panic => .panic
  | .delete n k, fs, a =>
    match DB.delete' cfg fs n with
    | .ok fs' => .ok (k true, fs', a)
    | .err => .ok (k false, fs, a)
    | .panic => .panic
  | .open' n k, fs, a =>
    match DB.open' cfg fs a n with
    | .ok (id, a') => .ok (k (some id), fs, a')
    | .err => .ok (k none, fs, a)
    | .panic => .panic
  | .keys id k, fs, a => .ok (k (DB.contentKeys a id), fs, a)
  | .commits id k, fs, a => .ok (k (DB.commits a id), fs, a)
  | .read id p k, fs, a =>
    match DB.read fs a id p with
    | .ok b => .ok (k (some b), fs, a)
    | .err => .ok (k none, fs, a)
    | .panic => .panic
  | .write id h data kind k, fs, a =>
    match DB.write a id h data kind with
    | .ok a' => .ok (k true, fs, a')
    | .err => .ok (k false, fs, a)
    | .panic => .panic
  | .cancel id k, fs, a =>
    match DB.cancel a id with
    | .ok a' => .ok (k true, fs, a')
    | .err => .ok (k false, fs, a)
    | .panic => .panic
  | .commit id now k, fs, a =>
    match (DB.commit cfg calm now fs a id).out with
    | .ok () => .ok (k true, (DB.commit cfg calm now fs a id).fs, (DB.commit cfg calm now fs a id).app)
    | .err => .ok (k false, (DB.commit cfg calm now fs a id).fs, (DB.commit cfg calm now fs a id).app)
    | .hang => .hang
    | _ => .panic
  | .close id k, fs, a =>
    match DB.close a id with
    | .ok a' => .ok (k true, fs, a')
    | .err => .ok (k false, fs, a)
    | .panic => .panic

/-- Several programs whose calls are executed one after the other: the files, the contexts, and what is left of each program. -/
structure Serial (α : Type) where
  fs : FS
  app : App
  tasks : Nat → Session α

/-- The next call of program `g`. -/
def Serial.step {α : Type} (cfg : Cfg) (s : Serial α) (g : Nat) : Out (Serial α) :=
  match (s.tasks g).call cfg s.fs s.app with
  | .ok (x, fs, a) => .ok ⟨fs, a, upd s.tasks g x⟩
  | .err => .err
  | .panic => .panic
  | .crash => .crash
  | .hang => .hang

/-- Calls in this order. -/
def Serial.run {α : Type} (cfg : Cfg) : Serial α → List Nat → Out (Serial α)
  | s, [] => .ok s
  | s, g :: gs =>
    match s.step cfg g with
    | .ok s' => s'.run cfg gs
    | .err => .err
    | .panic => .panic
    | .crash => .crash
    | .hang => .hang

/-- When the first call opens a database, its file has fewer than 2^63 bytes. -/
def Session.NextSmall {α : Type} (cfg : Cfg) : Session α → FS → Prop
  | .open' n _, fs => ∀ b, fs.file (cfg.path n) = some b → b.length < 2 ^ 63
  | _, _ => True

/-- The program only asks: whether databases exist, content keys, commits and contents. -/
def Session.Reads {α : Type} : Session α → Prop
  | .done _ => True
  | .exists' _ k => ∀ r, (k r).Reads
  | .keys _ k => ∀ r, (k r).Reads
  | .commits _ k => ∀ r, (k r).Reads
  | .read _ _ k => ∀ r, (k r).Reads
  | _ => False

/-- The program leaves the map of contexts alone: it asks, creates and deletes databases of `N`, and commits; of the open databases
it uses those with the identifiers `I`. -/
def Session.Stays {α : Type} (I : Nat → Prop) (N : Name → Prop) : Session α → Prop
  | .done _ => True
  | .exists' n k => N n ∧ ∀ r, (k r).Stays I N
  | .new n k => N n ∧ ∀ r, (k r).Stays I N
  | .delete n k => N n ∧ ∀ r, (k r).Stays I N
  | .keys id k => I id ∧ ∀ r, (k r).Stays I N
  | .commits id k => I id ∧ ∀ r, (k r).Stays I N
  | .read id _ k => I id ∧ ∀ r, (k r).Stays I N
  | .commit id _ k => I id ∧ ∀ r, (k r).Stays I N
  | _ => False

namespace Go

/-- The contexts in memory, by identifier. -/
def Mem.app (m : Mem) : App := m.table.map (fun e => (e.1, m.heap e.2))

/-- Identifiers and contexts in memory belong together one to one; no map access is going on; no file is locked. -/
structure Mem.OK (m : Mem) : Prop where
  pointers : (m.table.map (·.2)).Nodup
  keys : (m.table.map (·.1)).Nodup
  below : ∀ e ∈ m.table, e.2 < m.next
  idle : m.writer = none
  unlocked : m.shared.locks = fun _ => none

/-- Whether the next access of goroutine `g` unlocks the mutex. -/
def System.releases {α : Type} (s : System α) (g : Nat) : Bool :=
  match s.threads g with
  | .op .unlock _ => true
  | _ => false

/-- The goroutines that have unlocked the mutex in a schedule, in that order. -/
def System.turns {α : Type} : System α → List Nat → List Nat
  | _, [] => []
  | s, g :: gs =>
    match s.step g with
    | none => []
    | some s' => if s.releases g then g :: s'.turns gs else s'.turns gs

end Go
end DB
end Rodkina
