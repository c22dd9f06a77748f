import Verif.Sessions
/-!
# What is claimed about processes working at the same time
-/

namespace Rodkina
namespace DB

open Ref

/-- The program names only databases of `N`. -/
def Session.Uses {α : Type} (N : Name → Prop) : Session α → Prop
  | .done _ => True
  | .exists' n k => N n ∧ ∀ r, (k r).Uses N
  | .new n k => N n ∧ ∀ r, (k r).Uses N
  | .delete n k => N n ∧ ∀ r, (k r).Uses N
  | .open' n k => N n ∧ ∀ r, (k r).Uses N
  | .keys _ k => ∀ r, (k r).Uses N
  | .commits _ k => ∀ r, (k r).Uses N
  | .read _ _ k => ∀ r, (k r).Uses N
  | .write _ _ _ _ k => ∀ r, (k r).Uses N
  | .cancel _ k => ∀ r, (k r).Uses N
  | .commit _ _ k => ∀ r, (k r).Uses N
  | .close _ k => ∀ r, (k r).Uses N

/-- The files of the databases of `N`: the database, the file a commit writes and the backup
(libs/databases/infrastructure/files/application.go:523-524, 556-557). -/
def Cfg.Owns (cfg : Cfg) (N : Name → Prop) (p : Name) : Prop :=
  ∃ n, N n ∧ (p = cfg.path n ∨ p = cfg.dst n ∨ p = cfg.bck n)

/-- What the program computes and the files it leaves when its calls are executed one after the other and nothing else happens;
`none` when a call panics or does not return. -/
def Session.seq {α : Type} (cfg : Cfg) : Session α → FS → App → Option α × FS
  | .done a, fs, _ => (some a, fs)
  | .exists' n k, fs, a => (k (DB.exists' cfg fs n)).seq cfg fs a
  | .new n k, fs, a =>
    match DB.new' cfg fs n with
    | .ok fs' => (k true).seq cfg fs' a
    | .err => (k false).seq cfg fs a
    | .panic => (none, fs)
  | .delete n k, fs, a =>
    match DB.delete' cfg fs n with
    | .ok fs' => (k true).seq cfg fs' a
    | .err => (k false).seq cfg fs a
    | .panic => (none, fs)
  | .open' n k, fs, a =>
    match DB.open' cfg fs a n with
    | .ok (id, a') => (k (some id)).seq cfg fs a'
    | .err => (k none).seq cfg fs a
    | .panic => (none, fs)
  | .keys id k, fs, a => (k (DB.contentKeys a id)).seq cfg fs a
  | .commits id k, fs, a => (k (DB.commits a id)).seq cfg fs a
  | .read id p k, fs, a =>
    match DB.read fs a id p with
    | .ok b => (k (some b)).seq cfg fs a
    | .err => (k none).seq cfg fs a
    | .panic => (none, fs)
  | .write id h data kind k, fs, a =>
    match DB.write a id h data kind with
    | .ok a' => (k true).seq cfg fs a'
    | .err => (k false).seq cfg fs a
    | .panic => (none, fs)
  | .cancel id k, fs, a =>
    match DB.cancel a id with
    | .ok a' => (k true).seq cfg fs a'
    | .err => (k false).seq cfg fs a
    | .panic => (none, fs)
  | .commit id now k, fs, a =>
    match (DB.commit cfg calm now fs a id).out with
    | .ok () => (k true).seq cfg (DB.commit cfg calm now fs a id).fs (DB.commit cfg calm now fs a id).app
    | .err => (k false).seq cfg (DB.commit cfg calm now fs a id).fs (DB.commit cfg calm now fs a id).app
    | _ => (none, (DB.commit cfg calm now fs a id).fs)
  | .close id k, fs, a =>
    match DB.close a id with
    | .ok a' => (k true).seq cfg fs a'
    | .err => (k false).seq cfg fs a
    | .panic => (none, fs)

/-- Whenever the program opens a database the file has fewer than 2^63 bytes. -/
def Session.Small {α : Type} (cfg : Cfg) : Session α → FS → App → Prop
  | .done _, _, _ => True
  | .exists' n k, fs, a => (k (DB.exists' cfg fs n)).Small cfg fs a
  | .new n k, fs, a =>
    match DB.new' cfg fs n with
    | .ok fs' => (k true).Small cfg fs' a
    | .err => (k false).Small cfg fs a
    | .panic => True
  | .delete n k, fs, a =>
    match DB.delete' cfg fs n with
    | .ok fs' => (k true).Small cfg fs' a
    | .err => (k false).Small cfg fs a
    | .panic => True
  | .open' n k, fs, a =>
    (∀ b, fs.file (cfg.path n) = some b → b.length < 2 ^ 63) ∧
    match DB.open' cfg fs a n with
    | .ok (id, a') => (k (some id)).Small cfg fs a'
    | .err => (k none).Small cfg fs a
    | .panic => True
  | .keys id k, fs, a => (k (DB.contentKeys a id)).Small cfg fs a
  | .commits id k, fs, a => (k (DB.commits a id)).Small cfg fs a
  | .read id p k, fs, a =>
    match DB.read fs a id p with
    | .ok b => (k (some b)).Small cfg fs a
    | .err => (k none).Small cfg fs a
    | .panic => True
  | .write id h data kind k, fs, a =>
    match DB.write a id h data kind with
    | .ok a' => (k true).Small cfg fs a'
    | .err => (k false).Small cfg fs a
    | .panic => True
  | .cancel id k, fs, a =>
    match DB.cancel a id with
    | .ok a' => (k true).Small cfg fs a'
    | .err => (k false).Small cfg fs a
    | .panic => True
  | .commit id now k, fs, a =>
    match (DB.commit cfg calm now fs a id).out with
    | .ok () => (k true).Small cfg (DB.commit cfg calm now fs a id).fs (DB.commit cfg calm now fs a id).app
    | .err => (k false).Small cfg (DB.commit cfg calm now fs a id).fs (DB.commit cfg calm now fs a id).app
    | _ => True
  | .close id k, fs, a =>
    match DB.close a id with
    | .ok a' => (k true).Small cfg fs a'
    | .err => (k false).Small cfg fs a
    | .panic => True

end DB
end Rodkina
