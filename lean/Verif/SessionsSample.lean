import Verif.SessionsJoin
import Verif.SessionsAlone
import Verif.DatabaseSample
/-!
# A process that runs without interruption; sample programs
-/

namespace Rodkina
namespace DB

open Ref

/-! ## A process that runs without interruption -/

/-- How many operations a program performs alone. -/
def steps {α : Type} (pid : Nat) : Prog α → Shared → Nat
  | .ret _, _ => 0
  | .op o k, s => steps pid (k (exec pid o s).1) (exec pid o s).2 + 1

theorem run_replicate {α : Type} (p : Nat) (n : Nat) : ∀ t : Procs α, steps p (t.threads p) t.shared ≤ n →
    t.run (List.replicate n p) = ⟨(alone p (t.threads p) t.shared).2, upd t.threads p (.ret (alone p (t.threads p) t.shared).1)⟩ := by
  induction n with
  | zero =>
    intro t h
    cases hx : t.threads p with
    | op o k => rw [hx] at h; simp [steps] at h
    | ret a =>
      have e : upd t.threads p (Prog.ret a) = t.threads := by
        funext x
        by_cases e : x = p
        · subst e; rw [upd_self, hx]
        · rw [upd_ne _ _ e]
      simp only [alone, e]
      rfl
  | succ n ih =>
    intro t h
    rw [List.replicate_succ]
    show (t.step p).run (List.replicate n p) = _
    rw [Procs.step_eq]
    cases hx : t.threads p with
    | ret a =>
      simp only [Prog.step]
      rw [ih _ (by simp only [upd_self, steps]; omega)]
      simp only [upd_self, alone]
      congr 1
      funext x
      by_cases e : x = p
      · subst e; rw [upd_self, upd_self]
      · rw [upd_ne _ _ e, upd_ne _ _ e]
    | op o k =>
      rw [hx] at h
      simp only [steps] at h
      simp only [Prog.step]
      rw [ih _ (by simp only [upd_self]; omega)]
      simp only [upd_self, alone]
      congr 1
      funext x
      by_cases e : x = p
      · subst e; rw [upd_self, upd_self]
      · rw [upd_ne _ _ e, upd_ne _ _ e, upd_ne _ _ e]

theorem alone_run {α : Type} (p : Nat) (n : Nat) : ∀ t : Procs α,
    alone p ((t.run (List.replicate n p)).threads p) (t.run (List.replicate n p)).shared = alone p (t.threads p) t.shared := by
  induction n with
  | zero => intro t; rfl
  | succ n ih =>
    intro t
    rw [List.replicate_succ]
    show alone p (((t.step p).run (List.replicate n p)).threads p) ((t.step p).run (List.replicate n p)).shared = _
    rw [ih, Procs.step_eq]
    simp only [upd_self]
    cases t.threads p <;> rfl

/-! ## Sample programs -/

/-- Create the database "a", write a content and commit it; `true` when all of this succeeded. -/
def storeX : Session Bool :=
  .new ['a'] fun ok => if ok then
    .open' ['a'] fun id =>
      match id with
      | none => .done false
      | some id => .write id contentX.hash contentX.data contentX.kind fun ok => if ok then .commit id 5 fun ok => .done ok else .done false
  else .done false

theorem storeX_seq (S : Sha) : storeX.seq (sampleCfg S 10000) fs0 [] = (some true, (sCommitted S 10000).fs) := by
  obtain ⟨h, _⟩ := sWritten_commit S 10000 True
  have e1 : DB.new' (sampleCfg S 10000) fs0 ['a'] = .ok (fs0.create ['a']) := rfl
  have e2 : DB.open' (sampleCfg S 10000) (fs0.create ['a']) [] ['a'] = .ok (0, sOpen.app) := rfl
  have e3 : DB.write sOpen.app 0 contentX.hash contentX.data contentX.kind = .ok sWritten.app := rfl
  unfold storeX
  simp only [Session.seq, e1, if_true, e2, e3]
  rw [show fs0.create ['a'] = sWritten.fs from rfl, h]
  rfl

theorem storeX_small (S : Sha) : storeX.Small (sampleCfg S 10000) fs0 [] := by
  have e1 : DB.new' (sampleCfg S 10000) fs0 ['a'] = .ok (fs0.create ['a']) := rfl
  have e2 : DB.open' (sampleCfg S 10000) (fs0.create ['a']) [] ['a'] = .ok (0, sOpen.app) := rfl
  have e3 : DB.write sOpen.app 0 contentX.hash contentX.data contentX.kind = .ok sWritten.app := rfl
  have e4 : (fs0.create ['a']).file ((sampleCfg S 10000).path ['a']) = some [] := rfl
  unfold storeX
  simp only [Session.Small, e1, if_true, e2, e3, e4]
  refine ⟨fun b hb => by cases hb; decide, ?_⟩
  split <;> trivial

/-- The same as `storeX` for any name, and then the content keys. -/
def storeIn (n : Name) : Session (Res ContentKeys) :=
  .new n fun _ => .open' n fun id =>
    match id with
    | none => .done .err
    | some id => .write id contentX.hash contentX.data contentX.kind fun _ => .commit id 5 fun _ => .keys id fun r => .done r

end DB
end Rodkina
