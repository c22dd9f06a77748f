import Verif.ConcurrentLemmas
import Verif.DatabaseSample
/-!
# C93: commits that overlap in time
-/

namespace Rodkina
namespace Props

open DB Ref

/-! ### Samples -/

/-- A new, empty database "db", opened by everyone. -/
def emptyDbFs (cfg : Cfg) : FS := ⟨upd (fun _ => none) (cfg.path ['d', 'b']) (some 0), fun _ => [], 1⟩

/-- A context opened on it, with one pending content. -/
def emptyDbCtx (x : Content) : Ctx := ⟨['d', 'b'], ⟨0, 0, true⟩, none, 0, [x]⟩

/-- Process 0 and process 1 commit, the others do nothing. -/
def twoClients (a b : Client) : Nat → Client := fun p => if p = 0 then a else if p = 1 then b else .done

/-- 0 commits up to the moment it has removed the database file; 1 opens the file for the lock, gets the lock and starts to
write; 0 does the rest; 1 does the rest. -/
def overlap : List Nat := List.replicate 9 0 ++ [1, 1, 1] ++ List.replicate 4 0 ++ List.replicate 8 1

/-- C93 is false of the code: the lock is on the file that is replaced. Whatever two processes want to commit to a new database,
there is a schedule in which both hold a lock at the same time, the first is told its commit succeeded, and in the end there is
no database file. -/
theorem C93_negation (cfg : Cfg) (n1 : cfg.path ['d', 'b'] ≠ cfg.dst ['d', 'b']) (n2 : cfg.path ['d', 'b'] ≠ cfg.bck ['d', 'b'])
    (n3 : cfg.dst ['d', 'b'] ≠ cfg.bck ['d', 'b']) (rA rB : Reference) (x y : Content) (kA kB : Out (Conn × Nat) → Client) :
    let start := System.start cfg (emptyDbFs cfg)
      (twoClients (.commit (emptyDbCtx x) rA kA) (.commit (emptyDbCtx y) rB kB))
    let middle := start.run (overlap.take 12)
    let final := start.run overlap
    (middle.shared.locks 0 = some 0 ∧ middle.shared.locks 3 = some 1) ∧
    final.threads 0 = (kA (.ok (⟨1, 0, true⟩, (refData rA).length))).prog cfg ∧
    final.threads 1 = (kB .err).prog cfg ∧
    final.shared.fs.dir (cfg.path ['d', 'b']) = none := by
  intro start middle final
  have e : start = ⟨⟨emptyDbFs cfg, fun _ => none⟩, fun p =>
      if p = 0 then .op (.lockOpen (cfg.path ['d', 'b'])) (fun (i : Nat) =>
        .op (.flock i) (fun (got : Bool) =>
          (if got then (bodyProg cfg (emptyDbCtx x) rA).bind (unlockProg i) else .ret .err).bind (andThen cfg kA)))
      else if p = 1 then .op (.lockOpen (cfg.path ['d', 'b'])) (fun (i : Nat) =>
        .op (.flock i) (fun (got : Bool) =>
          (if got then (bodyProg cfg (emptyDbCtx y) rB).bind (unlockProg i) else .ret .err).bind (andThen cfg kB)))
      else .ret ()⟩ := by
    simp only [start, System.start]
    congr 1
    funext p
    unfold twoClients
    by_cases h0 : p = 0
    · simp only [h0, if_true]
      rw [prog_commit]
      rfl
    · by_cases h1 : p = 1
      · subst h1
        simp only [if_true, if_false, one_ne_zero]
        rw [prog_commit]
        rfl
      · simp only [h0, h1, if_false]
        rw [Client.prog]
  simp only [middle, final]
  rw [e]
  generalize hp : cfg.path ['d', 'b'] = p at *
  generalize hd : cfg.dst ['d', 'b'] = d at *
  generalize hb : cfg.bck ['d', 'b'] = b at *
  have m1 := n1.symm
  have m2 := n2.symm
  have m3 := n3.symm
  refine ⟨⟨?_, ?_⟩, ?_, ?_, ?_⟩ <;>
  simp [overlap, System.run, System.step, exec, upd, emptyDbFs, emptyDbCtx, FS.touch, FS.create, FS.createIno, FS.write,
    FS.remove, FS.rename, bodyProg, destinationProg, copyOldProg, contentsProg, backupProg, swapProg, Prog.next, Prog.bind,
    unlockProg, andThen, List.replicate, hp, hd, hb, n1, n2, n3, m1, m2, m3]

/-- The hypotheses of `C93_negation` hold for the usual file names. -/
example (S : Sha) (n : Nat) : let cfg := sampleCfg S n
    cfg.path ['d', 'b'] ≠ cfg.dst ['d', 'b'] ∧ cfg.path ['d', 'b'] ≠ cfg.bck ['d', 'b'] ∧ cfg.dst ['d', 'b'] ≠ cfg.bck ['d', 'b'] := by
  simp [sampleCfg, Cfg.dst, Cfg.bck]

/-- C93, what does hold: if no process opens or locks the database file between the moment another has removed it and the moment
that one has unlocked, and none locks a file that has been replaced since it opened it, then at most one process holds a lock at any time (missing: the other schedules). -/
theorem C93_one_at_a_time_partial (cfg : Cfg) (n : Name) (h1 : cfg.path n ≠ cfg.dst n) (h2 : cfg.path n ≠ cfg.bck n) (fs : FS)
    (hfs : (fs.dir (cfg.path n)).isSome) (cs : Nat → Client) (hcs : ∀ p, (cs p).On n) (schedule : List Nat)
    (hu : Undisturbed (cfg.path n) (System.start cfg fs cs) schedule) (i j p q : Nat)
    (hi : ((System.start cfg fs cs).run schedule).shared.locks i = some p)
    (hj : ((System.start cfg fs cs).run schedule).shared.locks j = some q) : i = j ∧ p = q := by
  obtain ⟨fs', cl, h⟩ := explained_run h1 h2 schedule (explained_start hfs hcs) hu
  rcases h.now with hidle | ⟨p0, i0, c, r, k, x, hb⟩
  · rw [hidle.locks i] at hi
    cases hi
  · obtain ⟨a, b⟩ := (hb.locks i p).1 hi
    obtain ⟨a', b'⟩ := (hb.locks j q).1 hj
    exact ⟨a.trans a'.symm, b.trans b'.symm⟩

/-- C93, what does hold: under the same condition, any number of processes committing any contexts of one database any number of
times in any interleaving: whenever no lock is held, the files are what they are after some commits done one after the other,
and each process is where it is after these commits, with the outcomes they have; the database file exists. Together with the
theorems about single commits (C23, C24, C31, C66) this is what is stored (missing: the other schedules). -/
theorem C93_commits_one_after_the_other_partial (cfg : Cfg) (n : Name) (h1 : cfg.path n ≠ cfg.dst n) (h2 : cfg.path n ≠ cfg.bck n)
    (fs : FS) (hfs : (fs.dir (cfg.path n)).isSome) (cs : Nat → Client) (hcs : ∀ p, (cs p).On n) (schedule : List Nat)
    (hu : Undisturbed (cfg.path n) (System.start cfg fs cs) schedule)
    (hfree : ∀ i, ((System.start cfg fs cs).run schedule).shared.locks i = none) :
    ∃ cl : Nat → Client, AtomicSteps cfg (fs, cs) (((System.start cfg fs cs).run schedule).shared.fs, cl) ∧
      (∀ p, NotStarted cfg (cl p) (((System.start cfg fs cs).run schedule).threads p)) ∧
      (((System.start cfg fs cs).run schedule).shared.fs.dir (cfg.path n)).isSome := by
  obtain ⟨fs', cl, h⟩ := explained_run h1 h2 schedule (explained_start hfs hcs) hu
  rcases h.now with hidle | ⟨p0, i0, c, r, k, x, hb⟩
  · have hf := hidle.fs
    refine ⟨cl, ?_, hidle.threads, ?_⟩
    · rw [hf]
      exact h.steps
    · rw [hf]
      exact h.src
  · have := (hb.locks i0 p0).2 ⟨rfl, rfl⟩
    rw [hfree i0] at this
    cases this

theorem undisturbed_append (src : Name) (a b : List Nat) : ∀ s, Undisturbed src s (a ++ b) ↔
    Undisturbed src s a ∧ Undisturbed src (s.run a) b := by
  induction a with
  | nil => intro s; simp [Undisturbed, System.run]
  | cons p ps ih =>
    intro s
    simp only [List.cons_append, Undisturbed, ih, and_assoc]
    rfl

/-- Operations that do not try to lock. -/
def noLock : Op → Bool
  | .lockOpen _ => false
  | .flock _ => false
  | _ => true

theorem undisturbed_noLock (src : Name) (m p : Nat) : ∀ s : System, (s.threads p).All noLock →
    Undisturbed src s (List.replicate m p) := by
  induction m with
  | zero => intro s _; trivial
  | succ m ih =>
    intro s h
    refine ⟨?_, ih _ ?_⟩
    · unfold Undisturbing
      cases ht : s.threads p with
      | ret a => trivial
      | op o k =>
        rw [ht] at h
        have := h.1
        cases o <;> simp_all [noLock]
    · unfold System.step
      cases ht : s.threads p with
      | ret a => simp only [ht]; trivial
      | op o k =>
        rw [ht] at h
        dsimp only
        rw [upd_self]
        exact h.2 _

/-- 0 starts to commit; 1 tries and is refused; 0 finishes. -/
def inTurn : List Nat := [0, 0, 0, 1, 1] ++ List.replicate 10 0

/-- The hypotheses of the two theorems hold of two processes of which the second is refused while the first commits. -/
example (S : Sha) (rA rB : Reference) (x y : Content) :
    let cfg := sampleCfg S 4
    let cs := twoClients (.commit (emptyDbCtx x) rA fun _ => .done)
      (.commit (emptyDbCtx y) rB fun _ => .done)
    let start := System.start cfg (emptyDbFs cfg) cs
    cfg.path ['d', 'b'] ≠ cfg.dst ['d', 'b'] ∧ cfg.path ['d', 'b'] ≠ cfg.bck ['d', 'b'] ∧
    ((emptyDbFs cfg).dir (cfg.path ['d', 'b'])).isSome ∧ (∀ p, (cs p).On ['d', 'b']) ∧
    Undisturbed (cfg.path ['d', 'b']) start inTurn ∧ (start.run (inTurn.take 5)).shared.locks 0 = some 0 ∧
    ∀ i, (start.run inTurn).shared.locks i = none := by
  intro cfg cs start
  have n1 : cfg.path ['d', 'b'] ≠ cfg.dst ['d', 'b'] := by simp [cfg, sampleCfg, Cfg.dst]
  have n2 : cfg.path ['d', 'b'] ≠ cfg.bck ['d', 'b'] := by simp [cfg, sampleCfg, Cfg.bck]
  have n3 : cfg.dst ['d', 'b'] ≠ cfg.bck ['d', 'b'] := by simp [cfg, sampleCfg, Cfg.bck, Cfg.dst]
  have hon : ∀ p, (cs p).On ['d', 'b'] := by
    intro p
    simp only [cs, twoClients]
    split
    · exact ⟨rfl, fun _ => trivial⟩
    · split
      · exact ⟨rfl, fun _ => trivial⟩
      · trivial
  have e : start = ⟨⟨emptyDbFs cfg, fun _ => none⟩, fun p => (cs p).prog cfg⟩ := rfl
  refine ⟨n1, n2, by simp [emptyDbFs, upd], hon, ?_⟩
  rw [e]
  generalize hp : cfg.path ['d', 'b'] = p at *
  generalize hd : cfg.dst ['d', 'b'] = d at *
  generalize hb : cfg.bck ['d', 'b'] = b at *
  have m1 := n1.symm
  have m2 := n2.symm
  have m3 := n3.symm
  refine ⟨?_, ?_, ?_⟩
  · rw [inTurn, undisturbed_append]
    refine ⟨?_, undisturbed_noLock _ _ _ _ ?_⟩
    · simp [cs, twoClients, prog_commit, Undisturbed, Undisturbing, LocksCurrent, System.run, System.step, exec,
        upd, emptyDbFs, emptyDbCtx, FS.touch, FS.create, FS.createIno, bodyProg, destinationProg, copyOldProg, Prog.next, Prog.bind,
        hp, hd, hb, n1, n2, n3, m1, m2, m3]
    · simp [cs, twoClients, prog_commit, Client.prog, System.run, System.step, exec, Prog.All, noLock,
        upd, emptyDbFs, emptyDbCtx, FS.touch, FS.create, FS.createIno, bodyProg, destinationProg, copyOldProg, contentsProg,
        backupProg, swapProg, Prog.next, Prog.bind, unlockProg, andThen, hp, hd, hb, n1, n2, n3, m1, m2, m3]
      intro r
      cases r <;> simp [Prog.bind, Prog.All, unlockProg, andThen, Client.prog, noLock]
  · simp [cs, twoClients, prog_commit, Client.prog, inTurn, System.run, System.step, exec,
      upd, emptyDbFs, emptyDbCtx, FS.touch, FS.create, FS.createIno, bodyProg, destinationProg, copyOldProg, Prog.next, Prog.bind,
      hp, hd, hb, n1, n2, n3, m1, m2, m3]
  · simp [cs, twoClients, prog_commit, Client.prog, inTurn, System.run, System.step, exec,
      upd, emptyDbFs, emptyDbCtx, FS.touch, FS.create, FS.createIno, FS.write,
      FS.remove, FS.rename, bodyProg, destinationProg, copyOldProg, contentsProg, backupProg, swapProg, Prog.next, Prog.bind,
      unlockProg, andThen, List.replicate, hp, hd, hb, n1, n2, n3, m1, m2, m3]

end Props
end Rodkina
