import Verif.SnapshotLemmas
import Verif.ConcurrentProps
/-!
# C94: an open context keeps showing what it showed when it was opened
-/

namespace Rodkina
namespace Props

open DB Ref

/-- C94, what does hold: any number of applications, each with its own parameters, call whatever they like on the same files in
any order, starting with any files; commits may fail or stop at any file operation. From any moment on, a context of an
application shows the same keys, commits and contents, as long as this application itself does not close or commit it
(missing: two commits whose file operations are interleaved, see `C94_negation`). -/
theorem C94_snapshot_partial (cfg : Nat → Cfg) (names : Name → Prop) (hap : Apart cfg names) (fs : FS) (hfs : FsGood fs)
    (before after : List (Nat × Call)) (hb : ∀ x ∈ before, x.2.Names names) (ha : ∀ x ∈ after, x.2.Names names) (k id : Nat) (c : Ctx) :
    let s := Multi.run cfg ⟨fs, fun _ => []⟩ before
    let t := s.run cfg after
    (s.apps k).get id = some c → SparesAll cfg k id s after →
    SameView s.fs (s.apps k) id t.fs (t.apps k) id := by
  intro s t hc hs
  have h0 : MInv cfg names ⟨fs, fun _ => []⟩ := ⟨hfs, fun _ e he => by cases he⟩
  obtain ⟨h1, _⟩ := run_facts hap before h0 hb
  obtain ⟨_, h2⟩ := run_facts hap after h1 ha
  obtain ⟨c', e', l⟩ := spare_run after hc hs
  obtain ⟨_, l2, l3, l4⟩ := l
  refine sameView_of hc e' l3 l4 (by rw [l2]) ?_
  rw [l2]
  exact (h2 _ (h1.ctxs k _ (get_mem hc)).2).2

/-- The hypotheses hold of two applications that open the same database, of which the second one writes, commits (successfully,
which the first one does not see) and then deletes the database. -/
example (S : Sha) : let cfg := fun _ => sampleCfg S 10
    let before := [(0, Call.new ['a']), (0, .open' ['a'])]
    let w := [(1, Call.open' ['a']), (1, .write 0 contentX.hash contentX.data 3)]
    let after := w ++ [(1, .commit 0 calm 5), (1, .delete ['a'])]
    let s := Multi.run cfg ⟨fs0, fun _ => []⟩ before
    Apart cfg (fun n => '.' ∉ n) ∧ FsGood fs0 ∧ (∀ x ∈ before ++ after, x.2.Names (fun n => '.' ∉ n)) ∧
    ((s.apps 0).get 0).isSome ∧ SparesAll cfg 0 0 s after ∧
    (commit (cfg 1) calm 5 (s.run cfg w).fs ((s.run cfg w).apps 1) 0).out = .ok () := by
  intro cfg before w after s
  have hn := sampleNames S 10 False
  have hs : s = ⟨sOpen.fs, upd (fun _ => []) 0 sOpen.app⟩ := by
    simp [s, before, Multi.run, Multi.call, Call.run, new', open', retrieveAt, retrieveReference_nil, fs0, cfg, sampleCfg, FS.create,
      FS.file, upd, sOpen, App.set]
    funext k
    by_cases h : k = 0 <;> simp [upd, h]
  refine ⟨⟨fun _ _ n m h1 h2 => hn.dst n m h1 h2, fun _ _ n m h1 h2 => hn.bck n m h1 h2, fun _ n h => hn.scratch n h⟩, ?_, ?_, ?_, ?_, ?_⟩
  · exact ⟨fun _ _ h => (by cases h), fun _ _ _ h => (by cases h)⟩
  · simp [before, after, w, Call.Names]
  · rw [hs]
    rfl
  · simp [after, w, SparesAll]
  · rw [hs]
    have h1 : (Multi.run cfg ⟨sOpen.fs, upd (fun _ => []) 0 sOpen.app⟩ w).fs = sWritten.fs := rfl
    have h2 : (Multi.run cfg ⟨sOpen.fs, upd (fun _ => []) 0 sOpen.app⟩ w).apps 1 = sWritten.app := rfl
    rw [h1, h2]
    exact (sWritten_commit S 10 False).1

/-- 0 commits up to the moment it has removed the database file; 1 opens the file for the lock, gets the lock, makes its temporary
file and writes the reference to it; 0 does the rest. -/
def untilOpened : List Nat := List.replicate 9 0 ++ [1, 1, 1, 1] ++ List.replicate 4 0

/-- C94 is false of the code when commits overlap: the temporary file of both commits is the same, and the lock is on the file that
is replaced. Whatever two processes want to commit to a new database, there is a schedule in which the first is told its commit
succeeded, somebody then opens the database and cannot read a content it lists, and with the next operation of the second
process the open context changes: now it can. -/
theorem C94_negation (cfg : Cfg) (n1 : cfg.path ['d', 'b'] ≠ cfg.dst ['d', 'b']) (n2 : cfg.path ['d', 'b'] ≠ cfg.bck ['d', 'b'])
    (n3 : cfg.dst ['d', 'b'] ≠ cfg.bck ['d', 'b']) (hchunk : 0 < cfg.readChunkSize) (rA : Reference) (x y : Content)
    (kA kB : Out (Conn × Nat) → Client) (hy : y.WF) (hne : y.data ≠ []) (hsm : y.data.length ≤ 2 ^ 32) (now : Int)
    (hlo : -2 ^ 63 ≤ now) (hhi : now < 2 ^ 63) : ∃ rB a, updateReference cfg (emptyDbCtx y) now = .ok rB ∧
    let start := System.start cfg (emptyDbFs cfg)
      (twoClients (.commit (emptyDbCtx x) rA kA) (.commit (emptyDbCtx y) rB kB))
    let s := start.run untilOpened
    let t := s.run [1]
    s.threads 0 = (kA (.ok (⟨1, 0, true⟩, (refData rA).length))).prog cfg ∧
    open' cfg s.shared.fs [] ['d', 'b'] = .ok (0, a) ∧
    DB.read s.shared.fs a 0 ⟨0, y.data.length⟩ = .err ∧
    DB.read t.shared.fs a 0 ⟨0, y.data.length⟩ = .ok y.data := by
  have hp : ∀ z ∈ (emptyDbCtx y).contentList, z.WF := by
    intro z hz
    simp only [emptyDbCtx, List.mem_singleton] at hz
    subst hz
    exact hy
  have href : ∀ r, (emptyDbCtx y).reference = some r → RefOK cfg r := by
    intro r hr
    cases hr
  have hdata : total (oldKeys (emptyDbCtx y).reference) + (allData (emptyDbCtx y).contentList).length < 2 ^ 63 := by
    simp [emptyDbCtx, oldKeys, total, allData]
    omega
  obtain ⟨tr, rB, hr, hu⟩ := updateReference_ok cfg (emptyDbCtx y) now (by simp [emptyDbCtx]) hp href hdata
  have hlen : (refData rB).length ≤ 2 ^ 40 := by
    have hk : ∀ k ∈ rB.contentKeys.list, k.WF := by
      intro k hk
      rw [hu.keys] at hk
      rcases List.mem_append.mp hk with hk | hk
      · cases hk
      · exact (keysFrom_wf _ (commitNow_hash_length _ _ _ _ _ _) _ _ hp hdata k hk).1
    have hs : SmallCommits rB.commits.list := by
      intro z hz
      rw [hu.commits] at hz
      rcases List.mem_append.mp hz with hz | hz
      · cases hz
      · simp only [List.mem_singleton] at hz
        subst hz
        exact smallCommits_new (build_one_length _ _ _ hu.tree) (lastHash_length cfg _ href)
    have := refData_length_le hk hs
    rw [hu.keys, hu.commits] at this
    simp [emptyDbCtx, oldKeys, oldCommits, keysFrom] at this
    omega
  have hok := hu.refOK hp href hlo hhi hdata (by rw [refData_length] at hlen; omega)
  have hret := fun d => retrieveReference_refData cfg hchunk rB hok.wf d
  generalize hfile : refData rB = f at hlen hret
  refine ⟨rB, [(0, ⟨['d', 'b'], ⟨1, 0, true⟩, some rB, f.length, []⟩)], hr, ?_⟩
  intro start s t
  have e : start = ⟨⟨emptyDbFs cfg, fun _ => none⟩, fun p =>
      if p = 0 then .op (.lockOpen (cfg.path ['d', 'b'])) (fun (i : Nat) =>
        .op (.flock i) (fun (got : Bool) =>
          (if got then (bodyProg cfg (emptyDbCtx x) rA).bind (unlockProg i) else .ret .err).bind (andThen cfg kA)))
      else if p = 1 then .op (.lockOpen (cfg.path ['d', 'b'])) (fun (i : Nat) =>
        .op (.flock i) (fun (got : Bool) =>
          (if got then (bodyProg cfg (emptyDbCtx y) rB).bind (unlockProg i) else .ret .err).bind (andThen cfg kB)))
      else .ret ()⟩ := by
    simp only [start, System.start]
    congr 1
    funext p
    unfold twoClients
    by_cases h0 : p = 0
    · simp only [h0, if_true]
      rw [prog_commit]
      rfl
    · by_cases h1 : p = 1
      · subst h1
        simp only [if_true, if_false, one_ne_zero]
        rw [prog_commit]
        rfl
      · simp only [h0, h1, if_false]
        rw [Client.prog]
  have hdir : s.shared.fs.dir (cfg.path ['d', 'b']) = some 1 ∧ s.shared.fs.ino 1 = writeBytes [] 0 f ∧
      t.shared.fs.ino 1 = writeBytes (writeBytes [] 0 f) f.length y.data ∧
      s.threads 0 = (kA (.ok (⟨1, 0, true⟩, (refData rA).length))).prog cfg := by
    simp only [s, t]
    rw [e]
    generalize hp : cfg.path ['d', 'b'] = p at *
    generalize hd : cfg.dst ['d', 'b'] = d at *
    generalize hb : cfg.bck ['d', 'b'] = b at *
    have m1 := n1.symm
    have m2 := n2.symm
    have m3 := n3.symm
    refine ⟨?_, ?_, ?_, ?_⟩ <;>
    simp [untilOpened, System.run, System.step, exec, upd, emptyDbFs, emptyDbCtx, FS.touch, FS.create, FS.createIno, FS.write,
      FS.remove, FS.rename, bodyProg, destinationProg, copyOldProg, contentsProg, backupProg, swapProg, Prog.next, Prog.bind,
      unlockProg, andThen, List.replicate, hp, hd, hb, n1, n2, n3, m1, m2, m3, hfile]
  obtain ⟨d1, d2, d3, d4⟩ := hdir
  have w1 : writeBytes [] 0 f = f := by simp [writeBytes]
  have w2 : writeBytes f f.length y.data = f ++ y.data := by simp [writeBytes]
  rw [w1] at d2
  rw [w1, w2] at d3
  have hy0 : y.data.length ≠ 0 := by simpa using hne
  refine ⟨d4, ?_, ?_, ?_⟩
  · unfold open' retrieveAt FS.file
    have := hret []
    rw [List.append_nil] at this
    simp only [List.any_nil, Bool.false_eq_true, if_false, d1, Option.map_some, d2, this, Res.bind_ok, Res.pure_eq,
      Option.getD_some, List.length_nil]
    rfl
  · simp only [DB.read, App.get, List.find?_cons, beq_self_eq_true, Option.map_some, connRead]
    rw [if_neg (by omega), if_neg (by simp), if_neg (by omega), d2]
    unfold readAt
    rw [if_neg hy0, if_neg (by rw [Nat.mod_eq_of_lt] <;> omega)]
  · simp only [DB.read, App.get, List.find?_cons, beq_self_eq_true, Option.map_some, connRead]
    rw [if_neg (by omega), if_neg (by simp), if_neg (by omega), d3, Nat.mod_eq_of_lt (by omega)]
    rw [readAt_ok _ _ _ (by rw [List.length_append]; omega)]
    simp

/-- The hypotheses of `C94_negation` hold for the usual file names and a small content. -/
example (S : Sha) : let cfg := sampleCfg S 4
    cfg.path ['d', 'b'] ≠ cfg.dst ['d', 'b'] ∧ cfg.path ['d', 'b'] ≠ cfg.bck ['d', 'b'] ∧ cfg.dst ['d', 'b'] ≠ cfg.bck ['d', 'b'] ∧
    0 < cfg.readChunkSize ∧ contentY.WF ∧ contentY.data ≠ [] ∧ contentY.data.length ≤ 2 ^ 32 := by
  refine ⟨?_, ?_, ?_, ?_, ⟨?_, ?_, ?_⟩, ?_, ?_⟩ <;> simp [sampleCfg, Cfg.dst, Cfg.bck, contentY]

end Props
end Rodkina
