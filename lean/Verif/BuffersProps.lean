import Verif.BuffersLemmas
/-! Property theorems about the buffers given to `Write`, C120. -/

namespace Rodkina
namespace Props

open Ref DB

/-- **C120 (full claim, false).** Full claim: once `Write` has returned, the program may do what it likes with the buffer it
gave, and the commit stores the bytes that were given. Proved: it does for every program that does not write to the buffers of
pending contents - whatever it does with the rest of its memory, and with the arrays that reading returned. The files, the contexts and
what reading answers are then those of the calls as they were meant, each `Write` with the bytes its buffer held at that time.
Missing: programs that reuse a buffer, see `C120_negation_before_commit` and `C120_negation_after_commit`. -/
theorem C120_as_given_partial (cfg : Cfg) (s : Buffered) (hs : s.Valid) (L : List BCall) (hc : CarefulAll cfg s L) :
    (s.run cfg L).fs = (runCalls cfg (s.fs, s.view) (meantAll cfg s L)).1 ∧
    (s.run cfg L).view = (runCalls cfg (s.fs, s.view) (meantAll cfg s L)).2 ∧
    ∀ id h, readByHash (s.run cfg L).fs (s.run cfg L).app id h =
      readByHash (runCalls cfg (s.fs, s.view) (meantAll cfg s L)).1 (runCalls cfg (s.fs, s.view) (meantAll cfg s L)).2 id h := by
  have h := (run_view cfg L s hs hc).2
  refine ⟨congrArg Prod.fst h, congrArg Prod.snd h, fun id k => ?_⟩
  rw [← h]
  dsimp only
  unfold Buffered.view
  exact (fill_readByHash _ _ _ _ _).symm

/-- **C120 (what is stored).** Whatever a program does with its memory, a commit that succeeds stores the bytes that the buffers
hold at that moment: reading a pending content by its hash gives them (of contents with the same hash, those of the last one). -/
theorem C120_stores_bytes_at_commit (cfg : Cfg) (u : Usage) (hn : Names cfg u) (hl : u.lossless) (s : Buffered)
    (hs : BufferedReachable cfg u s) (id : Nat) (o : Pt → Fault) (now : Int)
    (hf : ∀ c, s.view.get id = some c → CommitFits cfg u o now s.fs s.view id c)
    (hok : (commit cfg o now s.fs s.view id).out = .ok ()) (x : Held) (hx : IsLast (fun y => y.hash = x.hash) (s.held id) x) :
    readByHash ((BCall.commit id o now).run cfg s).fs ((BCall.commit id o now).run cfg s).app id x.hash = .ok (Mem.read s.heap x.data) := by
  cases hg : s.view.get id with
  | none =>
    exfalso
    unfold commit at hok
    rw [hg] at hok
    cases hok
  | some c =>
    have hcl : c.contentList = (s.held id).map (Held.now s.heap) := by
      rw [view_get] at hg
      cases ha : s.app.get id with
      | none => rw [ha] at hg; cases hg
      | some c0 => rw [ha] at hg; simp only [Option.map_some, Option.some.injEq] at hg; rw [← hg]
    obtain ⟨before, after, hL, h1, hafter⟩ := hx
    exact C23_commit_makes_pending_readable cfg u hn hl ⟨s.fs, s.view⟩ hs.inv.reach id c o now hg (hf c hg) hok (x.now s.heap)
      ⟨before.map (Held.now s.heap), after.map (Held.now s.heap), by rw [hcl, hL]; simp, rfl, by
        intro y hy
        obtain ⟨z, hz, rfl⟩ := List.mem_map.mp hy
        exact hafter z hz⟩

/-! ### Concrete programs -/

/-- A program that has done nothing yet. -/
def shared0 : Buffered := ⟨[], fs0, [], fun _ => []⟩

/-- The whole of the first array, five bytes. -/
def buffer : Mem.Ptr := ⟨0, 0, 5, 5⟩

/-- Make a database, open it, make a buffer and give it to `Write`. -/
def writeBuffer : List BCall := [.new ['a'], .open' ['a'], .alloc [1, 2, 3, 4, 5], .write 0 contentX.hash buffer 3]

theorem shared0_fresh (S : Sha) (chunk : Nat) (l : Prop) : Fresh (sampleCfg S chunk) (sampleUsage l) shared0 := ⟨init0 S chunk l, rfl⟩

theorem shared0_valid : shared0.Valid := fun _ x hx => by cases hx

/-- The state after `writeBuffer`. -/
def sharedW : Buffered := ⟨[[1, 2, 3, 4, 5]], fs0.create ['a'], [(0, ⟨['a'], ⟨0, 0, true⟩, none, 0, []⟩)],
  upd (upd (fun _ => []) 0 []) 0 [⟨contentX.hash, buffer, 3⟩]⟩

theorem writeBuffer_run (S : Sha) (chunk : Nat) : shared0.run (sampleCfg S chunk) writeBuffer = sharedW := rfl

theorem sharedW_view : sharedW.view = sWritten.app := rfl

theorem writeBuffer_allowed (S : Sha) (chunk : Nat) (l : Prop) :
    AllowedAll (sampleCfg S chunk) (sampleUsage l) shared0 writeBuffer :=
  ⟨by simp [BCall.Allowed, sampleUsage], by simp [BCall.Allowed, sampleUsage], trivial,
    ⟨by simp [contentX], by decide, show (0 : Nat) < 1 by decide, show 5 ≤ 5 by decide, show 0 + 5 ≤ 5 by decide⟩, trivial⟩

theorem run_append (cfg : Cfg) (s : Buffered) (L L' : List BCall) : s.run cfg (L ++ L') = (s.run cfg L).run cfg L' :=
  List.foldl_append ..

theorem allowed_append {cfg : Cfg} {u : Usage} {L L' : List BCall} : ∀ {s : Buffered}, AllowedAll cfg u s L →
    AllowedAll cfg u (s.run cfg L) L' → AllowedAll cfg u s (L ++ L') := by
  induction L with
  | nil => exact fun _ h => h
  | cons x L ih => exact fun h h' => ⟨h.1, ih h.2 h'⟩

theorem sharedW_reachable (S : Sha) (chunk : Nat) (l : Prop) : BufferedReachable (sampleCfg S chunk) (sampleUsage l) sharedW := by
  exact ⟨shared0, writeBuffer, shared0_fresh S chunk l, writeBuffer_allowed S chunk l, rfl⟩

/-- **C120, negation.** A program gives a buffer to `Write`, then writes to the buffer, then commits: the commit succeeds and
reading by the hash answers the later bytes, which are not those that were given to `Write`. -/
theorem C120_negation_before_commit (S : Sha) (chunk : Nat) :
    let cfg := sampleCfg S chunk
    let before := shared0.run cfg (writeBuffer ++ [.store 0 0 9])
    let after := shared0.run cfg (writeBuffer ++ [.store 0 0 9, .commit 0 calm 5])
    (commit cfg calm 5 before.fs before.view 0).out = .ok () ∧
    meantAll cfg shared0 writeBuffer = [.new ['a'], .open' ['a'], .write 0 contentX.hash [1, 2, 3, 4, 5] 3] ∧
    readByHash after.fs after.app 0 contentX.hash = .ok [9, 2, 3, 4, 5] := by
  intro cfg before after
  have hb : before = (BCall.store 0 0 9).run cfg sharedW := rfl
  have hr : BufferedReachable cfg (sampleUsage True) before := by
    refine ⟨shared0, writeBuffer ++ [.store 0 0 9], shared0_fresh S chunk True, ?_, rfl⟩
    exact allowed_append (writeBuffer_allowed S chunk True) ⟨trivial, trivial⟩
  have hinv := hr.inv.reach.inv (sampleNames S chunk True)
  have hg : before.view.get 0 = some ⟨['a'], ⟨0, 0, true⟩, none, 0, [⟨contentX.hash, [9, 2, 3, 4, 5], 3⟩]⟩ := rfl
  obtain ⟨h1, h2, _⟩ := small_commit (now := 5) (sampleNames S chunk True) hinv hg rfl (by decide) (by decide) rfl (by decide)
    (show 0 ≤ 2 ^ 32 by decide) (by decide) (by decide) (by decide) (by simp [SmallCommits, oldCommits]) (.inl rfl)
    (fun _ => .inl (by simp [oldKeys, total]))
  refine ⟨h1, rfl, ?_⟩
  exact C120_stores_bytes_at_commit cfg (sampleUsage True) (sampleNames S chunk True) trivial before hr 0 calm 5
    (fun c hc => by rw [hg] at hc; cases hc; exact h2) h1 ⟨contentX.hash, buffer, 3⟩
    ⟨[], [], rfl, rfl, by simp⟩

theorem reuse_run (cfg : Cfg) (fs : FS) (a : App) (c : Ctx) (h : a.get 0 = some c) :
    Buffered.run cfg ⟨[[1, 2, 3, 4, 5]], fs, a, sharedW.held⟩ [.store 0 0 9, .write 0 contentY.hash buffer 4] =
      ⟨[[9, 2, 3, 4, 5]], fs, a.set 0 c, upd sharedW.held 0 [⟨contentX.hash, buffer, 3⟩, ⟨contentY.hash, buffer, 4⟩]⟩ := by
  simp only [Buffered.run, List.foldl_cons, List.foldl_nil, BCall.run, h]
  rfl

theorem reuse_commit (S : Sha) (chunk : Nat) (hchunk : 5 ≤ chunk) {c : Ctx}
    (h : ReadyWith (sampleCfg S chunk) (sampleUsage True) (sCommitted S chunk) c [contentX]) (a : App) (L : List Content)
    (hr : Reachable (sampleCfg S chunk) (sampleUsage True) ⟨(sCommitted S chunk).fs, a⟩)
    (hg : a.get 0 = some { c with contentList := L }) (hne : L ≠ []) (hlen : L.length ≤ 2) (hd : (allData L).length ≤ 100) :
    (commit (sampleCfg S chunk) calm 9 (sCommitted S chunk).fs a 0).out = .ok () ∧
    CommitFits (sampleCfg S chunk) (sampleUsage True) calm 9 (sCommitted S chunk).fs a 0 { c with contentList := L } := by
  have hinv := hr.inv (sampleNames S chunk True)
  have hlen' : ((sCommitted S chunk).fs.ino c.conn.ino).length = c.dataOffset + 5 := by
    have e := congrArg List.length h.data
    unfold dataOf at e
    simp only [List.length_drop, List.length_cons, List.length_nil] at e
    omega
  have hoff := h.offset
  have hkeys := h.keys
  have ht : total (oldKeys c.reference) = 5 ∧ (oldKeys c.reference).length = 1 := by
    obtain ⟨k, hk, e⟩ := List.map_eq_singleton_iff.mp hkeys
    rw [hk]
    simp at e
    simp [total, e.2.2.2]
  obtain ⟨q1, q2, _⟩ := small_commits (now := 9) (sampleNames S chunk True) hinv hg h.isOpen (by decide) (by decide) hne hlen
    (by dsimp only; omega) (by dsimp only; rw [hlen']; omega) (by dsimp only; rw [ht.1]; decide) (by dsimp only; rw [ht.2]; decide)
    (by dsimp only; rw [h.commits]; decide) h.small (.inr ⟨by simp only [sampleCfg]; omega, by dsimp only; omega, by dsimp only; omega⟩)
    (fun _ => .inl (by dsimp only; rw [ht.1]; exact hchunk))
  exact ⟨q1, q2⟩

/-- **C120, negation.** It does not help to leave the buffer alone until the commit has succeeded: pending contents stay pending. A
program fills a buffer, gives it to `Write` and commits, and then does so again with the same buffer and another hash. Both
commits succeed; afterwards reading by the first hash answers the second bytes. -/
theorem C120_negation_after_commit (S : Sha) (chunk : Nat) (hchunk : 5 ≤ chunk) :
    let cfg := sampleCfg S chunk
    let first := writeBuffer ++ [.commit 0 calm 5]
    let second := first ++ [.store 0 0 9, .write 0 contentY.hash buffer 4]
    let last := second ++ [.commit 0 calm 9]
    (commit cfg calm 5 (shared0.run cfg writeBuffer).fs (shared0.run cfg writeBuffer).view 0).out = .ok () ∧
    readByHash (shared0.run cfg first).fs (shared0.run cfg first).app 0 contentX.hash = .ok [1, 2, 3, 4, 5] ∧
    (commit cfg calm 9 (shared0.run cfg second).fs (shared0.run cfg second).view 0).out = .ok () ∧
    readByHash (shared0.run cfg last).fs (shared0.run cfg last).app 0 contentX.hash = .ok [9, 2, 3, 4, 5] ∧
    readByHash (shared0.run cfg last).fs (shared0.run cfg last).app 0 contentY.hash = .ok [9, 2, 3, 4, 5] := by
  intro cfg first second last
  have hn := sampleNames S chunk True
  obtain ⟨c1, f1, _⟩ := sWritten_commit S chunk True
  obtain ⟨c, h⟩ := sCommitted_ready S chunk True
  have e1 : shared0.run cfg first = ⟨[[1, 2, 3, 4, 5]], (sCommitted S chunk).fs, (sCommitted S chunk).app, sharedW.held⟩ := rfl
  have hA1 : AllowedAll cfg (sampleUsage True) shared0 first := by
    refine allowed_append (writeBuffer_allowed S chunk True) ⟨?_, trivial⟩
    intro d hd
    have hd' : sWritten.app.get 0 = some d := hd
    have : d = ctxX := by
      have := hd'.symm.trans (show sWritten.app.get 0 = some ctxX from rfl)
      exact Option.some.inj this
    subst this
    exact f1
  have e2 : shared0.run cfg second = ⟨[[9, 2, 3, 4, 5]], (sCommitted S chunk).fs, (sCommitted S chunk).app.set 0 c,
      upd sharedW.held 0 [⟨contentX.hash, buffer, 3⟩, ⟨contentY.hash, buffer, 4⟩]⟩ := by
    refine (run_append cfg shared0 first [.store 0 0 9, .write 0 contentY.hash buffer 4]).trans ?_
    rw [e1]
    exact reuse_run cfg _ _ _ h.get
  have hA2 : AllowedAll cfg (sampleUsage True) shared0 second := by
    refine allowed_append hA1 ?_
    rw [e1]
    exact ⟨trivial, ⟨by simp [contentY], by decide, show (0 : Nat) < 1 by decide, show 5 ≤ 5 by decide, show 0 + 5 ≤ 5 by decide⟩, trivial⟩
  have hr2 : BufferedReachable cfg (sampleUsage True) (shared0.run cfg second) := ⟨shared0, second, shared0_fresh S chunk True, hA2, rfl⟩
  have hg2 : (shared0.run cfg second).view.get 0 =
      some { c with contentList := [⟨contentX.hash, [9, 2, 3, 4, 5], 3⟩, ⟨contentY.hash, [9, 2, 3, 4, 5], 4⟩] } := by
    rw [view_get, e2]
    dsimp only
    rw [get_set_self]
    rfl
  have hfs2 : (shared0.run cfg second).fs = (sCommitted S chunk).fs := by rw [e2]
  have hc2 := reuse_commit S chunk hchunk h (shared0.run cfg second).view _ (hfs2 ▸ hr2.inv.reach) hg2 (by simp) (by simp)
    (by simp [allData])
  have hc2' : (commit cfg calm 9 (shared0.run cfg second).fs (shared0.run cfg second).view 0).out = .ok () := by
    rw [hfs2]; exact hc2.1
  have hheld : (shared0.run cfg second).held 0 = [⟨contentX.hash, buffer, 3⟩, ⟨contentY.hash, buffer, 4⟩] := by rw [e2]; rfl
  have hheap : (shared0.run cfg second).heap = [[9, 2, 3, 4, 5]] := by rw [e2]
  have key := C120_stores_bytes_at_commit cfg (sampleUsage True) hn trivial (shared0.run cfg second) hr2 0 calm 9
    (fun d hd => by
      rw [hg2] at hd
      cases hd
      rw [hfs2]
      exact hc2.2) hc2'
  rw [hheld, hheap] at key
  have el : shared0.run cfg last = (BCall.commit 0 calm 9).run cfg (shared0.run cfg second) :=
    run_append cfg shared0 second [.commit 0 calm 9]
  have hXY : contentX.hash ≠ contentY.hash := by
    intro e
    have := congrArg List.head? e
    simp [contentX, contentY, List.replicate_succ, -List.reduceReplicate] at this
  refine ⟨c1, ?_, hc2', ?_, ?_⟩
  · exact C120_stores_bytes_at_commit cfg (sampleUsage True) hn trivial sharedW (sharedW_reachable S chunk True) 0 calm 5
      (fun d hd => by
        have : d = ctxX := Option.some.inj (hd.symm.trans (show sWritten.app.get 0 = some ctxX from rfl))
        subst this
        exact f1) c1 ⟨contentX.hash, buffer, 3⟩ ⟨[], [], rfl, rfl, by simp⟩
  · rw [el]
    exact key ⟨contentX.hash, buffer, 3⟩ ⟨[], [⟨contentY.hash, buffer, 4⟩], rfl, rfl, by simpa using fun e => hXY e.symm⟩
  · rw [el]
    exact key ⟨contentY.hash, buffer, 4⟩ ⟨[⟨contentX.hash, buffer, 3⟩], [], rfl, rfl, by simp⟩

theorem careful_append {cfg : Cfg} {L L' : List BCall} : ∀ {s : Buffered}, CarefulAll cfg s L → CarefulAll cfg (s.run cfg L) L' →
    CarefulAll cfg s (L ++ L') := by
  induction L with
  | nil => exact fun _ h => h
  | cons x L ih => exact fun h h' => ⟨h.1, ih h.2 h'⟩

theorem careful_after_cancel {cfg : Cfg} {s : Buffered} {c : Ctx} (h : s.app.get 0 = some c) (hs : ∀ id, id ≠ 0 → s.held id = []) :
    CarefulAll cfg s [.cancel 0, .store 0 0 9] := by
  refine ⟨trivial, ?_, trivial⟩
  intro id x hx
  simp only [BCall.run, h, upd] at hx
  by_cases hid : id = 0
  · simp [hid] at hx
  · simp [hid, hs] at hx

/-- `C120_as_given_partial` is about programs like this one: it gives a buffer to `Write`, uses other buffers meanwhile, and reuses
the first one after it has cancelled what was pending. -/
example (S : Sha) (chunk : Nat) : shared0.Valid ∧ CarefulAll (sampleCfg S chunk) shared0
    ((writeBuffer ++ [.alloc [7, 7], .store 1 0 8, .commit 0 calm 5]) ++ [.cancel 0, .store 0 0 9]) := by
  obtain ⟨c, h⟩ := sCommitted_ready S chunk True
  have e : shared0.run (sampleCfg S chunk) (writeBuffer ++ [.alloc [7, 7], .store 1 0 8, .commit 0 calm 5]) =
    ⟨[[1, 2, 3, 4, 5], [8, 7]], (sCommitted S chunk).fs, (sCommitted S chunk).app, sharedW.held⟩ := rfl
  refine ⟨shared0_valid, careful_append ⟨trivial, trivial, trivial,
    ⟨show (0 : Nat) < 1 by decide, show 5 ≤ 5 by decide, show 0 + 5 ≤ 5 by decide⟩, trivial, ?_, trivial, trivial⟩ ?_⟩
  · intro id x hx
    have hx' : x ∈ sharedW.held id := hx
    by_cases hid : id = 0
    · subst hid
      have hx2 : x ∈ [(⟨contentX.hash, buffer, 3⟩ : Held)] := hx'
      simp only [List.mem_singleton] at hx2
      subst hx2
      simp [buffer]
    · simp [sharedW, upd, hid] at hx'
  · rw [e]
    exact careful_after_cancel h.get (fun id hid => by simp [sharedW, upd, hid])

/-- The hypotheses of `C120_stores_bytes_at_commit`. -/
example (S : Sha) (chunk : Nat) :
    BufferedReachable (sampleCfg S chunk) (sampleUsage True) sharedW ∧
    (∀ c, sharedW.view.get 0 = some c → CommitFits (sampleCfg S chunk) (sampleUsage True) calm 5 sharedW.fs sharedW.view 0 c) ∧
    (commit (sampleCfg S chunk) calm 5 sharedW.fs sharedW.view 0).out = .ok () ∧
    IsLast (fun y => y.hash = contentX.hash) (sharedW.held 0) ⟨contentX.hash, buffer, 3⟩ := by
  obtain ⟨c1, f1, _⟩ := sWritten_commit S chunk True
  refine ⟨sharedW_reachable S chunk True, fun d hd => ?_, c1, ⟨[], [], rfl, rfl, by simp⟩⟩
  have : d = ctxX := Option.some.inj (hd.symm.trans (show sWritten.app.get 0 = some ctxX from rfl))
  subst this
  exact f1

end Props
end Rodkina
