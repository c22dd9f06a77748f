import Verif.HandedLemmas
import Verif.DatabaseSample
/-! Property theorems about the lists of commits that are handed out, C122. -/

namespace Rodkina
namespace Props

open Ref DB

/-! ## C122: lists of commits that are handed out

Wanted: a list of commits that was handed out keeps its commits whatever happens to the database, and whatever the program does with
it, the history of the database stays as it is. The second half is false. -/

/-- **C122 (partial): the database.** A program that writes to no element of the list of an open database has the files and contexts
of an application whose lists are values, whatever else it does with memory - also to the room behind the lists, and to arrays of its
own. Missing: programs that do write to lists they were handed (`C122_negation_assign`, `C122_negation_append`). -/
theorem C122_history_partial (cfg : Cfg) (grow : Nat → Nat) (s : Handed) (hs : s.InOrder) (L : List HCall) (hL : ReadsOnly cfg grow s L) :
    (s.run cfg grow L).fs = (runCalls cfg (s.fs, s.app) (L.filterMap HCall.meant)).1 ∧
    (s.run cfg grow L).view = (runCalls cfg (s.fs, s.app) (L.filterMap HCall.meant)).2 ∧
    (s.run cfg grow L).InOrder := by
  obtain ⟨h1, h2⟩ := run_inOrder cfg grow L s hs hL
  refine ⟨congrArg Prod.fst h2, ?_, h1⟩
  rw [view_of_inOrder h1]
  exact congrArg Prod.snd h2

/-- **C122 (partial): the list.** A list that was handed out keeps its commits whatever calls follow, with whatever faults, and
whatever the program writes to other elements: to other lists, or to the room behind this one. -/
theorem C122_list_partial (cfg : Cfg) (grow : Nat → Nat) (s : Handed) (hs : s.InOrder) (id : Nat) (p : Mem.Ptr)
    (hp : s.lists id = some p) (L : List HCall) (hL : ∀ x ∈ L, ¬ x.Touches p) :
    Mem.read (s.run cfg grow L).heap p = Mem.read s.heap p :=
  run_frame cfg grow L s (fun i q h => hs.valid i q h) p (lists_free hs hp) hL

/-- **C122, negation.** After `list := Commits(id).List()` and `list[i] = x`, a commit succeeds and writes a history with `x` in it:
in the file and in the context the `i`-th commit is `x`, and the new commit's parent is what the list then ended with. -/
theorem C122_negation_assign (cfg : Cfg) (u : Usage) (hn : Names cfg u) (grow : Nat → Nat) (s : Handed) (hs : s.InOrder)
    (hr : Reachable cfg u ⟨s.fs, s.app⟩) (id : Nat) (c : Ctx) (hg : s.app.get id = some c) (hopen : c.conn.isOpen = true)
    (hne : c.contentList ≠ []) (hfit : total (oldKeys c.reference) + (allData c.contentList).length < 2 ^ 63)
    (hends : CopyEnds cfg c (s.fs.ino c.conn.ino)) (p : Mem.Ptr) (hp : s.lists id = some p) (i : Nat) (hi : i < p.len) (x : Commit)
    (now : Int) :
    let t := s.run cfg grow [.store p.arr (p.off + i) x]
    let v := t.run cfg grow [.call (.commit id calm now)]
    ∃ y z r j rest, (commit cfg calm now t.fs t.view id).out = .ok () ∧
      ((Mem.read s.heap p).set i x).getLast? = some z ∧ y.parent = some z.hash ∧
      r.commits.list = (Mem.read s.heap p).set i x ++ [y] ∧
      commits v.view id = .ok r.commits ∧
      v.fs.dir (cfg.path c.name) = some j ∧ v.fs.ino j = refData r ++ rest := by
  intro t v
  have hv := hs.valid id p hp
  have hinv := hr.inv hn
  have hcok : CtxOK cfg u s.fs c := hinv.ctxs _ (get_mem hg)
  have hc : c.reference ≠ none := by
    intro e
    have := hs.without _ (get_mem hg) e
    rw [hp] at this
    cases this
  obtain ⟨_, r0, hr0, _⟩ := updateReference_ok cfg c now hne hcok.pending hcok.holds.ref hfit
  have hlisted : t.listed id = (Mem.read s.heap p).set i x := by
    show Handed.listed (s.store p.arr (p.off + i) x) id = _
    unfold Handed.listed
    rw [show (s.store p.arr (p.off + i) x).lists id = some p from hp]
    exact store_touched hv hi x
  have hlen : ((Mem.read s.heap p).set i x) ≠ [] := by
    intro e
    have := congrArg List.length e
    rw [List.length_set, Mem.read_length hv] at this
    simp at this
    omega
  have hz := List.getLast?_eq_some_getLast hlen
  obtain ⟨y, r, j, rest, h1, h2, h3, h4, h5, h6, h7⟩ := commit_relisted hn grow (s := t)
    (fun k q hq => store_valid (hs.valid k q hq)) (s0 := ⟨s.fs, s.app⟩) hinv rfl rfl hg hopen hr0 hc hends (by rw [hlisted]; exact hz)
  rw [hlisted] at h4
  exact ⟨y, _, r, j, rest, h1, hz, h3, h4, h5, h6, h7⟩

/-- **C122, negation.** `append` does the same, without any assignment to a list: if the list `p` that was handed out before a
commit has room behind it, then the commit is in that room, and appending `x` to `p` afterwards replaces it by `x` in the open
database. -/
theorem C122_negation_append (cfg : Cfg) (grow : Nat → Nat) (s : Handed) (hs : s.InOrder) (id : Nat) (p : Mem.Ptr)
    (hp : s.lists id = some p) (hroom : p.len < p.cap) (o : Pt → Fault) (now : Int)
    (hok : (commit cfg o now s.fs s.app id).out = .ok ()) (x : Commit) :
    let t := s.run cfg grow [.call (.commit id o now)]
    ∃ y, newCommit cfg ((s.app.get id).getD ⟨[], ⟨0, 0, false⟩, none, 0, []⟩) now = .ok y ∧
      t.listed id = Mem.read s.heap p ++ [y] ∧
      (Mem.push grow t.heap p x).1 = (t.run cfg grow [.store p.arr (p.off + p.len) x]).heap ∧
      (t.run cfg grow [.store p.arr (p.off + p.len) x]).listed id = Mem.read s.heap p ++ [x] := by
  intro t
  cases hg : s.app.get id with
  | none =>
    exfalso
    unfold commit at hok
    rw [hg] at hok
    cases hok
  | some c =>
    rcases commit_contexts cfg o now s.fs s.app id hg with ⟨_, r, conn, off, hu, _⟩ | ⟨hout, _⟩
    · obtain ⟨y, hy, _⟩ := newCommit_of_update hu
      have hv := hs.valid id p hp
      have ht : t = ⟨(Mem.push grow s.heap p y).1, (commit cfg o now s.fs s.app id).fs, (commit cfg o now s.fs s.app id).app,
          upd s.lists id (some (Mem.push grow s.heap p y).2)⟩ := by
        show Handed.commit cfg grow s id o now = _
        unfold Handed.commit
        rw [view_of_inOrder hs, hg]
        simp only [hy, hok]
        unfold Handed.base
        rw [hp]
      have hptr : (Mem.push grow s.heap p y).2 = { p with len := p.len + 1 } := by
        unfold Mem.push; rw [if_pos hroom]
      obtain ⟨p1, p2, _⟩ := Mem.push_spec grow s.heap p y hv
      have hl : t.lists id = some { p with len := p.len + 1 } := by rw [ht]; simp only [upd_self, hptr]
      have hheap : t.heap = (Mem.push grow s.heap p y).1 := by rw [ht]
      have hlisted : t.listed id = Mem.read s.heap p ++ [y] := by
        unfold Handed.listed
        rw [hl]
        simp only
        rw [hheap, ← hptr, p2]
      refine ⟨y, hy, hlisted, ?_, ?_⟩
      · unfold Mem.push
        rw [if_pos hroom]
        rfl
      · show Handed.listed (t.store p.arr (p.off + p.len) x) id = _
        unfold Handed.listed
        rw [show (t.store p.arr (p.off + p.len) x).lists id = some { p with len := p.len + 1 } from hl]
        simp only
        have := store_touched (s := t) (p := { p with len := p.len + 1 }) (by rw [hheap, ← hptr]; exact p1) (i := p.len)
          (Nat.lt_succ_self _) x
        simp only at this
        rw [this, hheap, ← hptr, p2]
        have hlen := Mem.read_length hv
        rw [List.set_append_right _ _ (by omega), hlen]
        simp
    · exact absurd hok hout

/-! ### Concrete programs -/

/-- A program that has done nothing yet. -/
def handed0 : Handed := ⟨[], fs0, [], fun _ => none⟩

theorem handed0_inOrder : handed0.InOrder := by
  refine ⟨?_, ?_, ?_, ?_⟩ <;> simp [handed0]

/-- What `append` does in Go to small slices that are full: it doubles their room. -/
def doubling (n : Nat) : Nat := n - 1

/-- Make a database, open it, write a content and commit it `k` times. -/
def commitTimes (k : Nat) : List HCall :=
  [.call (.new ['a']), .call (.open' ['a']), .call (.write 0 contentX.hash contentX.data 3)] ++
    List.replicate k (.call (.commit 0 calm 5))

/-- A small database with `k` commits, open as context 0, whose file has at most `B` bytes. -/
structure Small (cfg : Cfg) (u : Usage) (s : State) (c : Ctx) (k B : Nat) : Prop where
  reachable : Reachable cfg u s
  get : s.app.get 0 = some c
  isOpen : c.conn.isOpen = true
  pending : c.contentList = [contentX]
  commits : (oldCommits c.reference).length = k
  keys : (oldKeys c.reference).length = k
  total : total (oldKeys c.reference) = 5 * k
  small : SmallCommits (oldCommits c.reference)
  reference : c.reference ≠ none
  offset : c.dataOffset < (s.fs.ino c.conn.ino).length
  size : (s.fs.ino c.conn.ino).length ≤ B

theorem small_first (S : Sha) (chunk : Nat) : ∃ c, Small (sampleCfg S chunk) (sampleUsage False) (sCommitted S chunk) c 1 605 := by
  obtain ⟨c, h⟩ := sCommitted_ready S chunk False
  have hlen : ((sCommitted S chunk).fs.ino c.conn.ino).length = c.dataOffset + 5 := by
    have e := congrArg List.length h.data
    unfold dataOf at e
    simp only [List.length_drop, List.length_cons, List.length_nil] at e
    omega
  have hoff := h.offset
  obtain ⟨k, hk, e⟩ := List.map_eq_singleton_iff.mp h.keys
  refine ⟨c, h.reachable, h.get, h.isOpen, h.pending, h.commits, by rw [hk]; rfl, ?_, h.small, h.reference, by omega, by omega⟩
  rw [hk]
  simp at e
  simp [total, e.2.2.2]

theorem small_next {S : Sha} {chunk : Nat} (hchunk : 0 < chunk) {s : State} {c : Ctx} {k B : Nat}
    (h : Small (sampleCfg S chunk) (sampleUsage False) s c k B) (hk : k ≤ 1000) (hB : B ≤ 1000000) :
    (commit (sampleCfg S chunk) calm 5 s.fs s.app 0).out = .ok () ∧
    ∃ c', Small (sampleCfg S chunk) (sampleUsage False) ⟨(commit (sampleCfg S chunk) calm 5 s.fs s.app 0).fs,
      (commit (sampleCfg S chunk) calm 5 s.fs s.app 0).app⟩ c' (k + 1) (B + 441 * k + 500) := by
  have hn := sampleNames S chunk False
  have hsize := h.size
  have hinv := h.reachable.inv hn
  obtain ⟨q1, q2, t, r, j, hu, hsm, happ, hdir, hino, _⟩ := small_commit (now := 5) hn hinv h.get h.isOpen (by decide) (by decide)
    h.pending (by decide) (by omega) (by rw [h.total]; omega) (by rw [h.keys]; omega) (by rw [h.commits]; omega) h.small
    (.inr ⟨hchunk, h.offset, by omega⟩) (fun hf => hf.elim)
  refine ⟨q1, { c with conn := ⟨j, 0, true⟩, reference := some r, dataOffset := (refData r).length }, ?_⟩
  have hreach : Reachable (sampleCfg S chunk) (sampleUsage False) ⟨(commit (sampleCfg S chunk) calm 5 s.fs s.app 0).fs,
      (commit (sampleCfg S chunk) calm 5 s.fs s.app 0).app⟩ := by
    obtain ⟨s0, h0, hst⟩ := h.reachable
    exact ⟨s0, h0, .tail _ _ _ hst (.commit s 0 c calm 5 h.get q2)⟩
  have hget : (commit (sampleCfg S chunk) calm 5 s.fs s.app 0).app.get 0 =
      some { c with conn := ⟨j, 0, true⟩, reference := some r, dataOffset := (refData r).length } := by
    rw [happ, get_set_self]
  have hc : CtxOK (sampleCfg S chunk) (sampleUsage False) _ _ := (hreach.inv hn).ctxs _ (get_mem hget)
  have hwf : ∀ y ∈ r.contentKeys.list, y.WF := (hc.holds.ref r rfl).wf.keys
  have hlen := refData_length_le hwf hsm
  have hpend := h.pending
  have hkl : r.contentKeys.list.length = k + 1 := by
    rw [hu.keys, List.length_append, h.keys, keysFrom_length, hpend]; rfl
  have hml : r.commits.list.length = k + 1 := by
    rw [hu.commits, List.length_append, h.commits]; rfl
  have hcar : (carried (sampleCfg S chunk) c (s.fs.ino c.conn.ino)).length ≤ (s.fs.ino c.conn.ino).length := by
    unfold carried
    cases c.reference with
    | none => simp
    | some r0 =>
      simp only [kept]
      exact Nat.le_trans (List.length_take_le' _ _) (by simp)
  refine ⟨hreach, hget, rfl, hpend, hml, hkl, ?_, hsm, by simp, ?_, ?_⟩
  · show total r.contentKeys.list = _
    rw [hu.keys, hpend]
    rw [total_append, h.total]
    show 5 * k + (5 + 0) = 5 * (k + 1)
    omega
  · show (refData r).length < ((commit (sampleCfg S chunk) calm 5 s.fs s.app 0).fs.ino j).length
    rw [hino, newFile, hpend]
    simp [contentX]
  · show ((commit (sampleCfg S chunk) calm 5 s.fs s.app 0).fs.ino j).length ≤ _
    rw [hino, newFile, hpend]
    simp only [List.length_append, List.flatMap_cons, List.flatMap_nil, List.append_nil]
    rw [hkl, hml] at hlen
    have : contentX.data.length = 5 := rfl
    omega

/-- What a commit that succeeds does to the list of its context. -/
theorem commit_lists {cfg : Cfg} {grow : Nat → Nat} {s : Handed} (hs : s.InOrder) {id : Nat} {p : Mem.Ptr} (hp : s.lists id = some p)
    {o : Pt → Fault} {now : Int} (hok : (commit cfg o now s.fs s.app id).out = .ok ()) :
    ((HCall.call (.commit id o now)).run cfg grow s).InOrder ∧
    ((HCall.call (.commit id o now)).run cfg grow s).fs = (commit cfg o now s.fs s.app id).fs ∧
    ((HCall.call (.commit id o now)).run cfg grow s).app = (commit cfg o now s.fs s.app id).app ∧
    ∃ q, ((HCall.call (.commit id o now)).run cfg grow s).lists id = some q ∧ q.len = p.len + 1 ∧
      (p.len < p.cap → q.cap = p.cap) ∧ (p.cap ≤ p.len → q.cap = p.len + 1 + grow p.len) := by
  obtain ⟨h1, h2⟩ := step_inOrder cfg grow hs (.call (.commit id o now)) (fun _ _ _ h => h)
  refine ⟨h1, congrArg Prod.fst h2, congrArg Prod.snd h2, ?_⟩
  cases hg : s.app.get id with
  | none =>
    exfalso
    unfold commit at hok
    rw [hg] at hok
    cases hok
  | some c =>
    rcases commit_contexts cfg o now s.fs s.app id hg with ⟨_, r, conn, off, hu, _⟩ | ⟨hout, _⟩
    · obtain ⟨y, hy, _⟩ := newCommit_of_update hu
      refine ⟨(Mem.push grow s.heap p y).2, ?_, ?_, fun h => ?_, fun h => ?_⟩
      · show (Handed.commit cfg grow s id o now).lists id = _
        unfold Handed.commit
        rw [view_of_inOrder hs, hg]
        simp only [hy, hok]
        unfold Handed.base
        rw [hp]
        simp only [upd_self]
      · unfold Mem.push; split <;> rfl
      · unfold Mem.push; rw [if_pos h]
      · unfold Mem.push; rw [if_neg (by omega)]
    · exact absurd hok hout

theorem commit_names {cfg : Cfg} {fs : FS} {a : App} (ha : ∀ e ∈ a, e.2.name = ['a']) :
    ∀ e ∈ (commit cfg calm 5 fs a 0).app, e.2.name = ['a'] := by
  intro e he
  cases hg : a.get 0 with
  | none =>
    unfold commit at he
    rw [hg] at he
    exact ha e he
  | some d =>
    rcases commit_contexts cfg calm 5 fs a 0 hg with ⟨_, r, conn, off, _, h⟩ | ⟨_, h | ⟨conn, h⟩⟩
    · rw [h] at he
      rcases mem_set he with rfl | he
      · exact ha (0, d) (get_mem hg)
      · exact ha e he.1
    · rw [h] at he; exact ha e he
    · rw [h] at he
      rcases mem_set he with rfl | he
      · exact ha (0, d) (get_mem hg)
      · exact ha e he.1

/-- The states of `commitTimes k`, with the room of the list. -/
structure After (cfg : Cfg) (s : Handed) (k B cap : Nat) : Prop where
  inOrder : s.InOrder
  small : ∃ c, Small cfg (sampleUsage False) ⟨s.fs, s.app⟩ c k B
  list : ∃ p, s.lists 0 = some p ∧ p.len = k ∧ p.cap = cap
  names : ∀ e ∈ s.app, e.2.name = ['a']

theorem after_next {S : Sha} {chunk : Nat} (hchunk : 0 < chunk) {s : Handed} {k B cap : Nat} (h : After (sampleCfg S chunk) s k B cap)
    (hk : k ≤ 1000) (hB : B ≤ 1000000) (cap' : Nat) (h1 : k < cap → cap' = cap) (h2 : cap ≤ k → cap' = k + 1 + doubling k) :
    (commit (sampleCfg S chunk) calm 5 s.fs s.app 0).out = .ok () ∧
    After (sampleCfg S chunk) ((HCall.call (.commit 0 calm 5)).run (sampleCfg S chunk) doubling s) (k + 1) (B + 441 * k + 500) cap' := by
  obtain ⟨c, hc⟩ := h.small
  obtain ⟨p, hp, hlen, hcap⟩ := h.list
  obtain ⟨hok, c', hc'⟩ := small_next hchunk hc hk hB
  obtain ⟨q1, q2, q3, q, q4, q5, q6, q7⟩ := commit_lists (grow := doubling) h.inOrder hp hok
  refine ⟨hok, q1, ⟨c', by rw [q2, q3]; exact hc'⟩, ⟨q, q4, by omega, ?_⟩, by rw [q3]; exact commit_names h.names⟩
  by_cases hr : p.len < p.cap
  · rw [q6 hr, h1 (by omega), hcap]
  · rw [q7 (by omega), h2 (by omega), hlen]

theorem after_first (S : Sha) (chunk : Nat) :
    After (sampleCfg S chunk) (handed0.run (sampleCfg S chunk) doubling (commitTimes 1)) 1 605 1 := by
  obtain ⟨h1, h2⟩ := run_inOrder (sampleCfg S chunk) doubling (commitTimes 1) handed0 handed0_inOrder
    ⟨fun _ _ _ h => h, fun _ _ _ h => h, fun _ _ _ h => h, fun _ _ _ h => h, trivial⟩
  have h3 : runCalls (sampleCfg S chunk) (handed0.fs, handed0.app) ((commitTimes 1).filterMap HCall.meant) =
      ((sCommitted S chunk).fs, (sCommitted S chunk).app) := rfl
  rw [h3] at h2
  obtain ⟨c, hc⟩ := small_first S chunk
  have h4 : (handed0.run (sampleCfg S chunk) doubling (commitTimes 1)).fs = (sCommitted S chunk).fs := congrArg Prod.fst h2
  have h5 : (handed0.run (sampleCfg S chunk) doubling (commitTimes 1)).app = (sCommitted S chunk).app := congrArg Prod.snd h2
  refine ⟨h1, ⟨c, by rw [h4, h5]; exact hc⟩, ⟨⟨1, 0, 1, 1⟩, ?_, rfl, rfl⟩, ?names⟩
  case names =>
    rw [h5]
    refine commit_names ?_
    intro e he
    simp only [sWritten, List.mem_singleton] at he
    subst he
    rfl
  obtain ⟨hok, _, t, r, j, hu, _, _, _, _, hr, _⟩ := sWritten_commit S chunk False
  obtain ⟨y, hy, _⟩ := newCommit_of_update hr
  show (Handed.commit (sampleCfg S chunk) doubling ⟨[], fs0.create ['a'], sWritten.app, upd (fun _ => none) 0 none⟩ 0 calm 5).lists 0 = _
  unfold Handed.commit
  have hv : Handed.view ⟨[], fs0.create ['a'], sWritten.app, upd (fun _ => none) 0 none⟩ = sWritten.app := rfl
  rw [hv, show sWritten.app.get 0 = some ctxX from rfl]
  have hok' : (commit (sampleCfg S chunk) calm 5 (fs0.create ['a']) sWritten.app 0).out = .ok () := hok
  simp only [hy, hok']
  rfl

theorem handed_run_append (cfg : Cfg) (grow : Nat → Nat) (s : Handed) (L L' : List HCall) :
    s.run cfg grow (L ++ L') = (s.run cfg grow L).run cfg grow L' := List.foldl_append ..

theorem commitTimes_succ (cfg : Cfg) (k : Nat) : handed0.run cfg doubling (commitTimes (k + 1)) =
    (HCall.call (.commit 0 calm 5)).run cfg doubling (handed0.run cfg doubling (commitTimes k)) := by
  unfold commitTimes
  rw [List.replicate_succ', ← List.append_assoc, handed_run_append]
  rfl

theorem readsOnly_append {cfg : Cfg} {grow : Nat → Nat} {L L' : List HCall} : ∀ {s : Handed}, ReadsOnly cfg grow s L →
    ReadsOnly cfg grow (s.run cfg grow L) L' → ReadsOnly cfg grow s (L ++ L') := by
  induction L with
  | nil => exact fun _ h => h
  | cons x L ih => exact fun h h' => ⟨h.1, ih h.2 h'⟩

/-- Calls alone write to no list. -/
theorem readsOnly_calls {cfg : Cfg} {grow : Nat → Nat} {L : List HCall} (h : ∀ x ∈ L, ∃ y, x = .call y) :
    ∀ {s : Handed}, ReadsOnly cfg grow s L := by
  induction L with
  | nil => exact trivial
  | cons x L ih =>
    intro s
    obtain ⟨y, rfl⟩ := h _ List.mem_cons_self
    exact ⟨fun _ _ _ h => h, ih (fun z hz => h z (List.mem_cons_of_mem _ hz))⟩

theorem commitTimes_calls (k : Nat) : ∀ x ∈ commitTimes k, ∃ y, x = .call y := by
  intro x hx
  simp only [commitTimes, List.mem_append, List.mem_cons, List.not_mem_nil, or_false] at hx
  rcases hx with (rfl | rfl | rfl) | hx
  · exact ⟨_, rfl⟩
  · exact ⟨_, rfl⟩
  · exact ⟨_, rfl⟩
  · exact ⟨_, List.eq_of_mem_replicate hx⟩

theorem after_three {S : Sha} {chunk : Nat} (hchunk : 0 < chunk) :
    After (sampleCfg S chunk) (handed0.run (sampleCfg S chunk) doubling (commitTimes 3)) 3 2928 4 := by
  have a1 := after_first S chunk
  obtain ⟨_, a2⟩ := after_next hchunk a1 (by decide) (by decide) 2 (by decide) (by decide)
  rw [← commitTimes_succ] at a2
  obtain ⟨_, a3⟩ := after_next hchunk a2 (by decide) (by decide) 4 (by decide) (by decide)
  rw [← commitTimes_succ] at a3
  exact a3

theorem overwritten {S : Sha} {chunk : Nat} (hchunk : 0 < chunk) (x : Commit) (three : Handed)
    (a3 : After (sampleCfg S chunk) three 3 2928 4) :
    let cfg := sampleCfg S chunk
    let four := three.run cfg doubling [.call (.commit 0 calm 5)]
    ∃ p, three.lists 0 = some p ∧ p.len = 3 ∧
      (commit cfg calm 5 three.fs three.view 0).out = .ok () ∧
      let appended := four.run cfg doubling [.store p.arr (p.off + 3) x]
      let five := appended.run cfg doubling [.call (.commit 0 calm 5)]
      appended.heap = (Mem.push doubling four.heap p x).1 ∧
      (commit cfg calm 5 appended.fs appended.view 0).out = .ok () ∧
      ∃ y r j rest, y.parent = some x.hash ∧ r.commits.list = Mem.read three.heap p ++ [x, y] ∧
        commits five.view 0 = .ok r.commits ∧ five.fs.dir ['a'] = some j ∧ five.fs.ino j = refData r ++ rest := by
  intro cfg four
  obtain ⟨ok4, a4⟩ := after_next hchunk a3 (by decide) (by decide) 4 (by decide) (by decide)
  have a4' : After cfg four 4 4751 4 := a4
  obtain ⟨p, hp, hlen, hcap⟩ := a3.list
  obtain ⟨y4, _, _, hpush, hlisted⟩ := C122_negation_append cfg doubling three a3.inOrder 0 p hp (by omega) calm 5 ok4 x
  rw [hlen] at hpush hlisted
  refine ⟨p, hp, hlen, by rw [view_of_inOrder a3.inOrder]; exact ok4, ?_⟩
  intro appended five
  obtain ⟨c, hc⟩ := a4'.small
  have hn := sampleNames S chunk False
  have hinv := hc.reachable.inv hn
  have hcok : CtxOK cfg (sampleUsage False) four.fs c := hinv.ctxs _ (get_mem hc.get)
  have hsize : (four.fs.ino c.conn.ino).length ≤ 4751 := hc.size
  have hfive : (allData [contentX]).length = 5 := rfl
  obtain ⟨_, r0, hr0, _⟩ := updateReference_ok cfg c 5 (by rw [hc.pending]; simp) hcok.pending hcok.holds.ref
    (by rw [hc.total, hc.pending, hfive]; omega)
  have hla : appended.listed 0 = Mem.read three.heap p ++ [x] := hlisted
  have hname : c.name = ['a'] := a4'.names _ (get_mem hc.get)
  obtain ⟨y, r, j, rest, h1, h2, h3, h4, h5, h6, h7⟩ := commit_relisted (now := 5) hn doubling (s := appended)
    (fun k q hq => store_valid (a4'.inOrder.valid k q hq)) (s0 := ⟨four.fs, four.app⟩) hinv rfl rfl hc.get hc.isOpen hr0 hc.reference
    (.inr ⟨hchunk, hc.offset, Nat.lt_of_le_of_lt hsize (by decide)⟩) (z := x) (by rw [hla]; simp)
  rw [hla] at h4
  rw [hname] at h6
  exact ⟨hpush.symm, h1, y, r, j, rest, h3, by rw [h4]; simp, h5, h6, h7⟩

/-- **C122, negation, a program.** With the room that Go's `append` leaves: after three commits the list that `List()` hands out has
three commits, and room for a fourth. A program keeps it, commits again and then appends any commit `x` of its own to what it kept.
The next commit succeeds; its parent is `x`, and the file has the history `c₁, c₂, c₃, x` and the new one. The fourth commit, which
succeeded, is gone from it. -/
theorem C122_negation_program (S : Sha) (chunk : Nat) (hchunk : 0 < chunk) (x : Commit) :
    let cfg := sampleCfg S chunk
    let three := handed0.run cfg doubling (commitTimes 3)
    let four := three.run cfg doubling [.call (.commit 0 calm 5)]
    ∃ p, three.lists 0 = some p ∧ p.len = 3 ∧
      (commit cfg calm 5 three.fs three.view 0).out = .ok () ∧
      let appended := four.run cfg doubling [.store p.arr (p.off + 3) x]
      let five := appended.run cfg doubling [.call (.commit 0 calm 5)]
      appended.heap = (Mem.push doubling four.heap p x).1 ∧
      (commit cfg calm 5 appended.fs appended.view 0).out = .ok () ∧
      ∃ y r j rest, y.parent = some x.hash ∧ r.commits.list = Mem.read three.heap p ++ [x, y] ∧
        commits five.view 0 = .ok r.commits ∧ five.fs.dir ['a'] = some j ∧ five.fs.ino j = refData r ++ rest :=
  overwritten hchunk x _ (after_three hchunk)

/-- The hypotheses of `C122_history_partial` and `C122_list_partial`: a program that keeps the list it was handed and goes on
committing, writes to it when the database is not open any more, and opens the database again; and one that writes to the room behind
its list. -/
example (S : Sha) (chunk : Nat) : handed0.InOrder ∧
    ReadsOnly (sampleCfg S chunk) doubling handed0 (commitTimes 2 ++ [.alloc [default], .call .restart, .store 2 0 default, .call (.open' ['a'])]) ∧
    ∃ p, (handed0.run (sampleCfg S chunk) doubling (commitTimes 1)).lists 0 = some p ∧
      ∀ x ∈ ([.call (.commit 0 calm 5), .store p.arr (p.off + 1) default, .alloc [default]] : List HCall), ¬ x.Touches p := by
  refine ⟨handed0_inOrder, ?_, ?_⟩
  · refine readsOnly_append (readsOnly_calls (commitTimes_calls 2)) ⟨fun _ _ _ h => h, fun _ _ _ h => h, ?_, fun _ _ _ h => h, trivial⟩
    intro id p h
    cases h
  · obtain ⟨p, h1, h2, h3⟩ := (after_first S chunk).list
    refine ⟨p, h1, ?_⟩
    intro x hx
    simp only [List.mem_cons, List.not_mem_nil, or_false] at hx
    rcases hx with rfl | rfl | rfl
    · exact fun h => h
    · intro h
      simp only [HCall.Touches] at h
      omega
    · exact fun h => h

theorem after_hypotheses {S : Sha} {chunk : Nat} (hchunk : 0 < chunk) (s : Handed) (a3 : After (sampleCfg S chunk) s 3 2928 4) :
    let cfg := sampleCfg S chunk
    s.InOrder ∧ Names cfg (sampleUsage False) ∧ Reachable cfg (sampleUsage False) ⟨s.fs, s.app⟩ ∧
    (∃ c, s.app.get 0 = some c ∧ c.conn.isOpen = true ∧ c.contentList ≠ [] ∧
      total (oldKeys c.reference) + (allData c.contentList).length < 2 ^ 63 ∧ CopyEnds cfg c (s.fs.ino c.conn.ino)) ∧
    (∃ p, s.lists 0 = some p ∧ 1 < p.len ∧ p.len < p.cap) ∧ (commit cfg calm 5 s.fs s.app 0).out = .ok () := by
  intro cfg
  obtain ⟨ok4, _⟩ := after_next hchunk a3 (by decide) (by decide) 4 (by decide) (by decide)
  obtain ⟨c, hc⟩ := a3.small
  obtain ⟨p, hp, hlen, hcap⟩ := a3.list
  have hsize : (s.fs.ino c.conn.ino).length ≤ 2928 := hc.size
  have hfive : (allData [contentX]).length = 5 := rfl
  refine ⟨a3.inOrder, sampleNames S chunk False, hc.reachable, ⟨c, hc.get, hc.isOpen, by rw [hc.pending]; simp, ?_, ?_⟩,
    ⟨p, hp, by omega, by omega⟩, ok4⟩
  · rw [hc.total, hc.pending, hfive]; omega
  · exact .inr ⟨hchunk, hc.offset, by omega⟩

/-- The hypotheses of `C122_negation_assign` and `C122_negation_append`, after three commits. -/
example (S : Sha) (chunk : Nat) (hchunk : 0 < chunk) :
    let cfg := sampleCfg S chunk
    let s := handed0.run cfg doubling (commitTimes 3)
    s.InOrder ∧ Names cfg (sampleUsage False) ∧ Reachable cfg (sampleUsage False) ⟨s.fs, s.app⟩ ∧
    (∃ c, s.app.get 0 = some c ∧ c.conn.isOpen = true ∧ c.contentList ≠ [] ∧
      total (oldKeys c.reference) + (allData c.contentList).length < 2 ^ 63 ∧ CopyEnds cfg c (s.fs.ino c.conn.ino)) ∧
    (∃ p, s.lists 0 = some p ∧ 1 < p.len ∧ p.len < p.cap) ∧ (commit cfg calm 5 s.fs s.app 0).out = .ok () :=
  after_hypotheses hchunk _ (after_three hchunk)

end Props
end Rodkina
