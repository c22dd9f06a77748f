import Verif.OpenRaceLemmas
import Verif.ConcurrentProps
import Verif.OpenRaceSample
/-!
# C129: opening a database while others commit to it; C94 with commits that overlap
-/

namespace Rodkina
namespace Props

open DB Ref

/-- C129, what does hold: any number of processes commit to a database in any interleaving in which no lock is attempted on a
file that has been replaced or removed; another application opens the database meanwhile, reading the reference at one moment
and opening the file for the context at a later one. If it opened the same file both times, the context shows what it would
show if the database was opened after a whole number of commits done one after the other; these include all commits finished
before the first moment: every process that does not hold the lock then is where it is after these commits
(missing: that opening succeeds, and the case that a commit replaced the file between the two moments). -/
theorem C129_whole_commits_partial (cfg : Cfg) (n : Name) (h1 : cfg.path n ≠ cfg.dst n) (h2 : cfg.path n ≠ cfg.bck n)
    (h3 : cfg.dst n ≠ cfg.bck n) (fs : FS) (hg : FsGood fs) (hfs : (fs.dir (cfg.path n)).isSome) (cs : Nat → Client)
    (hcs : ∀ p, (cs p).On n) (first second third : List Nat)
    (hu : Undisturbed (cfg.path n) (System.start cfg fs cs) (first ++ (second ++ third))) (a a1 : App) (id : Nat) :
    let s1 := (System.start cfg fs cs).run first
    let s2 := s1.run second
    let s3 := s2.run third
    openAt cfg s1.shared.fs s2.shared.fs s3.shared.fs a n = .ok (id, a1) →
    s3.shared.fs.dir (cfg.path n) = s1.shared.fs.dir (cfg.path n) →
    ∃ fs' cl' a2, AtomicSteps cfg (fs, cs) (fs', cl') ∧
      (∀ p, (∀ i, s1.shared.locks i ≠ some p) → NotStarted cfg (cl' p) (s1.threads p)) ∧
      open' cfg fs' a n = .ok (id, a2) ∧ SameView fs' a2 id s3.shared.fs a1 id := by
  intro s1 s2 s3 ho hsame
  obtain ⟨hu1, hu23⟩ := (undisturbed_append _ first (second ++ third) _).1 hu
  obtain ⟨f1, c1, e1⟩ := explained_run h1 h2 first (explained_start hfs hcs) hu1
  have g1 := (atomic_good h1 h2 h3 e1.steps hfs hcs hg).1
  have G1 := explained_good h3 e1 g1
  obtain ⟨i, j, r, ha, hi, hj, hr, rfl, rfl⟩ := openAt_ok ho
  have hij : j = i := by
    have := hsame
    rw [hj] at this
    rw [show s1.shared.fs.dir (cfg.path n) = some i from hi] at this
    exact Option.some.inj this
  subst hij
  have hset := settled_src h1 h2 G1 hi
  have i2 : s2.shared.fs.ino j = s1.shared.fs.ino j :=
    settled_run h1 h2 h3 hfs hcs hg second e1 ((undisturbed_append _ second third _).1 hu23).1 j hset
  have i3 : s3.shared.fs.ino j = s1.shared.fs.ino j := by
    have := settled_run h1 h2 h3 hfs hcs hg (second ++ third) e1 hu23 j hset
    rw [System.run, List.foldl_append] at this
    exact this
  obtain ⟨fs', cl', ha', hf', hn'⟩ := explained_file h1 h2 h3 e1 g1 (by
    rw [show ((System.start cfg fs cs).run first).shared.fs.dir (cfg.path n) = some j from hi]; rfl)
  rw [i2] at hr
  obtain ⟨j', hd', hc', ho'⟩ := open_same ha hi hr hf'
  refine ⟨fs', cl', _, ha', hn', ho', ?_⟩
  exact sameView_of (get_set_self _ _ _) (get_set_self _ _ _) rfl rfl rfl (by simp only; rw [i3, hc'])

/-- C94, what does hold when commits overlap: the same processes and interleavings. What a context shows right after it was
opened it shows at every later moment, whatever commits begin, continue or end meanwhile, and even if the context was opened in
the middle of one (missing: the interleavings of `C94_negation`). -/
theorem C94_overlapping_partial (cfg : Cfg) (n : Name) (h1 : cfg.path n ≠ cfg.dst n) (h2 : cfg.path n ≠ cfg.bck n)
    (h3 : cfg.dst n ≠ cfg.bck n) (fs : FS) (hg : FsGood fs) (hfs : (fs.dir (cfg.path n)).isSome) (cs : Nat → Client)
    (hcs : ∀ p, (cs p).On n) (before after : List Nat)
    (hu : Undisturbed (cfg.path n) (System.start cfg fs cs) (before ++ after)) (fs1 fs2 : FS) (a a1 : App) (id : Nat) :
    let s := (System.start cfg fs cs).run before
    let t := s.run after
    openAt cfg fs1 fs2 s.shared.fs a n = .ok (id, a1) → SameView s.shared.fs a1 id t.shared.fs a1 id := by
  intro s t ho
  obtain ⟨hu1, hu2⟩ := (undisturbed_append _ before after _).1 hu
  obtain ⟨f1, c1, e1⟩ := explained_run h1 h2 before (explained_start hfs hcs) hu1
  have G1 := explained_good h3 e1 (atomic_good h1 h2 h3 e1.steps hfs hcs hg).1
  obtain ⟨i, j, r, ha, hi, hj, hr, rfl, rfl⟩ := openAt_ok ho
  exact sameView_of (get_set_self _ _ _) (get_set_self _ _ _) rfl rfl rfl
    (settled_run h1 h2 h3 hfs hcs hg after e1 hu2 j (settled_src h1 h2 G1 hj))

/-- **C129 is false**, whatever is stored and committed: when a commit of another application comes to its end between the
moment `Open` reads the reference and the moment it opens the file for the context, `Open` succeeds, the context lists the content
keys and commits from before the commit, and reads at wrong places: by at least 152 bytes too far to the front of the file. -/
theorem C129_wrong_places (cfg : Cfg) (u : Usage) (hn : Names cfg u) (hchunk : 0 < cfg.readChunkSize) (s : State)
    (hs : Reachable cfg u s) (id : Nat) (c : Ctx) (o : Pt → Fault) (now : Int) (hg : s.app.get id = some c)
    (hf : CommitFits cfg u o now s.fs s.app id c) (hok : (commit cfg o now s.fs s.app id).out = .ok ()) (hne : c.reference ≠ none)
    (hpend : c.contentList ≠ []) (hlink : s.fs.dir (cfg.path c.name) = some c.conn.ino) :
    ∃ a k, openAt cfg s.fs s.fs (commit cfg o now s.fs s.app id).fs [] c.name = .ok (0, a) ∧ 152 ≤ k ∧
      contentKeys a 0 = contentKeys s.app id ∧ commits a 0 = commits s.app id ∧
      ∀ p : Pointer, k ≤ p.from' → read (commit cfg o now s.fs s.app id).fs a 0 p =
        read (commit cfg o now s.fs s.app id).fs (commit cfg o now s.fs s.app id).app id ⟨p.from' - k, p.length⟩ := by
  have hinv := hs.inv hn
  have hc : CtxOK cfg u s.fs c := hinv.ctxs _ (get_mem hg)
  obtain ⟨t, r, j, d, T⟩ := commit_success hn hinv hg hf hok
  obtain ⟨r0, hr0⟩ := Option.ne_none_iff_exists'.mp hne
  have hgrow := refData_grows hc hr0 T.updated hf.data hpend
  obtain ⟨q1, q2⟩ := retrieve_ctx hc hchunk hr0
  refine ⟨_, (refData r).length - (refData r0).length, openAt_eq (r := (some r0, (refData r0).length)) rfl hlink T.dir q1, by omega, ?_, ?_, ?_⟩
  · unfold contentKeys
    rw [show ([] : App).length = 0 from rfl, get_set_self, hg]
    simp [hr0]
  · unfold commits
    rw [show ([] : App).length = 0 from rfl, get_set_self, hg]
    simp [hr0]
  · intro p hp
    unfold DB.read
    rw [T.app, show ([] : App).length = 0 from rfl, get_set_self, get_set_self]
    simp only
    congr 2
    omega

/-- **C129 is false**, what this leads to: a database holds one content, another application commits a second one while the
database is being opened. Opened before or after, the first content is read back; opened before and after, it is listed and other
bytes are read. If a third content is then written and committed through this context, the commit reports success, and from
then on the database itself lists the first content with these other bytes, and the content of the other application is gone. -/
theorem C129_negation (S : Sha) : ∃ (cfg : Cfg) (u : Usage) (s : State) (C D : Committed) (x y z : Content) (b e a a' f : App) (key : ContentKey)
    (kb ka kf : ContentKeys) (bytes : Bytes),
    cfg.S = S ∧ Names cfg u ∧ Reachable cfg u s ∧ C = commit cfg calm 9 s.fs s.app 0 ∧ C.out = .ok () ∧
    (∃ c, s.app.get 0 = some c ∧ c.contentList = [y]) ∧
    -- before, and after
    (openAt cfg s.fs s.fs s.fs [] ['a'] = .ok (0, b) ∧ contentKeys b 0 = .ok kb ∧ key ∈ kb.list ∧ key.hash = x.hash ∧
      DB.read s.fs b 0 key.content = .ok x.data) ∧
    (openAt cfg C.fs C.fs C.fs [] ['a'] = .ok (0, e) ∧ DB.read C.fs e 0 key.content = .ok x.data) ∧
    -- the reference before, the file after
    (openAt cfg s.fs s.fs C.fs [] ['a'] = .ok (0, a) ∧ contentKeys a 0 = .ok ka ∧ key ∈ ka.list ∧
      DB.read C.fs a 0 key.content = .ok bytes ∧ bytes ≠ x.data) ∧
    -- a commit through this context
    (DB.write a 0 z.hash z.data z.kind = .ok a' ∧ D = commit cfg calm 12 C.fs a' 0 ∧ D.out = .ok () ∧
      open' cfg D.fs [] ['a'] = .ok (0, f) ∧ contentKeys f 0 = .ok kf ∧ key ∈ kf.list ∧
      DB.read D.fs f 0 key.content = .ok bytes ∧ ∀ q ∈ kf.list, q.hash ≠ y.hash) := by
  obtain ⟨s, c, r0, key, h⟩ := long_ready S True
  obtain ⟨hok, hfits, r, j, hgrow, hle, happ, hdir, hino⟩ := h.commit
  have hn := sampleNames S 10000 True
  have hinv := h.reachable.inv hn
  have hc : CtxOK (sampleCfg S 10000) (sampleUsage True) s.fs c := hinv.ctxs _ (get_mem h.get)
  obtain ⟨s0, h0, hst⟩ := h.reachable
  have hinv2 := (show Reachable (sampleCfg S 10000) (sampleUsage True) _ from
    ⟨s0, h0, .tail _ _ _ hst (.commit s 0 c calm 9 h.get hfits)⟩).inv hn
  generalize hC : commit (sampleCfg S 10000) calm 9 s.fs s.app 0 = C at *
  have hget2 := get_set_self s.app 0 { c with conn := ⟨j, 0, true⟩, reference := some r, dataOffset := (refData r).length }
  rw [← happ] at hget2
  have hc2 : CtxOK (sampleCfg S 10000) (sampleUsage True) C.fs _ := hinv2.ctxs _ (get_mem hget2)
  have hl := contentL_length
  have hle0 := h.le
  have hch : 0 < (sampleCfg S 10000).readChunkSize := by simp [sampleCfg]
  obtain ⟨ret0, _⟩ := retrieve_ctx hc hch h.reference
  obtain ⟨ret1, _⟩ := retrieve_ctx hc2 hch rfl
  have hc0 := (hc.holds.ref r0 h.reference)
  have hdir' : C.fs.dir ((sampleCfg S 10000).path ['a']) = some j := hdir
  -- the context with the old reference on the new file
  obtain ⟨M, hM⟩ : ∃ M : Ctx, M = ⟨['a'], ⟨j, 0, true⟩, some r0, (refData r0).length, [contentX]⟩ := ⟨_, rfl⟩
  have hMref : ∀ r', M.reference = some r' → RefOK (sampleCfg S 10000) r' := by
    intro r' hr'
    rw [hM] at hr'
    cases hr'
    exact hc0
  have hMp : ∀ x ∈ M.contentList, x.WF := by
    rw [hM]
    simp [contentX, Content.WF]
  have hMt : total (oldKeys M.reference) = 4001 := by
    rw [hM]
    simp only [oldKeys, h.keys]
    simp [total, h.content]
  have hMfit : total (oldKeys M.reference) + (allData M.contentList).length < 2 ^ 63 := by
    rw [hMt, hM]
    simp [allData, contentX]
  obtain ⟨t2, r2, hr2, hu2⟩ := updateReference_ok (sampleCfg S 10000) M 12 (by rw [hM]; simp) hMp hMref hMfit
  have hFlen : (C.fs.ino j).length = (refData r).length + 4003 := by
    rw [hino, List.length_append, List.length_append, hl]
    rfl
  have hMino : M.conn.ino = j := by rw [hM]
  obtain ⟨w', j2, hrun, E⟩ := updateDatabase_calm (sampleCfg S 10000) M r2 C.fs hinv2.good
    (hn.distinct (by rw [hM]; simp [sampleUsage])) (by rw [hM]) (by rw [hMino]; exact hc2.lt)
    (by
      rw [hMino]
      intro e
      have := hc2.only _ e
      rw [show c.name = ['a'] from h.name] at this
      exact hn.dst ['a'] ['a'] (by simp [sampleUsage]) (by simp [sampleUsage]) (by rw [hM] at this; exact this.symm))
    (.inr ⟨hch, by rw [hMino, hFlen, hM]; simp only; omega, by rw [hMino, hFlen]; omega⟩)
  have hcon : w'.fs.ino j2 = refData r2 ++ ((C.fs.ino j).drop (refData r0).length ++ contentX.data) := by
    rw [E.content, newFile, carried, hM]
    simp only
    rw [kept_eq _ _ (.inl (by rw [List.length_drop, hFlen]; simp only [sampleCfg]; omega))]
    simp
  have hold : oldKeys M.reference = [key] := by rw [hM]; exact h.keys
  have holdc : oldCommits M.reference = r0.commits.list := by rw [hM]; rfl
  have hpend : M.contentList = [contentX] := by rw [hM]
  have hlen2 : (refData r2).length ≤ 2 ^ 20 := by
    have hsize : (HashTree.toContent t2).length = 200 := build_one_length _ _ _ (by
      have := hu2.tree
      rw [hpend] at this
      exact this)
    have hsm : SmallCommits r2.commits.list := by
      intro y hy
      rw [hu2.commits] at hy
      rcases List.mem_append.mp hy with hy | hy
      · rw [holdc] at hy
        exact h.small y hy
      · simp only [List.mem_singleton] at hy
        subst hy
        exact smallCommits_new hsize (lastHash_length (sampleCfg S 10000) _ hMref)
    have hkeys : ∀ k ∈ r2.contentKeys.list, k.WF := by
      intro k hk
      rw [hu2.keys] at hk
      rcases List.mem_append.mp hk with hk | hk
      · rw [hold, ← h.keys] at hk
        exact hc0.wf.keys k hk
      · exact (keysFrom_wf _ (commitNow_hash_length _ _ _ _ _ _) _ _ hMp hMfit k hk).1
    have hlen := refData_length_le hkeys hsm
    rw [hu2.keys, hu2.commits, holdc, hold, hpend, List.length_append, List.length_append, h.commits, keysFrom_length] at hlen
    simp only [List.length_cons, List.length_nil] at hlen
    omega
  have hok2 : RefOK (sampleCfg S 10000) r2 := hu2.refOK hMp hMref (by decide) (by decide) hMfit (by
    rw [refData_length] at hlen2; omega)
  have hcom : commit (sampleCfg S 10000) calm 12 C.fs [(0, M)] 0 =
      finish C.fs [(0, M)] 0 M r2 (.ok (⟨j2, 0, true⟩, (refData r2).length), w') := by
    unfold commit
    rw [show App.get [(0, M)] 0 = some M from rfl]
    simp only [hr2, hrun]
  have ret2 : retrieveReference (sampleCfg S 10000) (w'.fs.ino j2) = .ok (some r2, (refData r2).length) := by
    rw [hcon]
    exact retrieveReference_refData _ hch r2 hok2.wf _
  have hdir2 : w'.fs.dir ((sampleCfg S 10000).path ['a']) = some j2 := by
    have := E.dir
    rw [hM] at this
    exact this
  have hcn := h.content
  refine ⟨_, _, s, C, commit (sampleCfg S 10000) calm 12 C.fs [(0, M)] 0, contentL, contentY, contentX, _, _, _, [(0, M)],
    App.set [] 0 ⟨['a'], ⟨j2, 0, true⟩, some r2, (refData r2).length, []⟩, key,
    r0.contentKeys, r0.contentKeys, r2.contentKeys,
    ((C.fs.ino j).drop (refData r0).length).take 4001, rfl, hn, ⟨s0, h0, hst⟩, hC.symm, hok, ⟨c, h.get, h.pending⟩,
    ⟨openAt_eq rfl h.linked h.linked ret0, rfl, by rw [h.keys]; simp, h.hash, ?_⟩, ⟨openAt_eq rfl hdir' hdir' ret1, ?_⟩,
    ⟨openAt_eq rfl h.linked hdir' ret0, rfl, by rw [h.keys]; simp, ?_, ?_⟩, ?_, rfl, by rw [hcom]; rfl, ?_, ?_, ?_, ?_, ?_⟩
  · rw [hcn]
    refine read_front (get_set_self _ _ _) (by omega) (by decide) (by rw [h.file, List.length_append, hl]) ?_
    rw [h.file, List.drop_left, List.take_of_length_le (by rw [hl])]
  · rw [hcn]
    refine read_front (get_set_self _ _ _) (by omega) (by decide) (by simp only; rw [hFlen]; omega) ?_
    simp only
    rw [hino, List.drop_left, List.take_left' hl]
  · rw [hcn]
    exact read_front (get_set_self _ _ _) (by omega) (by decide) (by rw [hFlen]; omega) rfl
  · exact shifted_ne _ hino (by omega) (by omega)
  · rw [hM]
    rfl
  · rw [hcom, ← openAt_alone]
    exact openAt_eq rfl hdir2 hdir2 ret2
  · rfl
  · rw [hu2.keys, hold]; simp
  · rw [hcn, hcom]
    refine read_front (get_set_self _ _ _) (by omega) (by decide) ?_ ?_
    · simp only [finish]
      rw [hcon, List.length_append, List.length_append, List.length_drop, hFlen]
      omega
    · simp only [finish]
      rw [hcon, List.drop_left, List.take_append_of_le_length (by rw [List.length_drop, hFlen]; omega)]
  · intro q hq
    rw [hu2.keys, hold, hpend] at hq
    simp only [keysFrom, List.cons_append, List.nil_append, List.mem_cons, List.not_mem_nil, or_false] at hq
    rcases hq with rfl | rfl
    · rw [h.hash]
      decide
    · show contentX.hash ≠ contentY.hash
      decide

/-- **C129 is false** also for one process that commits without any fault: when the database is opened between the removal of
the old file and the renaming of the new one, `Open` reports that it is not there, although it is there before and after. -/
theorem C129_missing (cfg : Cfg) (n1 : cfg.path ['d', 'b'] ≠ cfg.dst ['d', 'b']) (n2 : cfg.path ['d', 'b'] ≠ cfg.bck ['d', 'b'])
    (n3 : cfg.dst ['d', 'b'] ≠ cfg.bck ['d', 'b']) (hchunk : 0 < cfg.readChunkSize) (x : Content) (r : Reference)
    (hr : r.WF cfg.S cfg.miningValue) :
    let start := System.start cfg (emptyDbFs cfg) (twoClients (.commit (emptyDbCtx x) r fun _ => .done) .done)
    let s (k : Nat) := (start.run (List.replicate k 0)).shared.fs
    (∃ a, openAt cfg (s 0) (s 0) (s 0) [] ['d', 'b'] = .ok (0, a)) ∧
    openAt cfg (s 9) (s 9) (s 9) [] ['d', 'b'] = .err ∧
    openAt cfg (s 8) (s 8) (s 9) [] ['d', 'b'] = .err ∧
    ∃ a, openAt cfg (s 10) (s 10) (s 10) [] ['d', 'b'] = .ok (0, a) := by
  intro start s
  have hret := fun d => retrieveReference_refData cfg hchunk r hr d
  generalize hfile : refData r = f at hret
  have e : start = ⟨⟨emptyDbFs cfg, fun _ => none⟩, fun p =>
      if p = 0 then .op (.lockOpen (cfg.path ['d', 'b'])) (fun (i : Nat) =>
        .op (.flock i) (fun (got : Bool) =>
          (if got then (bodyProg cfg (emptyDbCtx x) r).bind (unlockProg i) else .ret .err).bind (andThen cfg fun _ => .done)))
      else .ret ()⟩ := by
    simp only [start, System.start]
    congr 1
    funext p
    unfold twoClients
    by_cases h0 : p = 0
    · simp only [h0, if_true]
      rw [prog_commit]
      rfl
    · simp only [h0, if_false, ite_self]
      rw [Client.prog]
  have hdir : (s 0).dir (cfg.path ['d', 'b']) = some 0 ∧ (s 0).ino 0 = [] ∧ (s 8).dir (cfg.path ['d', 'b']) = some 0 ∧
      (s 8).ino 0 = [] ∧ (s 9).dir (cfg.path ['d', 'b']) = none ∧ (s 10).dir (cfg.path ['d', 'b']) = some 1 ∧
      (s 10).ino 1 = writeBytes (writeBytes [] 0 f) f.length x.data := by
    simp only [s]
    rw [e]
    generalize hp : cfg.path ['d', 'b'] = p at *
    generalize hd : cfg.dst ['d', 'b'] = d at *
    generalize hb : cfg.bck ['d', 'b'] = b at *
    have m1 := n1.symm
    have m2 := n2.symm
    have m3 := n3.symm
    refine ⟨?_, ?_, ?_, ?_, ?_, ?_, ?_⟩ <;>
    simp [System.run, System.step, exec, upd, emptyDbFs, emptyDbCtx, FS.touch, FS.create, FS.createIno, FS.write,
      FS.remove, FS.rename, bodyProg, destinationProg, copyOldProg, contentsProg, backupProg, swapProg, Prog.next, Prog.bind,
      unlockProg, andThen, List.replicate, hp, hd, hb, n1, n2, n3, m1, m2, m3, hfile]
  obtain ⟨d1, d2, d3, d4, d5, d6, d7⟩ := hdir
  have hempty : retrieveReference cfg [] = .ok (none, 0) := by
    unfold retrieveReference readAt
    simp
  refine ⟨⟨_, openAt_eq rfl d1 d1 (by rw [d2]; exact hempty)⟩, ?_, ?_, ⟨_, openAt_eq rfl d6 d6 (r := (some r, f.length)) ?_⟩⟩
  · unfold openAt
    rw [d5]
    rfl
  · unfold openAt
    rw [d3, d5]
    simp only
    rw [d4, hempty]
    rfl
  · rw [d7]
    have w1 : writeBytes [] 0 f = f := by simp [writeBytes]
    have w2 : writeBytes f f.length x.data = f ++ x.data := by simp [writeBytes]
    rw [w1, w2]
    exact hret _

/-- The hypotheses of `C129_missing` hold for the usual file names and the reference of a commit. -/
example (S : Sha) : let cfg := sampleCfg S 10000
    cfg.path ['d', 'b'] ≠ cfg.dst ['d', 'b'] ∧ cfg.path ['d', 'b'] ≠ cfg.bck ['d', 'b'] ∧ cfg.dst ['d', 'b'] ≠ cfg.bck ['d', 'b'] ∧
    0 < cfg.readChunkSize ∧ ∃ r : Reference, r.WF cfg.S cfg.miningValue ∧ r.contentKeys.list ≠ [] := by
  refine ⟨?_, ?_, ?_, ?_, ?_⟩
  · simp [sampleCfg, Cfg.dst]
  · simp [sampleCfg, Cfg.bck]
  · simp [sampleCfg, Cfg.dst, Cfg.bck]
  · simp [sampleCfg]
  · obtain ⟨s, c, r0, key, h⟩ := long_ready S True
    have hinv := h.reachable.inv (sampleNames S 10000 True)
    exact ⟨r0, ((hinv.ctxs _ (get_mem h.get)).holds.ref r0 h.reference).wf, by rw [h.keys]; simp⟩

/-- The hypotheses of `C129_wrong_places` hold of a database with one commit and a content pending. -/
example (S : Sha) : ∃ (s : State) (c : Ctx), let cfg := sampleCfg S 10000
    Names cfg (sampleUsage True) ∧ 0 < cfg.readChunkSize ∧ Reachable cfg (sampleUsage True) s ∧ s.app.get 0 = some c ∧
    CommitFits cfg (sampleUsage True) calm 9 s.fs s.app 0 c ∧ (commit cfg calm 9 s.fs s.app 0).out = .ok () ∧ c.reference ≠ none ∧
    c.contentList ≠ [] ∧ s.fs.dir (cfg.path c.name) = some c.conn.ino := by
  obtain ⟨s, c, r0, key, h⟩ := long_ready S True
  obtain ⟨hok, hfits, _⟩ := h.commit
  exact ⟨s, c, sampleNames S 10000 True, by simp [sampleCfg], h.reachable, h.get, hfits, hok, by rw [h.reference]; simp,
    by rw [h.pending]; simp, by rw [h.name]; exact h.linked⟩

/-- The hypotheses of `C129_whole_commits_partial` and `C94_overlapping_partial`: a database that is opened while the first
of two processes is in the middle of a commit, the second being refused meanwhile, and that is looked at when the first has
gone on. -/
example (S : Sha) (rA rB : Reference) (x y : Content) :
    let cfg := sampleCfg S 4
    let cs := twoClients (.commit (emptyDbCtx x) rA fun _ => .done)
      (.commit (emptyDbCtx y) rB fun _ => .done)
    let start := System.start cfg (emptyDbFs cfg) cs
    let first := [0, 0, 0, 1, 1]
    let second := [0]
    let third := [0]
    cfg.dst ['d', 'b'] ≠ cfg.bck ['d', 'b'] ∧ FsGood (emptyDbFs cfg) ∧
    Undisturbed (cfg.path ['d', 'b']) start (first ++ (second ++ third)) ∧
    let s1 := start.run first
    let s2 := s1.run second
    let s3 := s2.run third
    (∃ a, openAt cfg s1.shared.fs s2.shared.fs s3.shared.fs [] ['d', 'b'] = .ok (0, a)) ∧
    s3.shared.fs.dir (cfg.path ['d', 'b']) = s1.shared.fs.dir (cfg.path ['d', 'b']) ∧ s1.shared.locks 0 = some 0 := by
  intro cfg cs start first second third
  have n1 : cfg.path ['d', 'b'] ≠ cfg.dst ['d', 'b'] := by simp [cfg, sampleCfg, Cfg.dst]
  have n2 : cfg.path ['d', 'b'] ≠ cfg.bck ['d', 'b'] := by simp [cfg, sampleCfg, Cfg.bck]
  have n3 : cfg.dst ['d', 'b'] ≠ cfg.bck ['d', 'b'] := by simp [cfg, sampleCfg, Cfg.bck, Cfg.dst]
  have e : start = ⟨⟨emptyDbFs cfg, fun _ => none⟩, fun p => (cs p).prog cfg⟩ := rfl
  refine ⟨n3, ?_, ?_⟩
  · refine ⟨?_, ?_⟩
    · intro p i h
      simp only [emptyDbFs, upd] at h ⊢
      split at h <;> simp_all
    · intro p q i hp hq
      simp only [emptyDbFs, upd] at hp hq
      split at hp <;> split at hq <;> simp_all
  have hempty : retrieveReference cfg [] = .ok (none, 0) := by
    unfold retrieveReference readAt
    simp
  rw [e]
  generalize hp : cfg.path ['d', 'b'] = p at *
  generalize hd : cfg.dst ['d', 'b'] = d at *
  generalize hb : cfg.bck ['d', 'b'] = b at *
  have m1 := n1.symm
  have m2 := n2.symm
  have m3 := n3.symm
  refine ⟨?_, ⟨_, openAt_eq (i := 0) (j := 0) (r := (none, 0)) rfl ?_ ?_ ?_⟩, ?_, ?_⟩
  all_goals
    simp [first, second, third, cs, twoClients, prog_commit, Client.prog, Undisturbed, Undisturbing, LocksCurrent, System.run, System.step, exec,
        upd, emptyDbFs, emptyDbCtx, FS.touch, FS.create, FS.createIno, FS.write, bodyProg, destinationProg, copyOldProg, contentsProg,
        Prog.next, Prog.bind, hp, hd, hb, n1, n2, n3, m1, m2, m3, hempty]

end Props
end Rodkina
