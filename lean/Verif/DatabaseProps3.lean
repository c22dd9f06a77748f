import Verif.DatabaseProps2
/-! Property theorems for the file database, C37-C39 and C66-C71: failed commits, other applications, whole histories. -/

namespace Rodkina
namespace Props

open Ref DB

/-! ### C37 and C67 -/

/-- What a commit that fails at or before the removal of the old file leaves. -/
theorem early_failure {cfg : Cfg} {u : Usage} (hn : Names cfg u) {s : State} (h : Inv cfg u s) {id : Nat} {c : Ctx}
    {o : Pt → Fault} {now : Int} (hg : s.app.get id = some c) (he : ¬ Early o) :
    (commit cfg o now s.fs s.app id).out ≠ .ok () ∧
    (∀ f, s.fs.file (cfg.path c.name) = some f → (commit cfg o now s.fs s.app id).fs.file (cfg.path c.name) = some f) ∧
    ∃ conn, ((commit cfg o now s.fs s.app id).app = s.app.set id { c with conn := conn } ∨
        (commit cfg o now s.fs s.app id).app = s.app ∧ conn = c.conn) ∧
      conn.ino = c.conn.ino ∧ (o .closeConn = .none → o .removeSrc = .none → conn.isOpen = c.conn.isOpen) := by
  have hc : CtxOK cfg u s.fs c := h.ctxs _ (get_mem hg)
  rcases commit_cases cfg o now s.fs s.app id c hg with ⟨h1, h2, h3⟩ | ⟨r, hr, heq⟩
  · refine ⟨?_, fun f hf => by rw [h1]; exact hf, c.conn, .inr ⟨h2, rfl⟩, rfl, fun _ _ => rfl⟩
    unfold commit
    rw [hg]
    simp only
    cases hu : updateReference cfg c now with
    | ok r => exact absurd hu (h3 r)
    | err => simp
    | panic => simp
  obtain ⟨ht, hi, hp⟩ := updateDatabase_any cfg o c r s.fs h.good (hn.distinct hc.name) hc.lt
    (hc.dst_ne hn hc.name _ (.inl rfl))
  obtain ⟨e1, e2⟩ := finish_eq s.fs s.app id c r ((updateDatabaseOnFile cfg o c r).run ⟨s.fs, c.conn⟩)
  rw [heq, e1, e2]
  clear heq e1 e2
  generalize (updateDatabaseOnFile cfg o c r).run ⟨s.fs, c.conn⟩ = x at *
  obtain ⟨out, w⟩ := x
  simp only at ht hi hp ⊢
  cases hp with
  | gone _ _ _ _ _ _ _ _ _ _ e => exact absurd e he
  | late _ _ _ _ _ _ _ _ _ _ e => exact absurd e he
  | new _ _ _ _ _ _ _ _ e _ => exact absurd e he
  | old _ _ hs hd hconn =>
    refine ⟨?_, ?_, w.conn, .inl (by rw [finishCtx_stop _ _ hs]), hi, ?_⟩
    · rw [finish_out _ _ _ _ _ hs]
      cases out with
      | ok v => exact absurd hs (by simp [Out.stop])
      | err => simp [Out.cast]
      | panic => simp [Out.cast]
      | crash => simp [Out.cast]
      | hang => simp [Out.cast]
    · intro f hf
      unfold FS.file at hf ⊢
      cases hdir : s.fs.dir (cfg.path c.name) with
      | none => rw [hdir] at hf; cases hf
      | some i =>
        rw [hdir] at hf hd
        rcases hd with hd | ⟨hd, _⟩
        · rw [hd, Option.map_some, ht.ino i (h.good.1 _ _ hdir)]
          · exact hf
          intro p hp hdp
          have := h.good.2 _ _ _ hdp hdir
          rcases hp with rfl | rfl
          · exact hn.dst _ _ hc.name hc.name this.symm
          · exact hn.bck _ _ hc.name hc.name this.symm
        · cases hd
    · intro q1 q2
      rcases hconn with hconn | ⟨_, hconn | hconn⟩
      · exact hconn
      · exact absurd q1 hconn
      · exact absurd q2 hconn

/-- C37: when any file operation of a commit up to and including the removal of the old file fails or is the last thing the
process does (apart from the reads and writes whose failure the code ignores), the commit does not report success and the
database file is byte for byte what it was. -/
theorem C37_failed_commit_keeps_the_file (cfg : Cfg) (u : Usage) (hn : Names cfg u) (s : State) (hs : Reachable cfg u s)
    (id : Nat) (c : Ctx) (o : Pt → Fault) (now : Int) (hg : s.app.get id = some c)
    (hfail : ∃ p ∈ [Pt.tryLock, .createDst, .writeRef, .createBck, .copyBck, .closeBck, .closeConn, .removeSrc], o p ≠ .none)
    (f : Bytes) (hf : s.fs.file (cfg.path c.name) = some f) :
    (commit cfg o now s.fs s.app id).out ≠ .ok () ∧
    (commit cfg o now s.fs s.app id).fs.file (cfg.path c.name) = some f := by
  have he : ¬ Early o := by
    rintro ⟨h1, h2, h3, h4, h5, h6, h7, h8⟩
    obtain ⟨p, hp, hne⟩ := hfail
    simp only [List.mem_cons, List.not_mem_nil, or_false] at hp
    rcases hp with rfl | rfl | rfl | rfl | rfl | rfl | rfl | rfl <;> exact hne ‹_›
  obtain ⟨h1, h2, _⟩ := early_failure (now := now) hn (hs.inv hn) hg he
  exact ⟨h1, h2 f hf⟩

example (S : Sha) : ∃ cfg u s c f, cfg.S = S ∧ Names cfg u ∧ Reachable cfg u s ∧ s.app.get 0 = some c ∧ c.reference ≠ none ∧
    s.fs.file (cfg.path c.name) = some f ∧ oneFault .writeRef (.crash 7) .writeRef ≠ .none := by
  obtain ⟨s, c, h⟩ := sample_ready S 10 True
  obtain ⟨_, _, _, _, _, hfile, _⟩ := ready_facts h (by decide) (by decide)
  exact ⟨_, _, s, c, _, rfl, sampleNames S 10 True, h.reachable, h.get, h.reference, hfile, by simp [oneFault]⟩

/-- C37, continued: after a failure before the old handle is closed, the context shows exactly what it showed before, still has
the same pending contents, and the next commit without faults succeeds. -/
theorem C37_commit_can_be_retried (cfg : Cfg) (u : Usage) (hn : Names cfg u) (hl : u.lossless) (hchunk : 0 < cfg.readChunkSize)
    (s : State) (hs : Reachable cfg u s) (id : Nat) (c : Ctx) (o : Pt → Fault) (now later : Int) (hg : s.app.get id = some c)
    (hopen : c.conn.isOpen = true) (hne : c.contentList ≠ []) (hf : CommitFits cfg u o now s.fs s.app id c)
    (hfail : ∃ p ∈ [Pt.tryLock, .createDst, .writeRef, .createBck, .copyBck, .closeBck], o p ≠ .none)
    (h1 : o .closeConn = .none) (h2 : o .removeSrc = .none) (s' : State)
    (hs' : s' = ⟨(commit cfg o now s.fs s.app id).fs, (commit cfg o now s.fs s.app id).app⟩) :
    SameView s.fs s.app id s'.fs s'.app id ∧
    (∃ c', s'.app.get id = some c' ∧ c'.contentList = c.contentList) ∧
    (commit cfg calm later s'.fs s'.app id).out = .ok () := by
  have he : ¬ Early o := by
    rintro ⟨h1, h2, h3, h4, h5, h6, h7, h8⟩
    obtain ⟨p, hp, hne⟩ := hfail
    simp only [List.mem_cons, List.not_mem_nil, or_false] at hp
    rcases hp with rfl | rfl | rfl | rfl | rfl | rfl <;> exact hne ‹_›
  have hinv := hs.inv hn
  obtain ⟨_, _, conn, happ, hino, hop⟩ := early_failure (now := now) hn hinv hg he
  have hop := (hop h1 h2).trans hopen
  have hinv' := inv_commit hn hinv hg hf
  obtain ⟨_, hframe, _⟩ := commit_frame (o := o) (now := now) hn hinv hg
  have hframe := hframe _ (get_mem hg)
  simp only at hframe
  have hget : (commit cfg o now s.fs s.app id).app.get id = some { c with conn := conn } := by
    rcases happ with happ | ⟨happ, rfl⟩
    · rw [happ, get_set_self]
    · rw [happ]; exact hg
  subst hs'
  refine ⟨sameView_of hg hget rfl rfl (by simp only [hop, hopen]) (by simp only [hino]; exact hframe), ⟨_, hget, rfl⟩, ?_⟩
  exact commit_progress hn hl hchunk hinv' hget hop hne hf.data

example (S : Sha) : ∃ cfg u s c, cfg.S = S ∧ Names cfg u ∧ u.lossless ∧ 0 < cfg.readChunkSize ∧ Reachable cfg u s ∧
    s.app.get 0 = some c ∧ c.conn.isOpen = true ∧ c.contentList ≠ [] ∧ c.reference ≠ none ∧
    CommitFits cfg u (oneFault .copyBck (.fail 3)) 9 s.fs s.app 0 c ∧ oneFault .copyBck (.fail 3) .copyBck ≠ .none := by
  obtain ⟨s, c, h⟩ := sample_ready S 10 True
  exact ⟨_, _, s, c, rfl, sampleNames S 10 True, trivial, by simp [sampleCfg], h.reachable, h.get, h.isOpen,
    by rw [h.pending]; simp, h.reference,
    sample_fits_any S 10 True h (by decide) (by decide) (by decide) _ (by intro i j; simp [oneFault]), by simp [oneFault]⟩

/-- A failing removal of the old file leaves the handle closed. -/
theorem removeSrc_fault (cfg : Cfg) (o : Pt → Fault) (c : Ctx) (r : Reference) (fs : FS) (hg : FsGood fs)
    (hd : cfg.Distinct c.name) (hopen : c.conn.isOpen = true) (x : Nat) (w2 : World) (k : Nat)
    (q1 : o .tryLock = .none) (q2 : o .createBck = .none) (q3 : o .copyBck = .none) (q4 : o .closeBck = .none)
    (q5 : o .closeConn = .none) (q6 : o .removeSrc = .fail k)
    (hw : (writeDestination cfg o c r).run ⟨fs.touch (cfg.path c.name), c.conn⟩ = (.ok x, w2)) :
    ∃ w', (updateDatabaseOnFile cfg o c r).run ⟨fs, c.conn⟩ = (.err, w') ∧ w'.conn.isOpen = false := by
  obtain ⟨w3, e, h1, h2, _⟩ := reach_swap cfg o c r fs hg hd hopen x w2 q1 q2 q3 q4 hw
  have hs : ∃ w', (swap cfg o c.name).run w3 = (.err, w') ∧ w'.conn.isOpen = false := by
    unfold swap
    rw [q5, bind_ok_eq (closeConn_none w3 h1), bind_def, q6]
    have : (w3.fs.dir (cfg.path c.name)).isSome = true := by cases h' : w3.fs.dir (cfg.path c.name) <;> simp_all
    unfold removeOp
    simp only [this, if_true, atomic, attempt]
    exact ⟨_, rfl, rfl⟩
  obtain ⟨w', hs, hc⟩ := hs
  refine ⟨w', ?_, hc⟩
  rw [e, bind_def, hs]

theorem copyOld_closed (cfg : Cfg) (o : Pt → Fault) (c : Ctx) (i wo : Nat) (w : World) (hclosed : w.conn.isOpen = false)
    (hcr : c.reference ≠ none) : (copyOld cfg o c i wo).run w = (.panic, w) := by
  unfold copyOld
  cases hr : c.reference with
  | none => exact absurd hr hcr
  | some r =>
    have : statSize.run w = (.panic, w) := by unfold statSize; simp [hclosed]
    exact bind_stop this (by simp [Out.stop])

theorem closed_update (cfg : Cfg) (c : Ctx) (r : Reference) (fs : FS) (hclosed : c.conn.isOpen = false) (hcr : c.reference ≠ none) :
    ∃ w3, (updateDatabaseOnFile cfg calm c r).run ⟨fs, c.conn⟩ = (.panic, w3) := by
  unfold updateDatabaseOnFile
  rw [show calm .tryLock = .none from rfl, bind_ok_eq (atomic_none _ _)]
  have hw : ∃ w3, (writeDestination cfg calm c r).run ⟨fs.touch (cfg.path c.name), c.conn⟩ = (.panic, w3) := by
    unfold writeDestination
    rw [bind_ok_eq (inoOf_run _ _), bind_ok_eq (x := createOp (calm .createDst) _) (createOp_none _ _)]
    rw [show calm .writeRef = .none from rfl, bind_ok_eq (writeOp_none _ _ _ _)]
    exact ⟨_, bind_stop (copyOld_closed cfg calm c _ _ _ hclosed hcr) (by simp [Out.stop])⟩
  obtain ⟨w3, hw⟩ := hw
  exact ⟨w3, bind_stop hw (by simp [Out.stop])⟩

/-- A context whose handle is closed and that has a reference: reading fails, closing fails, committing panics. -/
theorem closed_context (cfg : Cfg) (fs : FS) (a : App) (id : Nat) (c : Ctx) (conn : Conn) (hclosed : conn.isOpen = false)
    (hcr : c.reference ≠ none) (now : Int) (r : Reference) (hr : updateReference cfg { c with conn := conn } now = .ok r) (p : Pointer)
    (hp : p.length < 2 ^ 63) :
    read fs (a.set id { c with conn := conn }) id p = .err ∧ close (a.set id { c with conn := conn }) id = .err ∧
    open' cfg fs (a.set id { c with conn := conn }) c.name = .err ∧
    (commit cfg calm now fs (a.set id { c with conn := conn }) id).out = .panic := by
  refine ⟨?_, ?_, ?_, ?_⟩
  · unfold DB.read
    rw [get_set_self]
    simp only [connRead, hclosed]
    rw [if_neg (by omega)]
    simp
  · unfold close
    rw [get_set_self]
    simp only [hclosed]
    rfl
  · unfold open'
    rw [if_pos]
    simp [App.set]
  · unfold commit
    rw [get_set_self]
    simp only [hr]
    obtain ⟨w3, hp⟩ := closed_update cfg { c with conn := conn } r fs hclosed hcr
    rw [hp]
    simp [finish]

/-- C67 is false of the code: when the removal of the old file fails, the commit returns an error and the context can no longer
be used at all: reading what was stored fails, `Close` fails, opening the name again fails because the context is still there,
and another `Commit` panics. -/
theorem C67_failed_commit_leaves_context_unusable (S : Sha) : ∃ (cfg : Cfg) (u : Usage) (s : State) (c : Ctx) (C : Committed),
    cfg.S = S ∧ Names cfg u ∧ Reachable cfg u s ∧ s.app.get 0 = some c ∧
    C = commit cfg (oneFault .removeSrc (.fail 0)) 9 s.fs s.app 0 ∧ C.out = .err ∧
    read s.fs s.app 0 ⟨0, 5⟩ = .ok [1, 2, 3, 4, 5] ∧ read C.fs C.app 0 ⟨0, 5⟩ = .err ∧ close C.app 0 = .err ∧
    open' cfg C.fs C.app c.name = .err ∧ (commit cfg calm 10 C.fs C.app 0).out = .panic := by
  obtain ⟨s, c, h⟩ := sample_ready S 10 True
  have hn := sampleNames S 10 True
  obtain ⟨t, r, hr, hu, htouch, hfile, hne, hends, hdata, hlen⟩ := ready_facts h (by decide) (by decide)
  have hinv := h.reachable.inv hn
  have hc : CtxOK (sampleCfg S 10) (sampleUsage True) s.fs c := hinv.ctxs _ (get_mem h.get)
  have hw := writeDestination_calm (sampleCfg S 10) c r ⟨s.fs, c.conn⟩ h.isOpen hne hends
  rw [writeDestination_congr (o := calm) (o' := oneFault .removeSrc (.fail 0)) (fun k => ⟨rfl, rfl, rfl⟩) (fun k => ⟨rfl, rfl⟩) rfl rfl] at hw
  obtain ⟨w', hrun, hclosed⟩ := removeSrc_fault (sampleCfg S 10) (oneFault .removeSrc (.fail 0)) c r s.fs hinv.good
    (hn.distinct hc.name) h.isOpen _ _ 0 rfl rfl rfl rfl rfl rfl (by rw [htouch]; exact hw)
  have hcom : commit (sampleCfg S 10) (oneFault .removeSrc (.fail 0)) 9 s.fs s.app 0 =
      ⟨.err, w'.fs, s.app.set 0 { c with conn := w'.conn }⟩ := by
    unfold commit
    rw [h.get]
    simp only [hr, hrun]
    rfl
  have hread : read s.fs s.app 0 ⟨0, 5⟩ = .ok [1, 2, 3, 4, 5] := by
    rw [read_ok h.get (List.take_append_drop c.dataOffset _).symm
      (by rw [List.length_take, Nat.min_eq_left (hc.holds.bounds h.reference).1])
      (by rw [List.take_append_drop]; exact (hc.holds.bounds h.reference).2) h.isOpen (by decide) (by decide)]
    have := h.data
    unfold dataOf at this
    rw [this]
    decide
  refine ⟨_, _, s, c, _, rfl, hn, h.reachable, h.get, rfl, ?_⟩
  rw [hcom]
  obtain ⟨t2, r2, hr2, _⟩ := updateReference_ok (sampleCfg S 10) { c with conn := w'.conn } 10 (by rw [h.pending]; simp)
    hc.pending hc.holds.ref hdata
  exact ⟨rfl, hread, closed_context (sampleCfg S 10) w'.fs s.app 0 c w'.conn hclosed h.reference 10 r2 hr2 ⟨0, 5⟩ (by decide)⟩

/-- C67, what does hold: a commit that fails before it closes the old handle leaves the context showing exactly what it showed
before, and it can be closed. Missing from the full claim: failures at or after the closing of the old handle. -/
theorem C67_context_usable_after_early_failure_partial (cfg : Cfg) (u : Usage) (hn : Names cfg u) (s : State)
    (hs : Reachable cfg u s) (id : Nat) (c : Ctx) (o : Pt → Fault) (now : Int) (hg : s.app.get id = some c)
    (hopen : c.conn.isOpen = true)
    (hfail : ∃ p ∈ [Pt.tryLock, .createDst, .writeRef, .createBck, .copyBck, .closeBck], o p ≠ .none)
    (h1 : o .closeConn = .none) (h2 : o .removeSrc = .none) (C : Committed) (hC : C = commit cfg o now s.fs s.app id) :
    SameView s.fs s.app id C.fs C.app id ∧ ∃ a', close C.app id = .ok a' ∧ a'.get id = none := by
  have he : ¬ Early o := by
    rintro ⟨h1, h2, h3, h4, h5, h6, h7, h8⟩
    obtain ⟨p, hp, hne⟩ := hfail
    simp only [List.mem_cons, List.not_mem_nil, or_false] at hp
    rcases hp with rfl | rfl | rfl | rfl | rfl | rfl <;> exact hne ‹_›
  have hinv := hs.inv hn
  obtain ⟨_, _, conn, happ, hino, hop⟩ := early_failure (now := now) hn hinv hg he
  have hop := (hop h1 h2).trans hopen
  obtain ⟨_, hframe, _⟩ := commit_frame (o := o) (now := now) hn hinv hg
  have hframe := hframe _ (get_mem hg)
  simp only at hframe
  have hget : (commit cfg o now s.fs s.app id).app.get id = some { c with conn := conn } := by
    rcases happ with happ | ⟨happ, rfl⟩
    · rw [happ, get_set_self]
    · rw [happ]; exact hg
  subst hC
  refine ⟨sameView_of hg hget rfl rfl (by simp only [hop, hopen]) (by simp only [hino]; exact hframe),
    (commit cfg o now s.fs s.app id).app.delete id, ?_, get_delete_self _ _⟩
  unfold close
  rw [hget]
  simp [hop]

example (S : Sha) : ∃ cfg u s c, cfg.S = S ∧ Names cfg u ∧ Reachable cfg u s ∧ s.app.get 0 = some c ∧ c.conn.isOpen = true ∧
    c.reference ≠ none ∧ oneFault .closeBck (.fail 0) .closeBck ≠ .none ∧ oneFault .closeBck (.fail 0) .closeConn = .none := by
  obtain ⟨s, c, h⟩ := sample_ready S 10 True
  exact ⟨_, _, s, c, rfl, sampleNames S 10 True, h.reachable, h.get, h.isOpen, h.reference, by simp [oneFault], by simp [oneFault]⟩

/-! ### C66 -/

/-- C66 is false of the code: when the first read of the stored data fails, the commit reports success although afterwards
nothing the database lists can be read, neither what was stored before nor what was just committed. -/
theorem C66_success_without_storing (S : Sha) : ∃ (cfg : Cfg) (u : Usage) (s : State) (c : Ctx) (C : Committed) (k : ContentKeys),
    cfg.S = S ∧ Names cfg u ∧ Reachable cfg u s ∧ s.app.get 0 = some c ∧ c.contentList = [contentY] ∧
    C = commit cfg (oneFault (.copyRead 0) (.fail 0)) 9 s.fs s.app 0 ∧ C.out = .ok () ∧
    contentKeys C.app 0 = .ok k ∧ k.list.length = 2 ∧ ∀ x ∈ k.list, ∀ b, read C.fs C.app 0 x.content ≠ .ok b := by
  obtain ⟨s, c, h⟩ := sample_ready S 10 False
  have hn := sampleNames S 10 False
  obtain ⟨t, r, hr, hu, htouch, hfile, hne, hends, hdata, hlen⟩ := ready_facts h (by decide) (by decide)
  have hinv := h.reachable.inv hn
  have hc : CtxOK (sampleCfg S 10) (sampleUsage False) s.fs c := hinv.ctxs _ (get_mem h.get)
  have hw := writeDestination_readFails (sampleCfg S 10) c r ⟨s.fs, c.conn⟩ h.isOpen hne h.reference hends
  obtain ⟨w', hrun, hd, hi⟩ := quiet_commit (sampleCfg S 10) (oneFault (.copyRead 0) (.fail 0)) c r s.fs hinv.good
    (hn.distinct hc.name) h.isOpen _ _ ⟨rfl, rfl, rfl, rfl, rfl, rfl, rfl, rfl⟩ rfl rfl rfl (by rw [htouch]; exact hw)
  rw [htouch] at hd hi hrun
  simp only [setIno_ino] at hi
  have hcom : commit (sampleCfg S 10) (oneFault (.copyRead 0) (.fail 0)) 9 s.fs s.app 0 =
      ⟨.ok (), w'.fs, s.app.set 0 { c with conn := ⟨s.fs.createIno ((sampleCfg S 10).dst c.name), 0, true⟩, reference := some r, dataOffset := (refData r).length }⟩ := by
    unfold commit
    rw [h.get]
    simp only [hr, hrun]
    rfl
  obtain ⟨_, _, _, r', _, _, _, _, _, _, hr', hsize⟩ := h.commit (by decide) (by decide) (by decide)
  rw [hr] at hr'
  injection hr' with hr'
  subst hr'
  refine ⟨_, _, s, c, _, r.contentKeys, rfl, hn, h.reachable, h.get, h.pending, rfl, ?_⟩
  rw [hcom]
  have hk := congrArg List.length h.keys
  simp only [List.length_map, List.length_cons, List.length_nil] at hk
  obtain ⟨k0, hk0, e0⟩ := List.map_eq_singleton_iff.mp h.keys
  simp at e0
  have htot : total (oldKeys c.reference) = 5 := by rw [hk0]; simp [total, e0.2.2.2]
  refine ⟨rfl, ?_, ?_, ?_⟩
  · unfold contentKeys; rw [get_set_self]
  · rw [hu.keys, List.length_append, hk, h.pending]; rfl
  · intro x hx b
    rw [hu.keys, hk0, h.pending] at hx
    simp only [total, keysFrom, List.cons_append, List.nil_append, List.mem_cons, List.not_mem_nil, or_false] at hx
    intro hb
    have hsmall : (refData r ++ allData c.contentList).length < 2 ^ 63 := by
      rw [h.pending]
      unfold newFile at hsize
      rw [h.pending] at hsize
      simp only [List.length_append] at hsize ⊢
      unfold allData
      omega
    have hd2 : (allData c.contentList).length = 2 := by rw [h.pending]; rfl
    rcases hx with rfl | rfl
    · rw [read_ok (get_set_self _ _ _) hi rfl hsmall rfl (by rw [e0.2.2.2]; decide) (by rw [e0.2.2.1]; decide), hd2] at hb
      omega
    · rw [read_ok (get_set_self _ _ _) hi rfl hsmall rfl (by show 0 < contentY.data.length; decide)
        (by show k0.content.length + 0 < 2 ^ 63; rw [e0.2.2.2]; decide), hd2] at hb
      have h2 : contentY.data.length = 2 := rfl
      simp only [h2] at hb
      omega

/-- C66, what does hold: when none of the operations whose errors the code ignores fails and the chunk size condition of C25
holds, a commit that reports success has written the new reference followed by all stored and all pending bytes, under the
database's name. Missing from the full claim: the ignored failures. -/
theorem C66_success_means_written_partial (cfg : Cfg) (u : Usage) (hn : Names cfg u) (hl : u.lossless) (s : State)
    (hs : Reachable cfg u s) (id : Nat) (c : Ctx) (o : Pt → Fault) (now : Int) (hg : s.app.get id = some c)
    (hf : CommitFits cfg u o now s.fs s.app id c) (hok : (commit cfg o now s.fs s.app id).out = .ok ()) :
    ∃ x, (commit cfg o now s.fs s.app id).fs.file (cfg.path c.name) = some x ∧ Complete cfg s c now x := by
  have hinv := hs.inv hn
  have hc : CtxOK cfg u s.fs c := hinv.ctxs _ (get_mem hg)
  obtain ⟨t, r, j, d, T⟩ := commit_success hn hinv hg hf hok
  refine ⟨_, by unfold FS.file; rw [T.dir]; rfl, ?_⟩
  rcases commit_cases cfg o now s.fs s.app id c hg with ⟨h1, h2, h3⟩ | ⟨r', hr', he⟩
  · exfalso
    unfold commit at hok
    rw [hg] at hok
    simp only at hok
    cases hu : updateReference cfg c now with
    | ok r => exact h3 r hu
    | err => rw [hu] at hok; cases hok
    | panic => rw [hu] at hok; cases hok
  · have hrr : r' = r := by
      have e1 := T.app
      rw [he] at e1 hok
      generalize (updateDatabaseOnFile cfg o c r').run ⟨s.fs, c.conn⟩ = x at *
      obtain ⟨out, w⟩ := x
      cases out with
      | ok v =>
        obtain ⟨conn, off⟩ := v
        have e2 := congrArg (fun a => App.get a id) e1
        simp only [finish, get_set_self, Option.some.injEq, Ctx.mk.injEq] at e2
        exact e2.2.2.1
      | err => cases hok
      | panic => cases hok
      | crash => cases hok
      | hang => cases hok
    exact ⟨r', hr', by rw [T.content, T.data hl, hrr, List.append_assoc]⟩

/-- The hypotheses hold for a commit to a database that already has data. -/
example (S : Sha) : ∃ cfg u s c, cfg.S = S ∧ Names cfg u ∧ u.lossless ∧ Reachable cfg u s ∧ s.app.get 0 = some c ∧
    c.reference ≠ none ∧ c.contentList = [contentY] ∧ CommitFits cfg u calm 9 s.fs s.app 0 c ∧
    (commit cfg calm 9 s.fs s.app 0).out = .ok () := by
  obtain ⟨s, c, h⟩ := sample_ready S 10 True
  obtain ⟨h1, h2, _⟩ := h.commit (by decide) (by decide) (by decide)
  exact ⟨_, _, s, c, rfl, sampleNames S 10 True, trivial, h.reachable, h.get, h.reference, h.pending, h2, h1⟩

/-! ### C68 -/

/-- C68 is false of the code: deleting a database that is open and then committing on the open context brings it back, with
everything it had stored. -/
theorem C68_commit_resurrects (S : Sha) : ∃ (cfg : Cfg) (u : Usage) (s : State) (c : Ctx) (fs' : FS) (C : Committed) (f : Bytes),
    cfg.S = S ∧ Names cfg u ∧ Reachable cfg u s ∧ s.app.get 0 = some c ∧ delete' cfg s.fs c.name = .ok fs' ∧
    exists' cfg fs' c.name = false ∧ C = commit cfg calm 9 fs' s.app 0 ∧ C.out = .ok () ∧
    exists' cfg C.fs c.name = true ∧ C.fs.file (cfg.path c.name) = some f ∧
    ∃ hd, f = hd ++ [1, 2, 3, 4, 5] ++ contentY.data := by
  obtain ⟨s, c, h⟩ := sample_ready S 10 False
  have hn := sampleNames S 10 False
  obtain ⟨t, r, hr, hu, htouch, hfile, hne, hends, hdata, hlen⟩ := ready_facts h (by decide) (by decide)
  have hinv := h.reachable.inv hn
  have hc : CtxOK (sampleCfg S 10) (sampleUsage False) s.fs c := hinv.ctxs _ (get_mem h.get)
  have hdir : s.fs.dir ((sampleCfg S 10).path c.name) = some c.conn.ino := by rw [h.name]; exact h.linked
  obtain ⟨w', j, he, E⟩ := updateDatabase_calm (sampleCfg S 10) c r (s.fs.remove ((sampleCfg S 10).path c.name))
    (remove_good hinv.good _) (hn.distinct hc.name) h.isOpen hc.lt (by
      have := hc.dst_ne hn hc.name _ (.inl rfl : Scratch (sampleCfg S 10) c.name _)
      unfold FS.remove upd
      simp only
      split
      · simp
      · exact this) hends
  have hcom : commit (sampleCfg S 10) calm 9 (s.fs.remove ((sampleCfg S 10).path c.name)) s.app 0 =
      finish (s.fs.remove ((sampleCfg S 10).path c.name)) s.app 0 c r (.ok (⟨j, 0, true⟩, (refData r).length), w') := by
    unfold commit
    rw [h.get]
    simp only [hr, he]
  refine ⟨sampleCfg S 10, _, s, c, s.fs.remove ((sampleCfg S 10).path c.name), _,
    newFile (sampleCfg S 10) c r (s.fs.ino c.conn.ino), rfl, hn, h.reachable, h.get, ?_, ?_, rfl, ?_⟩
  · unfold delete'; rw [hdir]; rfl
  · simp [exists', FS.remove, upd]
  rw [hcom]
  refine ⟨rfl, ?_, ?_, refData r, ?_⟩
  · simp only [finish, exists', E.dir]; rfl
  · simp only [finish, FS.file, E.dir, Option.map_some, E.content]
    rfl
  · unfold newFile carried
    cases hcr : c.reference with
    | none => exact absurd hcr h.reference
    | some r0 =>
      have := h.data
      unfold dataOf at this
      simp only [this, h.pending]
      have : kept (sampleCfg S 10) [1, 2, 3, 4, 5] = [1, 2, 3, 4, 5] := by simp [kept, makeChunkSize, sampleCfg]
      rw [this]
      simp

/-- Histories in which every step satisfies `P`. -/
inductive StepsIf (cfg : Cfg) (u : Usage) (P : State → State → Prop) : State → State → Prop
  | refl (s : State) : StepsIf cfg u P s s
  | tail (s t v : State) (h : StepsIf cfg u P s t) (hs : Step cfg u t v) (hp : P t v) : StepsIf cfg u P s v

theorem StepsIf.steps {cfg : Cfg} {u : Usage} {P : State → State → Prop} {s t : State} (h : StepsIf cfg u P s t) :
    Steps cfg u s t := by
  induction h with
  | refl => exact .refl _
  | tail t v _ hs _ ih => exact .tail _ _ _ ih hs

theorem reachable_steps {cfg : Cfg} {u : Usage} {s t : State} (h : Reachable cfg u s) (hs : Steps cfg u s t) : Reachable cfg u t := by
  obtain ⟨s0, h0, h⟩ := h
  refine ⟨s0, h0, ?_⟩
  induction hs with
  | refl => exact h
  | tail t v _ hst ih => exact .tail _ _ _ ih hst

/-- C68, what does hold: a database that was deleted while no context had it open stays deleted through any history, with any
faults, until `New` creates it again. Missing from the full claim: databases deleted while open. -/
theorem C68_deleted_stays_deleted_partial (cfg : Cfg) (u : Usage) (hn : Names cfg u) (s t : State) (hs : Reachable cfg u s)
    (n : Name) (hu : u.names n) (hdel : exists' cfg s.fs n = false) (hclosed : ∀ e ∈ s.app, e.2.name ≠ n)
    (hst : StepsIf cfg u (fun a b => new' cfg a.fs n ≠ .ok b.fs) s t) : exists' cfg t.fs n = false := by
  have key : exists' cfg t.fs n = false ∧ ∀ e ∈ t.app, e.2.name ≠ n := by
    induction hst with
    | refl => exact ⟨hdel, hclosed⟩
    | tail t v h hst hnew ih =>
      obtain ⟨h1, h2⟩ := ih
      have hr := reachable_steps hs h.steps
      have hnone : t.fs.dir (cfg.path n) = none := by simpa [exists'] using h1
      have same : ∀ fs', fs'.file (cfg.path n) = t.fs.file (cfg.path n) → exists' cfg fs' n = false := by
        intro fs' hf
        unfold exists'
        unfold FS.file at hf
        rw [hnone] at hf
        cases hd : fs'.dir (cfg.path n) with
        | none => rfl
        | some i => rw [hd] at hf; cases hf
      cases hst with
      | new m fs' hm he =>
        refine ⟨?_, h2⟩
        by_cases hmn : m = n
        · subst hmn; exact absurd he hnew
        · exact same _ ((C30_new_and_delete_touch_only_their_database cfg u hn t hr m hm fs' (.inl he)).1 n hu (Ne.symm hmn))
      | delete m fs' hm ht he =>
        refine ⟨?_, h2⟩
        by_cases hmn : m = n
        · subst hmn
          unfold delete' at he
          rw [hnone] at he
          cases he
        · exact same _ ((C30_new_and_delete_touch_only_their_database cfg u hn t hr m hm fs' (.inr he)).1 n hu (Ne.symm hmn))
      | open' m id a' hm he =>
        refine ⟨h1, ?_⟩
        unfold open' at he
        split at he
        · cases he
        obtain ⟨x, hx, he⟩ := Res.bind_eq_ok.mp he
        simp only [Res.pure_eq, Res.ok.injEq, Prod.mk.injEq] at he
        obtain ⟨rfl, rfl⟩ := he
        intro e hem
        rcases mem_set hem with rfl | ⟨hem, _⟩
        · rintro rfl
          unfold retrieveAt FS.file at hx
          rw [hnone] at hx
          cases hx
        · exact h2 e hem
      | close id a' he =>
        refine ⟨h1, ?_⟩
        unfold close at he
        cases hg : t.app.get id with
        | none => rw [hg] at he; cases he
        | some c =>
          simp only [hg] at he
          split at he
          case isFalse => cases he
          injection he with he
          subst he
          exact fun e hem => h2 e (mem_delete hem)
      | write id hash data kind a' hh hk he =>
        refine ⟨h1, ?_⟩
        obtain ⟨c, x, hg, rfl⟩ := write_ok he
        intro e hem
        rcases mem_set hem with rfl | ⟨hem, _⟩
        · exact h2 (id, c) (get_mem hg)
        · exact h2 e hem
      | cancel id a' he =>
        refine ⟨h1, ?_⟩
        obtain ⟨c, hg, rfl⟩ := cancel_ok he
        intro e hem
        rcases mem_set hem with rfl | ⟨hem, _⟩
        · exact h2 (id, c) (get_mem hg)
        · exact h2 e hem
      | commit id c o now hg hf =>
        have hname : c.name ≠ n := h2 _ (get_mem hg)
        refine ⟨same _ ((commit_frame hn (hr.inv hn) hg).1 n hu (Ne.symm hname)), ?_⟩
        rcases commit_cases cfg o now t.fs t.app id c hg with ⟨_, h4, _⟩ | ⟨r, _, he⟩
        · simp only; rw [h4]; exact h2
        · simp only
          rw [he, (finish_eq _ _ _ _ _ _).2]
          intro e hem
          rcases mem_set hem with rfl | ⟨hem, _⟩
          · have : (finishCtx c r ((updateDatabaseOnFile cfg o c r).run ⟨t.fs, c.conn⟩)).name = c.name := by
              generalize (updateDatabaseOnFile cfg o c r).run ⟨t.fs, c.conn⟩ = x
              obtain ⟨out, w⟩ := x
              cases out with
              | ok v => obtain ⟨a, b⟩ := v; rfl
              | err => rfl
              | panic => rfl
              | crash => rfl
              | hang => rfl
            simp only [this]
            exact hname
          · exact h2 e hem
      | restart => exact ⟨h1, by simp⟩
  exact key.1

/-- The hypotheses hold for a name never created next to an open database that is being committed. -/
example (S : Sha) : ∃ cfg u s t, cfg.S = S ∧ Names cfg u ∧ Reachable cfg u s ∧ u.names ['b'] ∧ exists' cfg s.fs ['b'] = false ∧
    (∀ e ∈ s.app, e.2.name ≠ ['b']) ∧ StepsIf cfg u (fun a b => new' cfg a.fs ['b'] ≠ .ok b.fs) s t ∧ s.fs.dir ['a'] ≠ none := by
  refine ⟨sampleCfg S 10, _, sOpen, ⟨sOpen.fs, []⟩, rfl, sampleNames S 10 False, sOpen_reachable S 10 False, by simp [sampleUsage], rfl,
    by simp [sOpen], .tail _ _ _ (.refl _) (.restart _) ?_, by simp [sOpen, FS.create, fs0, upd]⟩
  intro h
  have h : Res.ok ((fs0.create ['a']).create ['b']) = Res.ok (fs0.create ['a']) := h
  injection h with h
  have := congrArg FS.next h
  revert this
  decide

/-! ### C70 and C38 -/

/-- The second file is a later version of the same database: its keys, its commits and its data continue those of the first. -/
def Continues (cfg : Cfg) (f f' : Bytes) : Prop :=
  ∃ o off o' off', retrieveReference cfg f = .ok (o, off) ∧ retrieveReference cfg f' = .ok (o', off') ∧
    oldKeys o <+: oldKeys o' ∧ oldCommits o <+: oldCommits o' ∧ f.drop off <+: f'.drop off'

theorem continues_trans {cfg : Cfg} {a b c : Bytes} (h1 : Continues cfg a b) (h2 : Continues cfg b c) : Continues cfg a c := by
  obtain ⟨o1, f1, o2, f2, e1, e2, k1, m1, d1⟩ := h1
  obtain ⟨o2', f2', o3, f3, e2', e3, k2, m2, d2⟩ := h2
  rw [e2] at e2'
  simp only [Res.ok.injEq, Prod.mk.injEq] at e2'
  obtain ⟨rfl, rfl⟩ := e2'
  exact ⟨o1, f1, o3, f3, e1, e3, k1.trans k2, m1.trans m2, d1.trans d2⟩

theorem step_continues {cfg : Cfg} {u : Usage} (hn : Names cfg u) (hl : u.lossless) (ht : u.tidy) (hchunk : 0 < cfg.readChunkSize)
    {s t : State} (hr : Reachable cfg u s) (hst : Step cfg u s t) {n : Name} (hu : u.names n) {f f' : Bytes}
    (hf : s.fs.file (cfg.path n) = some f) (hf' : t.fs.file (cfg.path n) = some f') : Continues cfg f f' := by
  have hinv := hr.inv hn
  have hinv' := inv_step hn hinv hst
  obtain ⟨o, off, hh⟩ := hinv.files n hu f hf
  have self : f' = f → Continues cfg f f' := by
    rintro rfl
    exact ⟨o, off, o, off, hh.retrieve hchunk, hh.retrieve hchunk, List.prefix_rfl, List.prefix_rfl, List.prefix_rfl⟩
  have same : t.fs.file (cfg.path n) = s.fs.file (cfg.path n) → Continues cfg f f' := by
    intro e
    apply self
    rw [hf, hf'] at e
    injection e
  have hsome : (s.fs.dir (cfg.path n)).isSome = true := by
    unfold FS.file at hf
    cases hd : s.fs.dir (cfg.path n) with
    | none => rw [hd] at hf; cases hf
    | some i => rfl
  cases hst with
  | new m fs' hm he =>
    by_cases hmn : m = n
    · subst hmn
      unfold new' at he
      rw [if_pos hsome] at he
      cases he
    · exact same ((C30_new_and_delete_touch_only_their_database cfg u hn s hr m hm fs' (.inl he)).1 n hu (Ne.symm hmn))
  | delete m fs' hm _ he =>
    by_cases hmn : m = n
    · subst hmn
      unfold delete' at he
      rw [if_pos hsome] at he
      injection he with he
      subst he
      simp [FS.file, FS.remove, upd] at hf'
    · exact same ((C30_new_and_delete_touch_only_their_database cfg u hn s hr m hm fs' (.inr he)).1 n hu (Ne.symm hmn))
  | open' m id a' hm he => exact same rfl
  | close id a' he => exact same rfl
  | write id hash data kind a' hh hk he => exact same rfl
  | cancel id a' he => exact same rfl
  | restart => exact same rfl
  | commit id c oo now hg hfit =>
    by_cases hname : c.name = n
    case neg => exact same ((commit_frame hn hinv hg).1 n hu (Ne.symm hname))
    subst hname
    have hc : CtxOK cfg u s.fs c := hinv.ctxs _ (get_mem hg)
    simp only at hf'
    rcases commit_leaves hn hl hinv hg hfit hf with ⟨h1, _⟩ | ⟨x, h1, h2, hopen⟩ | ⟨x, h1, _⟩
    · rw [h1] at hf'; injection hf' with hf'; exact self hf'.symm
    · rw [h1] at hf'
      injection hf' with hf'
      subst hf'
      have hlink := hc.linked ht hopen
      unfold FS.file at hf
      rw [hlink] at hf
      injection hf with hf
      obtain ⟨r, off', last, new, e1, e2, e3, e4⟩ := complete_opens cfg u hn hchunk s hr id c now hg hfit.timeLo hfit.timeHi hfit.data x h2
        (hfit.file x h1)
      refine ⟨c.reference, c.dataOffset, some r, off', ?_, e1, ?_, ?_, ?_⟩
      · rw [← hf]; exact hc.holds.retrieve hchunk
      · simp only [oldKeys] at e4 ⊢; rw [e4]; exact List.prefix_append _ _
      · simp only [oldCommits] at e3 ⊢; rw [e3]; exact List.prefix_append _ _
      · rw [e2, ← hf]; exact List.prefix_append _ _
    · rw [h1] at hf'; cases hf'

/-- C70: no history loses anything that was committed. Through any number of calls, commits that succeed, fail or stop anywhere,
restarts and other databases, as long as the file of a database is not deleted (or lost in the window of C32), every later state
of the file lists all earlier keys and commits first and in the same order and has all earlier data first. Assumes `lossless`
(C25, C31) and `tidy` use and a positive chunk size. -/
theorem C70_history_only_appends (cfg : Cfg) (u : Usage) (hn : Names cfg u) (hl : u.lossless) (ht : u.tidy)
    (hchunk : 0 < cfg.readChunkSize) (s t : State) (hr : Reachable cfg u s) (n : Name) (hu : u.names n)
    (hst : StepsIf cfg u (fun _ b => exists' cfg b.fs n = true) s t) (f f' : Bytes)
    (hf : s.fs.file (cfg.path n) = some f) (hf' : t.fs.file (cfg.path n) = some f') : Continues cfg f f' := by
  induction hst generalizing f' with
  | refl =>
    rw [hf] at hf'
    injection hf' with hf'
    subst hf'
    obtain ⟨o, off, hh⟩ := (hr.inv hn).files n hu f hf
    exact ⟨o, off, o, off, hh.retrieve hchunk, hh.retrieve hchunk, List.prefix_rfl, List.prefix_rfl, List.prefix_rfl⟩
  | tail t v h hs _ ih =>
    have hex : ∃ g, t.fs.file (cfg.path n) = some g := by
      cases h with
      | refl => exact ⟨f, hf⟩
      | tail t' _ _ _ hp =>
        unfold exists' at hp
        cases hd : t.fs.dir (cfg.path n) with
        | none => rw [hd] at hp; cases hp
        | some i => exact ⟨t.fs.ino i, by unfold FS.file; rw [hd]; rfl⟩
    obtain ⟨g, hg⟩ := hex
    exact continues_trans (ih g hg) (step_continues hn hl ht hchunk (reachable_steps hr h.steps) hs hu hg hf')

/-- The hypotheses hold for a database with one commit that is committed to again, and then another process takes over. -/
example (S : Sha) : ∃ cfg u s t f f', cfg.S = S ∧ Names cfg u ∧ u.lossless ∧ u.tidy ∧ 0 < cfg.readChunkSize ∧ Reachable cfg u s ∧
    u.names ['a'] ∧ StepsIf cfg u (fun _ b => exists' cfg b.fs ['a'] = true) s t ∧ s.fs.file (cfg.path ['a']) = some f ∧
    t.fs.file (cfg.path ['a']) = some f' ∧ t.app = [] ∧ f ≠ f' := by
  obtain ⟨s, c, h⟩ := sample_ready S 10 True
  obtain ⟨h1, h2, t, r, j, hu, _, _, hd, hi, _⟩ := h.commit (by decide) (by decide) (by decide)
  obtain ⟨_, _, _, _, _, hfile, _, _, hdata, hlen⟩ := ready_facts h (by decide) (by decide)
  have hinv := h.reachable.inv (sampleNames S 10 True)
  have hc : CtxOK (sampleCfg S 10) (sampleUsage True) s.fs c := hinv.ctxs _ (get_mem h.get)
  have hex : exists' (sampleCfg S 10) (commit (sampleCfg S 10) calm 9 s.fs s.app 0).fs ['a'] = true := by
    unfold exists'
    rw [show (commit (sampleCfg S 10) calm 9 s.fs s.app 0).fs.dir ((sampleCfg S 10).path ['a']) = _ from hd]
    rfl
  refine ⟨_, _, s, ⟨(commit (sampleCfg S 10) calm 9 s.fs s.app 0).fs, []⟩, _, _, rfl, sampleNames S 10 True, trivial, trivial,
    by simp [sampleCfg], h.reachable, by simp [sampleUsage],
    .tail _ ⟨(commit (sampleCfg S 10) calm 9 s.fs s.app 0).fs, (commit (sampleCfg S 10) calm 9 s.fs s.app 0).app⟩ _
      (.tail _ _ _ (.refl _) (.commit s 0 c calm 9 h.get h2) hex) (.restart _) hex,
    by rw [h.name] at hfile; exact hfile,
    by unfold FS.file; rw [show (commit (sampleCfg S 10) calm 9 s.fs s.app 0).fs.dir ((sampleCfg S 10).path ['a']) = _ from hd]; rfl,
    rfl, ?_⟩
  intro e
  have e := congrArg List.length e
  cases hcr : c.reference with
  | none => exact absurd hcr h.reference
  | some r0 =>
    have hg := refData_grows hc hcr hu hdata (by rw [h.pending]; simp)
    have hh := hc.holds
    rw [hcr] at hh
    rw [hi, hlen, hh.2.1] at e
    unfold newFile at e
    simp only [List.length_append] at e
    omega

/-- C38 is false of the code: two applications open the same database, each writes a content and commits, both commits report
success, and the resulting database has only the second one. -/
theorem C38_lost_update (S : Sha) : ∃ (cfg : Cfg) (fs : FS) (appA appB : App) (A B : Committed) (r : Reference) (off : Nat),
    cfg.S = S ∧ (∃ a, open' cfg fs [] ['a'] = .ok (0, a) ∧
      write a 0 contentX.hash contentX.data 3 = .ok appA ∧ write a 0 contentY.hash contentY.data 4 = .ok appB) ∧
    A = commit cfg calm 5 fs appA 0 ∧ A.out = .ok () ∧ B = commit cfg calm 9 A.fs appB 0 ∧ B.out = .ok () ∧
    retrieveAt cfg B.fs (cfg.path ['a']) = .ok (some r, off) ∧ r.commits.list.length = 1 ∧
    r.contentKeys.list.map (·.hash) = [contentY.hash] := by
  have hn := sampleNames S 10 False
  -- the second context, with the same handle as the first
  let ctxB : Ctx := ⟨['a'], ⟨0, 0, true⟩, none, 0, [contentY]⟩
  let st : State := ⟨fs0.create ['a'], [(0, ctxB)]⟩
  have hreach : Reachable (sampleCfg S 10) (sampleUsage False) st := by
    obtain ⟨s0, h0, h⟩ := sOpen_reachable S 10 False
    exact ⟨s0, h0, .tail _ _ _ h (.write sOpen 0 contentY.hash contentY.data 4 _ (by simp [contentY]) (by decide) rfl)⟩
  obtain ⟨h1, hfitA, t, r, j, hu, hsm, ha, hd, hi, hr, _⟩ := sWritten_commit S 10 False
  have hinvA := (sCommitted_reachable S 10 False).inv hn
  have hinvB := hreach.inv hn
  have hcB : CtxOK (sampleCfg S 10) (sampleUsage False) st.fs ctxB := hinvB.ctxs (0, ctxB) (by simp [st])
  have hdata : total (oldKeys ctxB.reference) + (allData ctxB.contentList).length < 2 ^ 63 := by decide
  obtain ⟨t2, r2, hr2, hu2⟩ := updateReference_ok (sampleCfg S 10) ctxB 9 (by simp [ctxB]) hcB.pending hcB.holds.ref hdata
  -- the inode of the handle is not the temporary file's after the first commit
  have htouch := (updateDatabase_any (sampleCfg S 10) calm ctxX r sWritten.fs ((sWritten_reachable S 10 False).inv hn).good
    (hn.distinct (by simp [sampleUsage, ctxX])) (by decide) (by simp [sWritten, ctxX, FS.create, fs0, upd, Cfg.dst, sampleCfg])).1
  have hfs : (sCommitted S 10).fs = ((updateDatabaseOnFile (sampleCfg S 10) calm ctxX r).run ⟨sWritten.fs, ctxX.conn⟩).2.fs := by
    unfold sCommitted commit
    rw [show sWritten.app.get 0 = some ctxX from rfl]
    simp only [hr]
    exact (finish_eq _ _ _ _ _ _).1
  rw [← hfs] at htouch
  have hdst : (sCommitted S 10).fs.dir ((sampleCfg S 10).dst ctxB.name) ≠ some ctxB.conn.ino := by
    intro hh
    rcases htouch.src ((sampleCfg S 10).dst ctxB.name) (.inl rfl) _ hh with ⟨q, hq, hq2⟩ | hge
    · rcases hq with rfl | rfl
      · simp [sWritten, ctxX, FS.create, fs0, upd, Cfg.dst, sampleCfg] at hq2
      · simp [sWritten, ctxX, FS.create, fs0, upd, Cfg.bck, sampleCfg] at hq2
    · simp [ctxB, sWritten, FS.create, fs0] at hge
  have hlt : ctxB.conn.ino < (sCommitted S 10).fs.next := Nat.lt_of_lt_of_le (by decide) htouch.next
  obtain ⟨w', j2, he, E⟩ := updateDatabase_calm (sampleCfg S 10) ctxB r2 (sCommitted S 10).fs hinvA.good
    (hn.distinct hcB.name) rfl hlt hdst (.inl rfl)
  have hcom : commit (sampleCfg S 10) calm 9 (sCommitted S 10).fs [(0, ctxB)] 0 =
      finish (sCommitted S 10).fs [(0, ctxB)] 0 ctxB r2 (.ok (⟨j2, 0, true⟩, (refData r2).length), w') := by
    unfold commit
    rw [show App.get [(0, ctxB)] 0 = some ctxB from rfl]
    simp only [hr2, he]
  obtain ⟨_, _, t3, r3, j3, _, _, _, _, _, hr3, hsize⟩ := small_commit (id := 0) (c := ctxB) (now := 9) (x := contentY) hn hinvB
    rfl rfl (by decide) (by decide) rfl (by decide) (by decide) (by decide) (by decide) (by decide)
    (by intro x hx; cases hx) (.inl rfl) (fun h => h.elim)
  rw [hr2] at hr3
  injection hr3 with hr3
  subst hr3
  have hnf : ∀ x, newFile (sampleCfg S 10) ctxB r2 x = refData r2 ++ contentY.data := by
    intro x
    simp [newFile, carried, ctxB]
  rw [hnf] at hsize
  have hok := hu2.refOK hcB.pending hcB.holds.ref (by decide) (by decide) hdata (by
    simp only [List.length_append, refData_length] at hsize; omega)
  refine ⟨sampleCfg S 10, fs0.create ['a'], sWritten.app, [(0, ctxB)], commit (sampleCfg S 10) calm 5 sWritten.fs sWritten.app 0, _, r2, (refData r2).length, rfl,
    ⟨sOpen.app, rfl, rfl, rfl⟩, rfl, h1, rfl, ?_⟩
  show Committed.out (commit (sampleCfg S 10) calm 9 (sCommitted S 10).fs [(0, ctxB)] 0) = _ ∧
    retrieveAt _ (commit (sampleCfg S 10) calm 9 (sCommitted S 10).fs [(0, ctxB)] 0).fs _ = _ ∧ _
  rw [hcom]
  refine ⟨rfl, ?_, ?_, ?_⟩
  · unfold retrieveAt FS.file
    rw [show (finish (sCommitted S 10).fs [(0, ctxB)] 0 ctxB r2 (.ok (⟨j2, 0, true⟩, (refData r2).length), w')).fs.dir
      ((sampleCfg S 10).path ['a']) = some j2 from E.dir]
    simp only [Option.map_some]
    rw [show (finish (sCommitted S 10).fs [(0, ctxB)] 0 ctxB r2 (.ok (⟨j2, 0, true⟩, (refData r2).length), w')).fs.ino j2 = _ from E.content,
      hnf]
    exact retrieveReference_refData _ (by simp [sampleCfg]) _ hok.wf _
  · rw [hu2.commits]; rfl
  · rw [hu2.keys]; rfl

/-- C38, what does hold: processes that use a database one after the other, each opening it after the previous one is gone, keep
all of each other's commits, whatever each of them does and wherever each of them stops. Missing from the full claim:
applications that have the database open at the same time. -/
theorem C38_processes_in_turn_keep_commits_partial (cfg : Cfg) (u : Usage) (hn : Names cfg u) (hl : u.lossless) (ht : u.tidy)
    (hchunk : 0 < cfg.readChunkSize) (s t v : State) (hr : Reachable cfg u s) (n : Name) (hu : u.names n)
    (first : StepsIf cfg u (fun _ b => exists' cfg b.fs n = true) s t)
    (second : StepsIf cfg u (fun _ b => exists' cfg b.fs n = true) ⟨t.fs, []⟩ v) (f g h : Bytes)
    (hf : s.fs.file (cfg.path n) = some f) (hg : t.fs.file (cfg.path n) = some g) (hh : v.fs.file (cfg.path n) = some h) :
    Continues cfg f g ∧ Continues cfg g h := by
  refine ⟨C70_history_only_appends cfg u hn hl ht hchunk s t hr n hu first f g hf hg, ?_⟩
  exact C70_history_only_appends cfg u hn hl ht hchunk _ v (reachable_steps hr (.tail _ _ _ first.steps (.restart t))) n hu second g h hg hh

/-- The hypotheses hold when the first process commits and the second one opens the result. -/
example (S : Sha) : ∃ cfg u s t v f g h, cfg.S = S ∧ Names cfg u ∧ u.lossless ∧ u.tidy ∧ Reachable cfg u s ∧ u.names ['a'] ∧
    StepsIf cfg u (fun _ b => exists' cfg b.fs ['a'] = true) s t ∧
    StepsIf cfg u (fun _ b => exists' cfg b.fs ['a'] = true) ⟨t.fs, []⟩ v ∧ s.fs.file (cfg.path ['a']) = some f ∧
    t.fs.file (cfg.path ['a']) = some g ∧ v.fs.file (cfg.path ['a']) = some h ∧ v.app ≠ [] := by
  obtain ⟨s, c, h⟩ := sample_ready S 10 True
  obtain ⟨_, h2, t, r, j, hu, _, ha, hd, hi, _⟩ := h.commit (by decide) (by decide) (by decide)
  obtain ⟨_, _, _, _, _, hfile, _⟩ := ready_facts h (by decide) (by decide)
  have hex : exists' (sampleCfg S 10) (commit (sampleCfg S 10) calm 9 s.fs s.app 0).fs ['a'] = true := by
    unfold exists'
    rw [show (commit (sampleCfg S 10) calm 9 s.fs s.app 0).fs.dir ((sampleCfg S 10).path ['a']) = _ from hd]
    rfl
  have hstep := Step.commit (cfg := sampleCfg S 10) (u := sampleUsage True) s 0 c calm 9 h.get h2
  have hr := reachable_steps h.reachable (.tail _ _ _ (.tail _ _ _ (.refl _) hstep) (.restart _))
  generalize (commit (sampleCfg S 10) calm 9 s.fs s.app 0).fs = fs at *
  generalize (commit (sampleCfg S 10) calm 9 s.fs s.app 0).app = app at *
  have hfile2 : fs.file ((sampleCfg S 10).path ['a']) = some (fs.ino j) := by
    unfold FS.file
    rw [show fs.dir ((sampleCfg S 10).path ['a']) = _ from hd]
    rfl
  obtain ⟨o, off, hh⟩ := (hr.inv (sampleNames S 10 True)).files ['a'] (by simp [sampleUsage]) _ hfile2
  have hret := hh.retrieve (by simp [sampleCfg])
  have hopen : ∃ a, open' (sampleCfg S 10) fs [] ['a'] = .ok (0, a) ∧ a ≠ [] := by
    unfold open' retrieveAt
    rw [hfile2]
    simp only [List.any_nil, Bool.false_eq_true, if_false, hret, Res.bind_ok, Res.pure_eq]
    exact ⟨_, rfl, by simp [App.set]⟩
  obtain ⟨a, ha, hne⟩ := hopen
  exact ⟨sampleCfg S 10, _, s, ⟨fs, app⟩, ⟨fs, a⟩, _, _, _, rfl, sampleNames S 10 True, trivial, trivial, h.reachable,
    by simp [sampleUsage], .tail _ _ _ (.refl _) hstep hex,
    .tail _ _ _ (.refl _) (.open' ⟨fs, []⟩ ['a'] 0 a (by simp [sampleUsage]) ha) hex,
    by rw [h.name] at hfile; exact hfile, hfile2, hfile2, hne⟩

/-! ### C39 and C71 -/

theorem readLoop_short (c : Bytes) (chunk last n off : Nat) (h : off ≤ c.length) (hs : c.length < off + chunk * n + last) :
    readLoop c chunk last (n + 1) off = .err := by
  induction n generalizing off with
  | zero =>
    unfold readLoop
    rw [if_pos rfl, readAt, if_neg (by omega), if_neg (by omega)]
    rfl
  | succ n ih =>
    rw [Nat.mul_succ] at hs
    unfold readLoop
    rw [if_neg (by omega)]
    by_cases hc : off + chunk ≤ c.length
    · rw [readAt_ok c chunk off hc]
      simp only [Res.bind_ok]
      have hl : ((c.drop off).take chunk).length = chunk := by simp; omega
      rw [hl, ih (off + chunk) hc (by omega)]
      rfl
    · rw [readAt, if_neg (by omega), if_neg hc]
      rfl

/-- What opening does with a file of at least eight bytes and a positive length field below 2^63. -/
theorem retrieve_eq (cfg : Cfg) (hchunk : 0 < cfg.readChunkSize) (c : Bytes) (h8 : 8 ≤ c.length) (h0 : 0 < leNat (c.take 8))
    (h63 : leNat (c.take 8) < 2 ^ 63) :
    retrieveReference cfg c =
      if 8 + leNat (c.take 8) ≤ c.length then do
        let r ← toReference cfg.S cfg.miningValue
          ⟨(c.drop 8).take (leNat (c.take 8)), cfg.spare ((c.drop 8).take (leNat (c.take 8)))⟩
        pure (some r, 8 + leNat (c.take 8))
      else .err := by
  unfold retrieveReference
  rw [readAt_ok c 8 0 (by omega)]
  simp only [List.drop_zero]
  have hp := makeChunkSize_pos cfg hchunk h0
  rw [if_neg (by omega), if_neg (by omega)]
  have hdm : makeChunkSize cfg (leNat (c.take 8)) * (leNat (c.take 8) / makeChunkSize cfg (leNat (c.take 8))) ≤ leNat (c.take 8) :=
    Nat.mul_div_le _ _
  generalize makeChunkSize cfg (leNat (c.take 8)) = k at *
  generalize leNat (c.take 8) = L at *
  simp only [Nat.add_sub_cancel]
  split
  · rw [readLoop_ok c k _ (L / k) 8 (by omega)]
    simp only [Res.bind_ok]
    rw [show k * (L / k) + (L - k * (L / k)) = L by omega]
    have : ((c.drop 8).take L).length = L := by simp; omega
    rw [this]
  · rw [readLoop_short c k _ (L / k) 8 h8 (by omega)]
    rfl

/-- C39 is false of the code: a file of eight zero bytes makes `Open` panic, whatever the configuration. -/
theorem C39_open_panics (cfg : Cfg) (fs : FS) (n : Name) (hf : fs.file (cfg.path n) = some [0, 0, 0, 0, 0, 0, 0, 0]) :
    open' cfg fs [] n = .panic := by
  have h : retrieveReference cfg [0, 0, 0, 0, 0, 0, 0, 0] = .panic := by
    unfold retrieveReference
    rw [readAt_ok _ 8 0 (by decide)]
    have e : leNat (List.take 8 (List.drop 0 [0, 0, 0, 0, 0, 0, 0, 0])) = 0 := by decide
    simp only [e]
    rw [if_pos]
    unfold makeChunkSize
    split <;> omega
  unfold open' retrieveAt
  rw [hf]
  simp [h]

example (S : Sha) : (FS.mk (fun _ => some 0) (fun _ => [0, 0, 0, 0, 0, 0, 0, 0]) 1).file ((sampleCfg S 10).path ['a']) =
    some [0, 0, 0, 0, 0, 0, 0, 0] := rfl

/-- C39, what does hold: with a positive chunk size, `Open` on a file panics exactly in these cases: the length field is zero,
it is negative with an absolute value below the chunk size, or the complete reference content makes the decoder panic (C65). In
particular files below eight bytes, files cut inside the reference, and files with any other length field never make it panic.
Missing from the full claim: these cases. -/
theorem C39_open_panics_exactly_partial (cfg : Cfg) (hchunk : 0 < cfg.readChunkSize) (fs : FS) (n : Name) (c : Bytes)
    (hf : fs.file (cfg.path n) = some c) :
    open' cfg fs [] n = .panic ↔ 8 ≤ c.length ∧ (leNat (c.take 8) = 0 ∨
      (2 ^ 63 ≤ leNat (c.take 8) ∧ 2 ^ 64 - leNat (c.take 8) < min cfg.readChunkSize (leNat (c.take 8))) ∨
      (leNat (c.take 8) < 2 ^ 63 ∧ 8 + leNat (c.take 8) ≤ c.length ∧ toReference cfg.S cfg.miningValue
        ⟨(c.drop 8).take (leNat (c.take 8)), cfg.spare ((c.drop 8).take (leNat (c.take 8)))⟩ = .panic)) := by
  have hop : open' cfg fs [] n = .panic ↔ retrieveReference cfg c = .panic := by
    unfold open' retrieveAt
    rw [hf]
    simp only [List.any_nil, Bool.false_eq_true, if_false]
    cases retrieveReference cfg c <;> simp
  rw [hop]
  by_cases h8 : 8 ≤ c.length
  case neg =>
    unfold retrieveReference
    rw [readAt, if_neg (by omega), if_neg (by omega)]
    simp only [reduceCtorEq, false_iff]
    exact fun h => h8 h.1
  by_cases h0 : leNat (c.take 8) = 0
  · have : retrieveReference cfg c = .panic := by
      unfold retrieveReference
      rw [readAt_ok c 8 0 (by omega)]
      simp only [List.drop_zero, h0]
      rw [if_pos]
      unfold makeChunkSize
      split <;> omega
    exact ⟨fun _ => ⟨h8, .inl h0⟩, fun _ => this⟩
  by_cases h63 : 2 ^ 63 ≤ leNat (c.take 8)
  · have hmin : makeChunkSize cfg (leNat (c.take 8)) = min cfg.readChunkSize (leNat (c.take 8)) := by
      unfold makeChunkSize
      split <;> omega
    have : retrieveReference cfg c =
        if 2 ^ 64 - leNat (c.take 8) < min cfg.readChunkSize (leNat (c.take 8)) then .panic else .err := by
      unfold retrieveReference
      rw [readAt_ok c 8 0 (by omega)]
      simp only [List.drop_zero]
      rw [hmin, if_neg (by omega), if_pos h63]
    rw [this]
    split
    · exact ⟨fun _ => ⟨h8, .inr (.inl ⟨h63, by assumption⟩)⟩, fun _ => rfl⟩
    · simp only [reduceCtorEq, false_iff]
      rintro ⟨_, h | ⟨_, h⟩ | ⟨h, _⟩⟩
      · exact h0 h
      · contradiction
      · omega
  · rw [retrieve_eq cfg hchunk c h8 (by omega) (by omega)]
    split
    · rename_i hle
      constructor
      · intro h
        refine ⟨h8, .inr (.inr ⟨by omega, hle, ?_⟩)⟩
        rcases Res.bind_eq_panic.mp h with h | ⟨_, _, h⟩
        · exact h
        · cases h
      · rintro ⟨_, h | ⟨h, _⟩ | ⟨_, _, h⟩⟩
        · exact absurd h h0
        · exact absurd h h63
        · rw [h]; rfl
    · rename_i hle
      simp only [reduceCtorEq, false_iff]
      rintro ⟨_, h | ⟨h, _⟩ | ⟨_, h, _⟩⟩
      · exact h0 h
      · exact h63 h
      · exact hle h

/-- The hypotheses hold for a file whose length field says 1 and that ends there. -/
example (S : Sha) : 0 < (sampleCfg S 10).readChunkSize ∧
    (FS.mk (fun _ => some 0) (fun _ => [1, 0, 0, 0, 0, 0, 0, 0]) 1).file ((sampleCfg S 10).path ['a']) =
      some [1, 0, 0, 0, 0, 0, 0, 0] := ⟨by simp [sampleCfg], rfl⟩

/-- C71 is false of the code for very short rests: whatever a database contained, when only its first few bytes (fewer than
eight) are left, it opens without an error as an empty database. -/
theorem C71_short_rest_opens_as_empty (cfg : Cfg) (fs : FS) (n : Name) (f : Bytes) (k : Nat) (hk : k < 8)
    (hf : fs.file (cfg.path n) = some (f.take k)) :
    ∃ a c, open' cfg fs [] n = .ok (0, a) ∧ a.get 0 = some c ∧ c.reference = none := by
  have h : retrieveReference cfg (f.take k) = .ok (none, 0) := by
    unfold retrieveReference
    have : (f.take k).length < 8 := by simp; omega
    rw [readAt, if_neg (by omega), if_neg (by omega)]
  unfold open' retrieveAt
  rw [hf]
  simp only [List.any_nil, Bool.false_eq_true, if_false, h, Res.bind_ok, Res.pure_eq]
  exact ⟨_, _, rfl, get_set_self _ _ _, rfl⟩

example (S : Sha) : (FS.mk (fun _ => some 0) (fun _ => [7, 1, 0]) 1).file ((sampleCfg S 10).path ['a']) =
    some (List.take 3 [7, 1, 0, 0, 0, 0, 0, 0, 0, 9]) := rfl

/-- C71, what does hold: cut a database file at any place after its first eight bytes. If the cut is inside the reference,
`Open` returns an error; if it is in the data, the database opens with all its keys and every read either fails or returns
exactly the bytes it returned before the cut, never others. Missing from the full claim: cuts inside the first eight bytes. -/
theorem C71_cut_file_is_noticed_partial (cfg : Cfg) (u : Usage) (hn : Names cfg u) (hchunk : 0 < cfg.readChunkSize) (s : State)
    (hs : Reachable cfg u s) (n : Name) (hu : u.names n) (i : Nat) (hdir : s.fs.dir (cfg.path n) = some i) (r : Reference)
    (off k : Nat) (hret : retrieveReference cfg (s.fs.ino i) = .ok (some r, off)) (h8 : 8 ≤ k) (hk : k ≤ (s.fs.ino i).length)
    (fs' : FS) (hfs : fs' = s.fs.setIno i ((s.fs.ino i).take k)) :
    (k < off → open' cfg fs' [] n = .err) ∧
    (off ≤ k → ∃ a, open' cfg fs' [] n = .ok (0, a) ∧ contentKeys a 0 = .ok r.contentKeys ∧
      ∀ a', open' cfg s.fs [] n = .ok (0, a') → ∀ p b, 0 < p.length → p.from' < 2 ^ 63 → read fs' a 0 p = .ok b →
        read s.fs a' 0 p = .ok b) := by
  obtain ⟨o', off', hh⟩ := (hs.inv hn).files n hu (s.fs.ino i) (by unfold FS.file; rw [hdir]; rfl)
  have e := hh.retrieve hchunk
  rw [hret] at e
  simp only [Res.ok.injEq, Prod.mk.injEq] at e
  obtain ⟨rfl, rfl⟩ := e
  obtain ⟨hok, hoff, hlen, d, hd, _⟩ := hh
  have hwf := hok.wf
  have hfile : fs'.file (cfg.path n) = some ((s.fs.ino i).take k) := by
    rw [hfs]
    unfold FS.file
    rw [show (s.fs.setIno i ((s.fs.ino i).take k)).dir (cfg.path n) = some i from hdir]
    simp only [Option.map_some, setIno_ino]
  have hdir' : fs'.dir (cfg.path n) = some i := by rw [hfs]; exact hdir
  have hge := referenceToContent_length_ge _ _ r hwf
  have hsm := hwf.small
  constructor
  · intro hlt
    have hr8 : refData r = le64 (referenceToContent r).length ++ referenceToContent r := rfl
    have ht8 : ((s.fs.ino i).take k).take 8 = le64 (referenceToContent r).length := by
      rw [List.take_take, Nat.min_eq_left h8, hd, hr8, List.append_assoc, List.take_append_of_le_length (by rw [le64_length])]
      exact List.take_of_length_le (by rw [le64_length])
    have : retrieveReference cfg ((s.fs.ino i).take k) = .err := by
      have hl : ((s.fs.ino i).take k).length = k := by simp [hk]
      rw [retrieve_eq cfg hchunk _ (by omega) (by rw [ht8, leNat_le64 _ (by omega)]; omega)
        (by rw [ht8, leNat_le64 _ (by omega)]; omega), ht8, leNat_le64 _ (by omega), hl]
      rw [if_neg]
      rw [hoff, refData_length] at hlt
      omega
    unfold open' retrieveAt
    rw [hfile]
    simp [this]
  · intro hge'
    have hcut : (s.fs.ino i).take k = refData r ++ d.take (k - off) := by
      rw [hd, List.take_append, hoff, List.take_of_length_le (by omega)]
    have hopen : open' cfg fs' [] n = .ok (0, App.set [] 0 ⟨n, ⟨i, 0, true⟩, some r, off, []⟩) := by
      unfold open' retrieveAt
      rw [hfile, hdir']
      simp only [List.any_nil, Bool.false_eq_true, if_false, hcut]
      rw [retrieveReference_refData cfg hchunk r hwf]
      simp [hoff]
    have hopen' : open' cfg s.fs [] n = .ok (0, App.set [] 0 ⟨n, ⟨i, 0, true⟩, some r, off, []⟩) := by
      unfold open' retrieveAt FS.file
      rw [hdir]
      simp only [List.any_nil, Bool.false_eq_true, if_false, Option.map_some, hret]
      simp
    refine ⟨_, hopen, by unfold contentKeys; rw [get_set_self], ?_⟩
    intro a' ha' p b h0 hp hr
    rw [hopen'] at ha'
    simp only [Res.ok.injEq, Prod.mk.injEq, true_and] at ha'
    subst ha'
    have hino : fs'.ino i = refData r ++ d.take (k - off) := by rw [hfs, setIno_ino, hcut]
    have hl1 : (refData r ++ d).length < 2 ^ 63 := by rw [← hd]; exact hlen
    have hl2 : (refData r ++ d.take (k - off)).length < 2 ^ 63 := by
      simp only [List.length_append, List.length_take] at hl1 ⊢
      omega
    rw [read_ok (get_set_self _ _ _) hino hoff hl2 rfl h0 hp] at hr
    rw [read_ok (get_set_self _ _ _) hd hoff hl1 rfl h0 hp]
    obtain ⟨q1, q2⟩ := hr
    rw [List.length_take] at q1
    refine ⟨by omega, ?_⟩
    rw [q2, List.drop_take, List.take_take, Nat.min_eq_left (by omega)]

/-- The hypotheses hold for a database with a commit, cut in the middle of its reference. -/
example (S : Sha) : ∃ cfg u s i r off k, cfg.S = S ∧ Names cfg u ∧ 0 < cfg.readChunkSize ∧ Reachable cfg u s ∧ u.names ['a'] ∧
    s.fs.dir (cfg.path ['a']) = some i ∧ retrieveReference cfg (s.fs.ino i) = .ok (some r, off) ∧ 8 ≤ k ∧ k < off ∧
    k ≤ (s.fs.ino i).length := by
  obtain ⟨s, c, h⟩ := sample_ready S 10 True
  have hinv := h.reachable.inv (sampleNames S 10 True)
  have hc : CtxOK (sampleCfg S 10) (sampleUsage True) s.fs c := hinv.ctxs _ (get_mem h.get)
  have hh := hc.holds
  cases hcr : c.reference with
  | none => exact absurd hcr h.reference
  | some r =>
    rw [hcr] at hh
    have hret := hh.retrieve (by simp [sampleCfg])
    obtain ⟨hok, hoff, hlen, d, hd, _⟩ := hh
    have hge := referenceToContent_length_ge _ _ r hok.wf
    have hl := congrArg List.length hd
    rw [List.length_append, refData_length] at hl
    rw [refData_length] at hoff
    exact ⟨_, _, s, c.conn.ino, r, _, 100, rfl, sampleNames S 10 True, by simp [sampleCfg], h.reachable, by simp [sampleUsage], h.linked,
      hret, by decide, by omega, by omega⟩

end Props
end Rodkina
