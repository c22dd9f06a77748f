import Verif.DatabaseHistory
/-! Successful commits, reads, and particular faults. -/

namespace Rodkina
namespace DB

open Ref

/-! ### Up to the swap -/

/-- A commit whose destination was written and whose backup works reaches the swap. -/
theorem reach_swap (cfg : Cfg) (o : Pt → Fault) (c : Ctx) (r : Reference) (fs : FS) (hg : FsGood fs)
    (hd : cfg.Distinct c.name) (hopen : c.conn.isOpen = true) (x : Nat) (w2 : World)
    (q1 : o .tryLock = .none) (q2 : o .createBck = .none) (q3 : o .copyBck = .none) (q4 : o .closeBck = .none)
    (hw : (writeDestination cfg o c r).run ⟨fs.touch (cfg.path c.name), c.conn⟩ = (.ok x, w2)) :
    ∃ w3, (updateDatabaseOnFile cfg o c r).run ⟨fs, c.conn⟩ =
        (do let conn ← swap cfg o c.name; pure (conn, x) : M (Conn × Nat)).run w3 ∧
      w3.conn.isOpen = true ∧ w3.fs.dir (cfg.path c.name) ≠ none ∧
      w3.fs.dir (cfg.dst c.name) = some ((fs.touch (cfg.path c.name)).createIno (cfg.dst c.name)) ∧
      w3.fs.dir (cfg.bck c.name) ≠ none ∧
      w3.fs.ino ((fs.touch (cfg.path c.name)).createIno (cfg.dst c.name)) =
        w2.fs.ino ((fs.touch (cfg.path c.name)).createIno (cfg.dst c.name)) := by
  obtain ⟨d1, d2, d3⟩ := hd
  unfold updateDatabaseOnFile
  rw [q1, bind_ok_eq (atomic_none _ _)]
  have hg1 := touch_good hg (cfg.path c.name)
  have hpath1 := touch_dir_self fs (cfg.path c.name)
  generalize fs.touch (cfg.path c.name) = F1 at *
  have t2 := writeDestination_rel cfg o c r ⟨F1, c.conn⟩
  rw [hw] at t2
  obtain ⟨t2, c2⟩ := t2
  rw [bind_ok_eq hw]
  obtain ⟨_, _, hj2, _⟩ := writeDestination_starts cfg o c r _ _ _ hw
  simp only at t2 c2 hj2
  have hg2 : FsGood w2.fs := t2.good hg1
  have hbk : backup cfg o c.name = backup cfg calm c.name := by
    unfold backup
    rw [q2, q3, q4]
    rfl
  obtain ⟨w3, hb, hbd⟩ := backup_calm cfg c.name w2 (by rw [c2]; exact hopen)
  rw [← hbk] at hb
  have t3 := backup_rel cfg o c.name w2
  rw [hb] at t3
  obtain ⟨t3, c3, o3⟩ := t3
  simp only at t3 c3 o3
  rw [bind_ok_eq hb]
  refine ⟨w3, rfl, by rw [o3, c2]; exact hopen, ?_, ?_, hbd, ?_⟩
  · rw [t3.dir _ d2, t2.dir _ d1]; exact hpath1
  · rw [t3.dir _ d3]; exact hj2
  · apply t3.ino _ (hg2.1 _ _ hj2)
    rintro p rfl he
    exact d3 (hg2.2 _ _ _ hj2 he)

/-- A commit stopped by the rename leaves no file under the name of the database. -/
theorem rename_fault (cfg : Cfg) (o : Pt → Fault) (c : Ctx) (r : Reference) (fs : FS) (hg : FsGood fs)
    (hd : cfg.Distinct c.name) (hopen : c.conn.isOpen = true) (x : Nat) (w2 : World) (he : Early o) (hr : o .rename ≠ .none)
    (hw : (writeDestination cfg o c r).run ⟨fs.touch (cfg.path c.name), c.conn⟩ = (.ok x, w2)) :
    ((updateDatabaseOnFile cfg o c r).run ⟨fs, c.conn⟩).2.fs.dir (cfg.path c.name) = none := by
  obtain ⟨w3, e, h1, h2, h3, h4, _⟩ := reach_swap cfg o c r fs hg hd hopen x w2 he.tryLock he.createBck he.copyBck he.closeBck hw
  rw [e]
  obtain ⟨hsw, _, _⟩ := swap_any cfg o c.name w3 hd h1 _ h2 h3 h4
  obtain ⟨d1, d2, d3⟩ := hd
  apply bind_world (fun w => w.fs.dir (cfg.path c.name) = none)
  · intro out w1 hs hst
    rw [hs] at hsw
    simp only at hsw
    generalize hF : w1.fs = F at *
    cases hsw with
    | closing _ _ h => rcases h with h | h; exacts [absurd he.closeConn h, absurd he.removeSrc h]
    | moving => simp [FS.remove, upd]
    | cleaning _ _ _ _ _ h => exact absurd h hr
    | reopening _ _ _ _ _ h => exact absurd h hr
    | done _ _ h => exact absurd h hr
  · intro conn w1 hs
    rw [hs] at hsw
    simp only at hsw
    generalize w1.fs = F at *
    cases hsw with
    | closing _ hs _ => exact absurd hs (by simp [Out.stop])
    | moving _ hs _ _ _ => exact absurd hs (by simp [Out.stop])
    | cleaning _ hs _ _ _ _ => exact absurd hs (by simp [Out.stop])
    | reopening _ hs _ _ _ _ => exact absurd hs (by simp [Out.stop])
    | done _ _ h => exact absurd h hr

/-- When nothing but the ignored operations fails, a commit whose destination was written succeeds, and the file is what was
written. -/
theorem quiet_commit (cfg : Cfg) (o : Pt → Fault) (c : Ctx) (r : Reference) (fs : FS) (hg : FsGood fs)
    (hd : cfg.Distinct c.name) (hopen : c.conn.isOpen = true) (x : Nat) (w2 : World) (he : Early o)
    (q1 : o .rename = .none) (q2 : o .removeBck = .none) (q3 : o .reopen = .none)
    (hw : (writeDestination cfg o c r).run ⟨fs.touch (cfg.path c.name), c.conn⟩ = (.ok x, w2)) :
    ∃ w', (updateDatabaseOnFile cfg o c r).run ⟨fs, c.conn⟩ =
        (.ok (⟨(fs.touch (cfg.path c.name)).createIno (cfg.dst c.name), 0, true⟩, x), w') ∧
      w'.fs.dir (cfg.path c.name) = some ((fs.touch (cfg.path c.name)).createIno (cfg.dst c.name)) ∧
      w'.fs.ino ((fs.touch (cfg.path c.name)).createIno (cfg.dst c.name)) =
        w2.fs.ino ((fs.touch (cfg.path c.name)).createIno (cfg.dst c.name)) := by
  obtain ⟨w3, e, h1, h2, h3, h4, h5⟩ := reach_swap cfg o c r fs hg hd hopen x w2 he.tryLock he.createBck he.copyBck he.closeBck hw
  rw [e]
  obtain ⟨hsw, _, _⟩ := swap_any cfg o c.name w3 hd h1 _ h2 h3 h4
  rcases hs : (swap cfg o c.name).run w3 with ⟨out, w4⟩
  rw [hs] at hsw
  simp only at hsw
  generalize hF : w4.fs = F at *
  cases hsw with
  | closing _ _ h => rcases h with h | h; exacts [absurd he.closeConn h, absurd he.removeSrc h]
  | moving _ _ h => exact absurd q1 h
  | cleaning _ _ h => exact absurd q2 h
  | reopening _ _ h => exact absurd q3 h
  | done =>
    rw [bind_ok_eq hs]
    refine ⟨w4, rfl, ?_, ?_⟩
    · rw [hF, swapped_dir cfg c.name w3.fs hd]; simp [h3]
    · rw [hF]; exact h5

/-! ### Commits never panic on an open handle -/

/-- The outcome is not a panic. -/
def Calmly {α : Type} (x : Out α × World) : Prop := x.1 ≠ .panic

theorem calmly_bind {α β : Type} {x : M α} {f : α → M β} {w : World} (hx : Calmly (x.run w))
    (hf : ∀ a w1, x.run w = (.ok a, w1) → Calmly ((f a).run w1)) : Calmly ((x >>= f).run w) := by
  unfold Calmly at *
  rw [bind_def]
  rcases h : x.run w with ⟨out, w1⟩
  rw [h] at hx
  cases out with
  | ok a => exact hf a w1 h
  | err => simp
  | panic => exact absurd rfl hx
  | crash => simp
  | hang => simp

theorem attempt_calmly (f : Fault) (full : World → World) (part : Nat → World → World) (w : World) :
    Calmly ((attempt f full part).run w) := by
  cases f <;> simp [Calmly, attempt]

theorem swallow_calmly {x : M Unit} {w : World} (h : Calmly (x.run w)) : Calmly ((swallow x).run w) := by
  unfold Calmly swallow at *
  simp only
  rcases hx : x.run w with ⟨out, w1⟩
  rw [hx] at h
  cases out <;> simp_all

theorem save_calmly (f g : Fault) (i off : Nat) (bs : Bytes) (w : World) : Calmly ((saveDataOnDisk f g i off bs).run w) := by
  unfold saveDataOnDisk
  exact calmly_bind (attempt_calmly _ _ _ _) (fun _ _ _ => attempt_calmly _ _ _ _)

theorem copyRead_calmly (f : Fault) (chunk off : Nat) (w : World) (h : chunk < 2 ^ 63) :
    Calmly ((copyRead f chunk off).run w) := by
  unfold Calmly copyRead
  cases f with
  | none =>
    simp only
    have : connRead w.fs w.conn chunk off ≠ .panic := by
      unfold connRead readAt
      rw [if_neg (by omega)]
      split
      · simp
      split
      · simp
      split
      · simp
      split <;> simp
    cases hr : connRead w.fs w.conn chunk off <;> simp_all
  | fail k => simp
  | crash k => simp

theorem copyLoop_calmly (o : Pt → Fault) (chunk i fuel k ro wo : Nat) (w : World) (h : chunk < 2 ^ 63) :
    Calmly ((copyLoop o chunk i fuel k ro wo).run w) := by
  induction fuel generalizing k ro wo w with
  | zero => simp [copyLoop, Calmly]
  | succ n ih =>
    unfold copyLoop
    apply calmly_bind (copyRead_calmly _ _ _ _ h)
    intro r w1 _
    unfold copyStep
    cases r with
    | none => simp [Calmly]
    | some b =>
      apply calmly_bind (swallow_calmly (save_calmly _ _ _ _ _ _))
      intro go w2 _
      cases go
      · simp [Calmly]
      · exact ih _ _ _ w2

theorem writeContents_calmly (o : Pt → Fault) (i k wo : Nat) (L : List Content) (w : World) :
    Calmly ((writeContents o i k wo L).run w) := by
  induction L generalizing k wo w with
  | nil => simp [writeContents, Calmly]
  | cons x xs ih =>
    unfold writeContents
    apply calmly_bind (swallow_calmly (save_calmly _ _ _ _ _ _))
    intro go w2 _
    cases go
    · simp [Calmly]
    · exact ih _ _ w2

theorem removeOp_calmly (f : Fault) (p : Name) (w : World) : Calmly ((removeOp f p).run w) := by
  unfold removeOp
  dsimp only
  split
  · exact attempt_calmly _ _ _ _
  · simp [Calmly]

theorem swap_calmly (cfg : Cfg) (o : Pt → Fault) (n : Name) (w : World) : Calmly ((swap cfg o n).run w) := by
  unfold swap
  apply calmly_bind
  · unfold closeConn
    dsimp only
    split
    · simp [Calmly]
    · exact attempt_calmly _ _ _ _
  intro _ _ _
  apply calmly_bind (removeOp_calmly _ _ _)
  intro _ _ _
  apply calmly_bind
  · unfold renameOp
    dsimp only
    split
    · exact attempt_calmly _ _ _ _
    · simp [Calmly]
  intro _ _ _
  apply calmly_bind (removeOp_calmly _ _ _)
  intro _ w1 _
  unfold openOp
  dsimp only
  split
  · exact calmly_bind (attempt_calmly _ _ _ _) (fun _ _ _ => by simp [Calmly])
  · simp [Calmly]

theorem updateDatabase_calmly (cfg : Cfg) (o : Pt → Fault) (c : Ctx) (r : Reference) (fs : FS)
    (hopen : c.conn.isOpen = true) (hlt : c.conn.ino < fs.next) (hg : FsGood fs) (hd : cfg.Distinct c.name)
    (hdst : fs.dir (cfg.dst c.name) ≠ some c.conn.ino)
    (hoff : c.reference ≠ none → c.dataOffset ≤ (fs.ino c.conn.ino).length ∧ (fs.ino c.conn.ino).length < 2 ^ 63) :
    Calmly ((updateDatabaseOnFile cfg o c r).run ⟨fs, c.conn⟩) := by
  obtain ⟨d1, d2, d3⟩ := hd
  unfold updateDatabaseOnFile
  apply calmly_bind (attempt_calmly _ _ _ _)
  intro _ w1 h1
  have h1 := (atomic_ok h1).2
  subst h1
  simp only
  apply calmly_bind
  · unfold writeDestination
    apply calmly_bind (by simp [Calmly, inoOf])
    intro i w2 h2
    injection h2 with h2a h2b
    injection h2a with h2a
    subst h2a h2b
    apply calmly_bind (attempt_calmly _ _ _ _)
    intro _ w3 h3
    have h3 := (atomic_ok h3).2
    subst h3
    apply calmly_bind (attempt_calmly _ _ _ _)
    intro _ w4 h4
    have h4 := (writeOp_ok h4).2
    have hne : c.conn.ino ≠ (fs.touch (cfg.path c.name)).createIno (cfg.dst c.name) :=
      createIno_lt_of_dir (Nat.lt_of_lt_of_le hlt (touch_next _ _)) (by rw [touch_dir_ne _ (Ne.symm d1)]; exact hdst)
    have hsrc : w4.fs.ino w4.conn.ino = fs.ino c.conn.ino := by
      rw [h4]
      simp only [FS.write]
      rw [upd_ne _ _ hne, create_ino_ne _ hne, touch_ino_lt _ _ hlt]
    have hop : w4.conn.isOpen = true := by rw [h4]; exact hopen
    apply calmly_bind
    · unfold copyOld
      cases hr : c.reference with
      | none => simp [Calmly]
      | some r0 =>
        obtain ⟨hle, hsz⟩ := hoff (by rw [hr]; simp)
        have hs : statSize.run w4 = (.ok (fs.ino c.conn.ino).length, w4) := by simp [statSize, hop, hsrc]
        rw [bind_ok_eq hs, copyFrom, sub64_eq hle hsz]
        have := makeChunkSize_le cfg ((fs.ino c.conn.ino).length - c.dataOffset)
        exact copyLoop_calmly _ _ _ _ _ _ _ _ (by omega)
    intro _ w5 _
    apply calmly_bind (writeContents_calmly _ _ _ _ _ _)
    intro _ _ _
    simp [Calmly]
  intro _ w2 _
  apply calmly_bind
  · unfold backup
    apply calmly_bind (by simp [Calmly, inoOf])
    intro _ _ _
    apply calmly_bind (attempt_calmly _ _ _ _)
    intro _ w3 _
    apply calmly_bind
    · unfold copyBackup
      dsimp only
      split
      · simp [Calmly]
      · exact attempt_calmly _ _ _ _
    intro _ _ _
    exact attempt_calmly _ _ _ _
  intro _ _ _
  apply calmly_bind (swap_calmly _ _ _ _)
  intro _ _ _
  simp [Calmly]

/-! ### Reads -/

/-- Reading a pointer reads from the data area. -/
theorem read_ok {fs : FS} {a : App} {id : Nat} {c : Ctx} (hc : a.get id = some c) {H d : Bytes}
    (hf : fs.ino c.conn.ino = H ++ d) (ho : c.dataOffset = H.length) (hlen : (H ++ d).length < 2 ^ 63)
    (hopen : c.conn.isOpen = true) {p : Pointer} (h0 : 0 < p.length) (hp : p.from' < 2 ^ 63) (b : Bytes) :
    read fs a id p = .ok b ↔ p.from' + p.length ≤ d.length ∧ b = (d.drop p.from').take p.length := by
  rw [List.length_append] at hlen
  unfold read
  rw [hc]
  simp only
  rw [ho, Nat.mod_eq_of_lt (by omega)]
  unfold connRead
  rw [hf, hopen]
  simp only [Bool.true_eq_false, if_false]
  by_cases h1 : 2 ^ 63 ≤ p.length
  · rw [if_pos h1]
    constructor
    · intro h; cases h
    · rintro ⟨h, _⟩; omega
  rw [if_neg h1]
  by_cases h2 : 2 ^ 63 ≤ H.length + p.from'
  · rw [if_pos h2]
    constructor
    · intro h; cases h
    · rintro ⟨h, _⟩; omega
  rw [if_neg h2]
  by_cases h3 : p.from' + p.length ≤ d.length
  · rw [readAt_ok _ _ _ (by rw [List.length_append]; omega), List.drop_length_add_append, Res.ok.injEq]
    constructor
    · intro h; exact ⟨h3, h.symm⟩
    · intro h; exact h.2.symm
  · rw [readAt_short _ _ _ (by omega) (by rw [List.length_append]; omega)]
    constructor
    · intro h; cases h
    · rintro ⟨h, _⟩; omega

/-! ### Successful commits -/

/-- The data area of a context. -/
def dataOf (fs : FS) (c : Ctx) : Bytes := (fs.ino c.conn.ino).drop c.dataOffset

theorem Holds.length {cfg : Cfg} {u : Usage} {f : Bytes} {o : Option Reference} {off : Nat} (h : Holds cfg u f o off)
    (hl : u.lossless) : (f.drop off).length = total (oldKeys o) ∧ off ≤ f.length := by
  cases o with
  | none => obtain ⟨rfl, rfl⟩ := h; simp [oldKeys, total]
  | some r =>
    obtain ⟨_, rfl, _, d, rfl, hd⟩ := h
    simp [oldKeys, hd hl]

/-- What a successful commit did, in a state of a history. -/
structure Success (cfg : Cfg) (u : Usage) (o : Pt → Fault) (now : Int) (s : State) (id : Nat) (c : Ctx) (fs' : FS) (app' : App)
    (t : HashTree.Tree) (r : Reference) (j : Nat) (d : Bytes) : Prop where
  updated : Updated cfg c now t r
  app : app' = s.app.set id { c with conn := ⟨j, 0, true⟩, reference := some r, dataOffset := (refData r).length }
  dir : fs'.dir (cfg.path c.name) = some j
  content : fs'.ino j = refData r ++ d
  size : (refData r ++ d).length < 2 ^ 63
  refOK : RefOK cfg r
  data : u.lossless → d = dataOf s.fs c ++ allData c.contentList
  exact : NoIgnoredFailure o → CopyEnds cfg c (s.fs.ino c.conn.ino) ∧ d = kept cfg (dataOf s.fs c) ++ allData c.contentList
  wasOpen : c.conn.isOpen = true

theorem commit_success {cfg : Cfg} {u : Usage} (hn : Names cfg u) {s : State} (h : Inv cfg u s) {id : Nat} {c : Ctx}
    {o : Pt → Fault} {now : Int} (hg : s.app.get id = some c) (hf : CommitFits cfg u o now s.fs s.app id c)
    (hok : (commit cfg o now s.fs s.app id).out = .ok ()) :
    ∃ t r j d, Success cfg u o now s id c (commit cfg o now s.fs s.app id).fs (commit cfg o now s.fs s.app id).app t r j d := by
  have hfile := hf.file
  have hc := h.ctxs _ (get_mem hg)
  rcases commit_cases cfg o now s.fs s.app id c hg with ⟨h1, h2, h3⟩ | ⟨r, hr, he⟩
  · exfalso
    unfold commit at hok
    rw [hg] at hok
    simp only at hok
    cases hu : updateReference cfg c now with
    | ok r => exact h3 r hu
    | err => rw [hu] at hok; cases hok
    | panic => rw [hu] at hok; cases hok
  obtain ⟨t, hu⟩ := updateReference_spec hc.pending hc.holds.ref hf.data hr
  obtain ⟨ht, hi, hp⟩ := updateDatabase_any cfg o c r s.fs h.good (hn.distinct hc.name) hc.lt
    (hc.dst_ne hn hc.name _ (.inl rfl))
  rw [he] at hfile hok ⊢
  obtain ⟨e1, e2⟩ := finish_eq s.fs s.app id c r ((updateDatabaseOnFile cfg o c r).run ⟨s.fs, c.conn⟩)
  rw [e1] at hfile ⊢
  rw [e2]
  clear he e1 e2
  generalize (updateDatabaseOnFile cfg o c r).run ⟨s.fs, c.conn⟩ = x at *
  obtain ⟨out, w⟩ := x
  simp only at ht hi hp hfile ⊢
  have hstop : ¬ out.stop := by
    intro hs
    rw [finish_out _ _ _ _ _ hs] at hok
    cases out <;> first | exact hs | cases hok
  cases hp with
  | old _ _ hs _ _ => exact absurd hs hstop
  | gone _ _ _ hs _ _ _ _ => exact absurd hs hstop
  | late _ _ _ hs _ _ _ _ => exact absurd hs hstop
  | new _ j hdo hfr hx _ _ hopen =>
    have hlen := hfile (w.fs.ino j) (by simp only [FS.file, hdo, Option.map_some])
    have hh := hx.holds hu hc.pending hc.holds hf.timeLo hf.timeHi hf.data hlen hf.noIgnored hf.chunk
    obtain ⟨hok, _, _, d, hd, _⟩ := hh
    have hexact : NoIgnoredFailure o → CopyEnds cfg c (s.fs.ino c.conn.ino) ∧
        d = kept cfg (dataOf s.fs c) ++ allData c.contentList := by
      intro hno
      obtain ⟨hends, hnew⟩ := hx.2 hno hc.holds.bounds
      rw [hd] at hnew
      unfold newFile at hnew
      have hnew := List.append_cancel_left hnew
      refine ⟨hends, ?_⟩
      rw [hnew]
      congr 1
      unfold carried dataOf
      cases hcr : c.reference with
      | none =>
        have := hc.holds
        rw [hcr] at this
        rw [this.1]
        simp [kept]
      | some r0 => rfl
    refine ⟨t, r, j, d, hu, rfl, hdo, hd, by rw [← hd]; exact hlen, hok, ?_, hexact, hopen⟩
    intro hl
    rw [(hexact (hf.noIgnored hl)).2]
    congr 1
    apply kept_eq
    unfold dataOf
    rw [(hc.holds.length hl).1]
    exact hf.chunk hl

theorem total_pos {L : List ContentKey} (h : ∀ k ∈ L, k.WF) (hne : L ≠ []) : 0 < total L := by
  cases L with
  | nil => exact absurd rfl hne
  | cons k ks =>
    have := (h k (by simp)).2.2.1.2.2
    simp only [total]
    omega

/-- In a lossless history a fault-free commit of at least one content on an open database succeeds. -/
theorem commit_progress {cfg : Cfg} {u : Usage} (hn : Names cfg u) (hl : u.lossless) (hchunk : 0 < cfg.readChunkSize)
    {s : State} (h : Inv cfg u s) {id : Nat} {c : Ctx} {now : Int} (hg : s.app.get id = some c)
    (hopen : c.conn.isOpen = true) (hne : c.contentList ≠ [])
    (hdata : total (oldKeys c.reference) + (allData c.contentList).length < 2 ^ 63) :
    (commit cfg calm now s.fs s.app id).out = .ok () := by
  have hc := h.ctxs _ (get_mem hg)
  obtain ⟨t, r, hr, hu⟩ := updateReference_ok cfg c now hne hc.pending hc.holds.ref hdata
  have hends : CopyEnds cfg c (s.fs.ino c.conn.ino) := by
    unfold CopyEnds
    cases hcr : c.reference with
    | none => left; rfl
    | some r0 =>
      right
      have hh := hc.holds
      rw [hcr] at hh
      obtain ⟨h1, h2, h3, d, hd, h4⟩ := hh
      have := total_pos h1.wf.keys (contentKeysNow_ok h1.wf.keysBuilt).1
      refine ⟨hchunk, ?_, h3⟩
      rw [hd, h2, List.length_append, h4 hl]
      omega
  obtain ⟨w', j, he, _⟩ := updateDatabase_calm cfg c r s.fs h.good (hn.distinct hc.name) hopen hc.lt
    (hc.dst_ne hn hc.name _ (.inl rfl)) hends
  unfold commit
  rw [hg]
  simp only [hr, he]
  rfl

end DB
end Rodkina
