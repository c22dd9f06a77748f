import Verif.DatabaseProps
/-! Property theorems for the file database, C30-C36: isolation, interruption, identifiers. -/

namespace Rodkina
namespace Props

open Ref DB

/-! ### C30 -/

/-- The inode of an open context is not one a commit of another database writes to. -/
theorem commit_frame {cfg : Cfg} {u : Usage} (hn : Names cfg u) {s : State} (h : Inv cfg u s) {id : Nat} {c : Ctx}
    {o : Pt → Fault} {now : Int} (hg : s.app.get id = some c) :
    (∀ m, u.names m → m ≠ c.name →
      (commit cfg o now s.fs s.app id).fs.file (cfg.path m) = s.fs.file (cfg.path m)) ∧
    (∀ e ∈ s.app, (commit cfg o now s.fs s.app id).fs.ino e.2.conn.ino = s.fs.ino e.2.conn.ino) ∧
    (∀ id', id' ≠ id → (commit cfg o now s.fs s.app id).app.get id' = s.app.get id') := by
  have hc : CtxOK cfg u s.fs c := h.ctxs _ (get_mem hg)
  rcases commit_cases cfg o now s.fs s.app id c hg with ⟨h1, h2, _⟩ | ⟨r, hr, he⟩
  · rw [h1, h2]; exact ⟨fun _ _ _ => rfl, fun _ _ => rfl, fun _ _ => rfl⟩
  obtain ⟨ht, _, _⟩ := updateDatabase_any cfg o c r s.fs h.good (hn.distinct hc.name) hc.lt
    (hc.dst_ne hn hc.name _ (.inl rfl))
  obtain ⟨e1, e2⟩ := finish_eq s.fs s.app id c r ((updateDatabaseOnFile cfg o c r).run ⟨s.fs, c.conn⟩)
  rw [he, e1, e2]
  refine ⟨?_, ?_, fun id' hne => get_set_ne _ _ hne⟩
  · intro m hm hne
    have hown : ¬ Own cfg c.name (cfg.path m) := by
      rintro (hp | hp | hp)
      · exact hne (hn.inj _ _ hm hc.name hp)
      · exact hn.dst _ _ hm hc.name hp
      · exact hn.bck _ _ hm hc.name hp
    unfold FS.file
    rw [ht.dir _ hown]
    cases hd : s.fs.dir (cfg.path m) with
    | none => rfl
    | some i =>
      simp only [Option.map_some, Option.some.injEq]
      apply ht.ino i (h.good.1 _ _ hd)
      intro p hp hdp
      have := h.good.2 _ _ _ hdp hd
      rcases hp with rfl | rfl
      · exact hn.dst _ _ hm hc.name this.symm
      · exact hn.bck _ _ hm hc.name this.symm
  · intro e he'
    have hce := h.ctxs e he'
    exact ht.ino _ hce.lt (fun p hp => hce.dst_ne hn hc.name p hp)

/-- C30 for `Commit`: with any fault at any point, a commit changes no file of a database with another name (no name being
another one plus the temporary or backup extension), and nothing that another context can list or read. -/
theorem C30_commit_touches_only_its_database (cfg : Cfg) (u : Usage) (hn : Names cfg u) (s : State) (hs : Reachable cfg u s)
    (id : Nat) (c : Ctx) (o : Pt → Fault) (now : Int) (hg : s.app.get id = some c) :
    (∀ m, u.names m → m ≠ c.name →
      (commit cfg o now s.fs s.app id).fs.file (cfg.path m) = s.fs.file (cfg.path m)) ∧
    ∀ id', id' ≠ id →
      (commit cfg o now s.fs s.app id).app.get id' = s.app.get id' ∧
      SameView s.fs s.app id' (commit cfg o now s.fs s.app id).fs (commit cfg o now s.fs s.app id).app id' := by
  obtain ⟨h1, h2, h3⟩ := commit_frame (o := o) (now := now) hn (hs.inv hn) hg
  exact ⟨h1, fun id' hne => ⟨h3 id' hne, sameView_get (h3 id' hne) (fun c' hc' => h2 _ (get_mem hc'))⟩⟩

/-- C30 for `New` and `Delete`: they change no file with another name and nothing any open context can list or read (not even
of the deleted database, whose handle stays valid). -/
theorem C30_new_and_delete_touch_only_their_database (cfg : Cfg) (u : Usage) (hn : Names cfg u) (s : State)
    (hs : Reachable cfg u s) (n : Name) (hu : u.names n) (fs' : FS)
    (h : new' cfg s.fs n = .ok fs' ∨ delete' cfg s.fs n = .ok fs') :
    (∀ m, u.names m → m ≠ n → fs'.file (cfg.path m) = s.fs.file (cfg.path m)) ∧
    ∀ id, SameView s.fs s.app id fs' s.app id := by
  have hinv := hs.inv hn
  rcases h with h | h
  · unfold new' at h
    split at h
    · cases h
    rename_i hnone
    injection h with h
    subst h
    have hnone : s.fs.dir (cfg.path n) = none := by simpa using hnone
    have hI : s.fs.createIno (cfg.path n) = s.fs.next := by simp [FS.createIno, hnone]
    constructor
    · intro m hm hne
      have hp : cfg.path m ≠ cfg.path n := fun e => hne (hn.inj _ _ hm hu e)
      unfold FS.file
      rw [create_dir_ne _ hp]
      cases hd : s.fs.dir (cfg.path m) with
      | none => rfl
      | some i =>
        have := hinv.good.1 _ _ hd
        simp only [Option.map_some, Option.some.injEq]
        exact create_ino_ne _ (by rw [hI]; omega)
    · intro id
      apply sameView_get rfl
      intro c hc
      have := (hinv.ctxs _ (get_mem hc)).lt
      simp only at this
      exact create_ino_ne _ (by rw [hI]; omega)
  · unfold delete' at h
    split at h
    case isFalse => cases h
    injection h with h
    subst h
    constructor
    · intro m hm hne
      have hp : cfg.path m ≠ cfg.path n := fun e => hne (hn.inj _ _ hm hu e)
      simp [FS.file, FS.remove, upd, hp]
    · intro id
      exact sameView_get rfl (fun _ _ => rfl)

/-- C30 for the calls that only concern contexts: `Write`, `Cancel` and `Close` leave every other context exactly as it is, and
`Open` leaves every context alone except one with the identifier it returns (see C35). None of them has access to the files. -/
theorem C30_context_calls_touch_only_their_context (cfg : Cfg) (fs : FS) (a a' : App) (id : Nat)
    (h : (∃ x d k, write a id x d k = .ok a') ∨ cancel a id = .ok a' ∨ close a id = .ok a' ∨
      ∃ n, open' cfg fs a n = .ok (id, a')) :
    ∀ id', id' ≠ id → a'.get id' = a.get id' := by
  intro id' hne
  rcases h with ⟨x, d, k, h⟩ | h | h | ⟨n, h⟩
  · obtain ⟨c, x, _, rfl⟩ := write_ok h
    exact get_set_ne _ _ hne
  · obtain ⟨c, _, rfl⟩ := cancel_ok h
    exact get_set_ne _ _ hne
  · unfold close at h
    cases hg : a.get id with
    | none => rw [hg] at h; cases h
    | some c =>
      simp only [hg] at h
      split at h
      case isFalse => cases h
      injection h with h
      subst h
      unfold App.get App.delete
      congr 1
      clear hg
      induction a with
      | nil => rfl
      | cons e es ih =>
        by_cases he : e.1 = id
        · rw [List.filter_cons_of_neg (by simp [he]), List.find?_cons, show (e.1 == id') = false by simp [he, Ne.symm hne]]
          exact ih
        · rw [List.filter_cons_of_pos (by simp [he]), List.find?_cons, List.find?_cons, ih]
  · unfold open' at h
    split at h
    · cases h
    obtain ⟨r, _, h⟩ := Res.bind_eq_ok.mp h
    simp only [Res.pure_eq, Res.ok.injEq, Prod.mk.injEq] at h
    obtain ⟨rfl, rfl⟩ := h
    exact get_set_ne _ _ hne

/-- Two databases, the first one with a content pending. -/
def sTwo : State := ⟨(fs0.create ['a']).create ['b'], [(1, ⟨['b'], ⟨1, 0, true⟩, none, 0, []⟩), (0, ctxX)]⟩

theorem sTwo_reachable (S : Sha) (chunk : Nat) (l : Prop) : Reachable (sampleCfg S chunk) (sampleUsage l) sTwo := by
  obtain ⟨s0, h0, h⟩ := sWritten_reachable S chunk l
  refine ⟨s0, h0, .tail _ ⟨(fs0.create ['a']).create ['b'], [(0, ctxX)]⟩ _
    (.tail _ _ _ h (.new sWritten ['b'] _ (by simp [sampleUsage]) rfl)) ?_⟩
  exact .open' ⟨(fs0.create ['a']).create ['b'], [(0, ctxX)]⟩ ['b'] 1 _ (by simp [sampleUsage]) rfl

/-- The hypotheses of C30 hold with two open databases. -/
example (S : Sha) : ∃ cfg u s c, cfg.S = S ∧ Names cfg u ∧ Reachable cfg u s ∧ s.app.get 0 = some c ∧ c.contentList ≠ [] ∧
    (∃ m c', u.names m ∧ m ≠ c.name ∧ s.fs.dir (cfg.path m) ≠ none ∧ s.app.get 1 = some c') ∧
    (∃ n fs', u.names n ∧ new' cfg s.fs n = .ok fs') ∧ ∃ n fs', u.names n ∧ delete' cfg s.fs n = .ok fs' :=
  ⟨sampleCfg S 3, sampleUsage False, sTwo, ctxX, rfl, sampleNames S 3 False, sTwo_reachable S 3 False, rfl, by simp [ctxX],
    ⟨['b'], _, by simp [sampleUsage], by simp [ctxX], by simp [sTwo, sampleCfg, FS.create, fs0, upd], rfl⟩,
    ⟨['c'], _, by simp [sampleUsage], rfl⟩, ⟨['b'], _, by simp [sampleUsage], rfl⟩⟩

/-! ### C31 and C32 -/

/-- The complete new content of the database: the reference with the new commit, the stored data, the pending data. -/
def Complete (cfg : Cfg) (s : State) (c : Ctx) (now : Int) (x : Bytes) : Prop :=
  ∃ r, updateReference cfg c now = .ok r ∧ x = refData r ++ dataOf s.fs c ++ allData c.contentList

theorem wrote_complete {cfg : Cfg} {u : Usage} {s : State} {c : Ctx} (hc : CtxOK cfg u s.fs c) (hl : u.lossless) {o : Pt → Fault}
    {now : Int} {id : Nat} (hf : CommitFits cfg u o now s.fs s.app id c) {r : Reference} (hr : updateReference cfg c now = .ok r)
    {x : Bytes} (hx : Wrote cfg o c r (s.fs.ino c.conn.ino) x) : Complete cfg s c now x := by
  refine ⟨r, hr, ?_⟩
  obtain ⟨_, hnew⟩ := hx.2 (hf.noIgnored hl) hc.holds.bounds
  rw [hnew, List.append_assoc]
  unfold newFile
  congr 2
  unfold carried dataOf
  cases hcr : c.reference with
  | none =>
    have := hc.holds
    rw [hcr] at this
    rw [this.1]
    simp
  | some r0 =>
    simp only
    apply kept_eq
    rw [(hc.holds.length hl).1]
    exact hf.chunk hl

/-- What a commit with any faults leaves of the file of its database. -/
theorem commit_leaves {cfg : Cfg} {u : Usage} (hn : Names cfg u) (hl : u.lossless) {s : State} (h : Inv cfg u s) {id : Nat}
    {c : Ctx} {o : Pt → Fault} {now : Int} (hg : s.app.get id = some c) (hf : CommitFits cfg u o now s.fs s.app id c) {old : Bytes}
    (hold : s.fs.file (cfg.path c.name) = some old) :
    ((commit cfg o now s.fs s.app id).fs.file (cfg.path c.name) = some old ∧
      (commit cfg o now s.fs s.app id).out ≠ .ok ()) ∨
    (∃ x, (commit cfg o now s.fs s.app id).fs.file (cfg.path c.name) = some x ∧ Complete cfg s c now x ∧
      c.conn.isOpen = true) ∨
    (∃ x, (commit cfg o now s.fs s.app id).fs.file (cfg.path c.name) = none ∧
      (commit cfg o now s.fs s.app id).fs.file (cfg.dst c.name) = some x ∧ Complete cfg s c now x ∧ o .rename ≠ .none ∧
      (commit cfg o now s.fs s.app id).out ≠ .ok ()) := by
  have hc : CtxOK cfg u s.fs c := h.ctxs _ (get_mem hg)
  rcases commit_cases cfg o now s.fs s.app id c hg with ⟨h1, h2, h3⟩ | ⟨r, hr, he⟩
  · left
    rw [h1]
    refine ⟨hold, ?_⟩
    unfold commit
    rw [hg]
    simp only
    cases hu : updateReference cfg c now with
    | ok r => exact absurd hu (h3 r)
    | err => simp
    | panic => simp
  obtain ⟨ht, _, hp⟩ := updateDatabase_any cfg o c r s.fs h.good (hn.distinct hc.name) hc.lt
    (hc.dst_ne hn hc.name _ (.inl rfl))
  obtain ⟨e1, e2⟩ := finish_eq s.fs s.app id c r ((updateDatabaseOnFile cfg o c r).run ⟨s.fs, c.conn⟩)
  have hdir : ∃ i, s.fs.dir (cfg.path c.name) = some i ∧ s.fs.ino i = old := by
    unfold FS.file at hold
    cases hd : s.fs.dir (cfg.path c.name) with
    | none => rw [hd] at hold; cases hold
    | some i => rw [hd] at hold; exact ⟨i, rfl, by simpa using hold⟩
  obtain ⟨i, hi, hino⟩ := hdir
  rw [he, e1]
  clear he e1 e2
  generalize (updateDatabaseOnFile cfg o c r).run ⟨s.fs, c.conn⟩ = x at *
  obtain ⟨out, w⟩ := x
  simp only at ht hp ⊢
  have hstop : out.stop → (finish s.fs s.app id c r (out, w)).out ≠ .ok () := by
    intro hs
    rw [finish_out _ _ _ _ _ hs]
    cases out with
    | ok v => exact absurd hs (by simp [Out.stop])
    | err => simp [Out.cast]
    | panic => simp [Out.cast]
    | crash => simp [Out.cast]
    | hang => simp [Out.cast]
  cases hp with
  | old _ _ hs hd _ =>
    left
    refine ⟨?_, hstop hs⟩
    rcases hd with hd | ⟨hd, _⟩
    · unfold FS.file
      rw [hd, hi]
      simp only [Option.map_some, Option.some.injEq]
      rw [ht.ino i (h.good.1 _ _ hi), hino]
      intro p hp hdp
      have := h.good.2 _ _ _ hdp hi
      rcases hp with rfl | rfl
      · exact hn.dst _ _ hc.name hc.name this.symm
      · exact hn.bck _ _ hc.name hc.name this.symm
    · rw [hi] at hd; cases hd
  | gone _ _ x hs hd hdst hx _ _ hren _ =>
    right; right
    exact ⟨x, by simp [FS.file, hd], hdst, wrote_complete hc hl hf hr hx, hren, hstop hs⟩
  | late _ _ j hs hd _ hx _ hopen _ he =>
    right; left
    exact ⟨_, by rw [FS.file, hd]; rfl, wrote_complete hc hl hf hr hx, hopen⟩
  | new _ j hd _ hx _ _ hopen he hl' =>
    right; left
    exact ⟨_, by rw [FS.file, hd]; rfl, wrote_complete hc hl hf hr hx, hopen⟩

/-- The sample database, its file, and the new reference of its next commit. -/
theorem ready_facts {S : Sha} {chunk : Nat} {l : Prop} {s : State} {c : Ctx} {x : Content}
    (h : ReadyWith (sampleCfg S chunk) (sampleUsage l) s c [x]) (hx : x.data.length ≤ 2 ^ 32) (h0 : 0 < chunk) :
    ∃ t r, updateReference (sampleCfg S chunk) c 9 = .ok r ∧ Updated (sampleCfg S chunk) c 9 t r ∧
      s.fs.touch ((sampleCfg S chunk).path c.name) = s.fs ∧
      s.fs.file ((sampleCfg S chunk).path c.name) = some (s.fs.ino c.conn.ino) ∧
      c.conn.ino ≠ s.fs.createIno ((sampleCfg S chunk).dst c.name) ∧
      CopyEnds (sampleCfg S chunk) c (s.fs.ino c.conn.ino) ∧
      total (oldKeys c.reference) + (allData c.contentList).length < 2 ^ 63 ∧
      (s.fs.ino c.conn.ino).length = c.dataOffset + 5 := by
  have hinv := h.reachable.inv (sampleNames S chunk l)
  have hc : CtxOK (sampleCfg S chunk) (sampleUsage l) s.fs c := hinv.ctxs _ (get_mem h.get)
  have hlen : (s.fs.ino c.conn.ino).length = c.dataOffset + 5 := by
    have e := congrArg List.length h.data
    unfold dataOf at e
    simp only [List.length_drop, List.length_cons, List.length_nil] at e
    omega
  have hoff := h.offset
  have ht : total (oldKeys c.reference) = 5 := by
    obtain ⟨k, hk, e⟩ := List.map_eq_singleton_iff.mp h.keys
    rw [hk]
    simp at e
    simp [total, e.2.2.2]
  have hdata : total (oldKeys c.reference) + (allData c.contentList).length < 2 ^ 63 := by
    rw [ht, h.pending]; simp only [allData, List.flatMap_cons, List.flatMap_nil, List.append_nil]; omega
  obtain ⟨t, r, hr, hu⟩ := updateReference_ok (sampleCfg S chunk) c 9 (by rw [h.pending]; simp) hc.pending hc.holds.ref hdata
  have hdir : s.fs.dir ((sampleCfg S chunk).path c.name) = some c.conn.ino := by rw [h.name]; exact h.linked
  refine ⟨t, r, hr, hu, ?_, ?_, createIno_lt_of_dir hc.lt (hc.dst_ne (sampleNames S chunk l) hc.name _ (.inl rfl)),
    .inr ⟨h0, by omega, by omega⟩, hdata, hlen⟩
  · unfold FS.touch; rw [hdir]
  · unfold FS.file; rw [hdir]; rfl

/-- C31 is false of the code: when the first read of the stored data fails (an ordinary input error), the commit goes on,
reports success, and afterwards no file holds the complete old or the complete new content. -/
theorem C31_ignored_failure_loses_database (S : Sha) : ∃ cfg u s c o old, cfg.S = S ∧ Names cfg u ∧ Reachable cfg u s ∧
    s.app.get 0 = some c ∧ s.fs.file (cfg.path c.name) = some old ∧ o = oneFault (.copyRead 0) (.fail 0) ∧
    (commit cfg o 9 s.fs s.app 0).out = .ok () ∧
    ∀ p, p = cfg.path c.name ∨ p = cfg.dst c.name ∨ p = cfg.bck c.name →
      ∀ x, (commit cfg o 9 s.fs s.app 0).fs.file p = some x → x ≠ old ∧ ¬ Complete cfg s c 9 x := by
  obtain ⟨s, c, h⟩ := sample_ready S 10 False
  have hn := sampleNames S 10 False
  obtain ⟨t, r, hr, hu, htouch, hfile, hne, hends, hdata, hlen⟩ := ready_facts h (by decide) (by decide)
  have hinv := h.reachable.inv hn
  have hc : CtxOK (sampleCfg S 10) (sampleUsage False) s.fs c := hinv.ctxs _ (get_mem h.get)
  have hw := writeDestination_readFails (sampleCfg S 10) c r ⟨s.fs, c.conn⟩ h.isOpen hne h.reference hends
  obtain ⟨w', hrun, hd, hi⟩ := quiet_commit (sampleCfg S 10) (oneFault (.copyRead 0) (.fail 0)) c r s.fs hinv.good
    (hn.distinct hc.name) h.isOpen _ _ ⟨rfl, rfl, rfl, rfl, rfl, rfl, rfl, rfl⟩ rfl rfl rfl (by rw [htouch]; exact hw)
  obtain ⟨_, _, hp⟩ := updateDatabase_any (sampleCfg S 10) (oneFault (.copyRead 0) (.fail 0)) c r s.fs hinv.good
    (hn.distinct hc.name) hc.lt (hc.dst_ne hn hc.name _ (.inl rfl))
  have hcom : commit (sampleCfg S 10) (oneFault (.copyRead 0) (.fail 0)) 9 s.fs s.app 0 =
      finish s.fs s.app 0 c r (.ok (⟨s.fs.createIno ((sampleCfg S 10).dst c.name), 0, true⟩, (refData r).length), w') := by
    unfold commit
    rw [h.get]
    simp only [hr]
    rw [hrun, htouch]
  refine ⟨_, _, s, c, _, _, rfl, hn, h.reachable, h.get, hfile, rfl, by rw [hcom]; rfl, ?_⟩
  rw [hcom]
  simp only [finish]
  rw [hrun] at hp
  rw [htouch] at hd hi
  simp only [setIno_ino] at hi
  cases hp with
  | old _ _ hs _ _ => exact absurd hs (by simp [Out.stop])
  | gone _ _ _ hs _ _ _ _ => exact absurd hs (by simp [Out.stop])
  | late _ _ _ hs _ _ _ _ => exact absurd hs (by simp [Out.stop])
  | new _ _ _ _ _ hdst hbck _ _ _ =>
    rintro p (rfl | rfl | rfl) x hx
    · unfold FS.file at hx
      rw [hd, Option.map_some, hi] at hx
      injection hx with hx
      subst hx
      rw [h.pending]
      constructor
      · intro he
        cases hcr : c.reference with
        | none => exact absurd hcr h.reference
        | some r0 =>
          have hg := refData_grows hc hcr hu hdata (by rw [h.pending]; simp)
          have hh := hc.holds
          rw [hcr] at hh
          have he := congrArg List.length he
          rw [hlen, hh.2.1, List.length_append] at he
          simp [allData, contentY] at he
          omega
      · rintro ⟨r', hr', he⟩
        rw [hr] at hr'
        injection hr' with hr'
        subst hr'
        rw [h.data, h.pending, List.append_assoc] at he
        have he := congrArg List.length (List.append_cancel_left he)
        simp [allData, contentY] at he
    · unfold FS.file at hx; rw [hdst] at hx; cases hx
    · unfold FS.file at hx; rw [hbck] at hx; cases hx

/-- C31, what does hold: wherever a commit stops or fails, in the middle of a write or not, provided none of the operations
whose errors the code ignores fails (and the chunk size condition of C25): the database file is the complete old one, or it is
the complete new one, or it is missing and the temporary file is the complete new one. Missing from the full claim: the
failures the code ignores. -/
theorem C31_interrupted_commit_partial (cfg : Cfg) (u : Usage) (hn : Names cfg u) (hl : u.lossless) (s : State)
    (hs : Reachable cfg u s) (id : Nat) (c : Ctx) (o : Pt → Fault) (now : Int) (hg : s.app.get id = some c)
    (hf : CommitFits cfg u o now s.fs s.app id c) (old : Bytes) (hold : s.fs.file (cfg.path c.name) = some old) :
    (commit cfg o now s.fs s.app id).fs.file (cfg.path c.name) = some old ∨
    (∃ x, Complete cfg s c now x ∧ (commit cfg o now s.fs s.app id).fs.file (cfg.path c.name) = some x) ∨
    (∃ x, Complete cfg s c now x ∧ (commit cfg o now s.fs s.app id).fs.file (cfg.path c.name) = none ∧
      (commit cfg o now s.fs s.app id).fs.file (cfg.dst c.name) = some x) := by
  rcases commit_leaves hn hl (hs.inv hn) hg hf hold with h | ⟨x, h1, h2, _⟩ | ⟨x, h1, h2, h3, _⟩
  · exact .inl h.1
  · exact .inr (.inl ⟨x, h2, h1⟩)
  · exact .inr (.inr ⟨x, h3, h1, h2⟩)

/-- A complete new content really is the new database: opening it gives the new reference, with the old keys and commits first,
and after it come the stored and the pending bytes. -/
theorem complete_opens (cfg : Cfg) (u : Usage) (hn : Names cfg u) (hchunk : 0 < cfg.readChunkSize) (s : State)
    (hs : Reachable cfg u s) (id : Nat) (c : Ctx) (now : Int) (hg : s.app.get id = some c) (hlo : -2 ^ 63 ≤ now) (hhi : now < 2 ^ 63)
    (hdata : total (oldKeys c.reference) + (allData c.contentList).length < 2 ^ 63) (x : Bytes) (hx : Complete cfg s c now x)
    (hlen : x.length < 2 ^ 63) :
    ∃ r off last new, retrieveReference cfg x = .ok (some r, off) ∧ x.drop off = dataOf s.fs c ++ allData c.contentList ∧
      r.commits.list = oldCommits c.reference ++ [last] ∧ r.contentKeys.list = oldKeys c.reference ++ new := by
  have hc : CtxOK cfg u s.fs c := (hs.inv hn).ctxs _ (get_mem hg)
  obtain ⟨r, hr, rfl⟩ := hx
  obtain ⟨t, hu⟩ := updateReference_spec hc.pending hc.holds.ref hdata hr
  rw [List.append_assoc] at hlen ⊢
  have hok := hu.refOK hc.pending hc.holds.ref hlo hhi hdata (by
    simp only [List.length_append, refData_length] at hlen; omega)
  exact ⟨r, _, _, _, retrieveReference_refData cfg hchunk r hok.wf _, by rw [List.drop_left], hu.commits, hu.keys⟩

/-- The sizes assumed in C31 hold for the sample database whatever operation stops. -/
theorem sample_fits_any (S : Sha) (chunk : Nat) (l : Prop) {s : State} {c : Ctx} {x : Content}
    (h : ReadyWith (sampleCfg S chunk) (sampleUsage l) s c [x]) (hx : x.data.length ≤ 2 ^ 32) (h0 : 0 < chunk) (hl : l → 5 ≤ chunk)
    (o : Pt → Fault) (ho : NoIgnoredFailure o) :
    CommitFits (sampleCfg S chunk) (sampleUsage l) o 9 s.fs s.app 0 c := by
  have hn := sampleNames S chunk l
  have hinv := h.reachable.inv hn
  have hc : CtxOK (sampleCfg S chunk) (sampleUsage l) s.fs c := hinv.ctxs _ (get_mem h.get)
  obtain ⟨h1, hfit, t, r, j, hu, _, _, _, _, hr, hnew⟩ := h.commit hx h0 hl
  refine ⟨by decide, by decide, hfit.data, ?_, fun _ => ho, hfit.chunk⟩
  obtain ⟨ht, _, hp⟩ := updateDatabase_any (sampleCfg S chunk) o c r s.fs hinv.good
    (hn.distinct hc.name) hc.lt (hc.dst_ne hn hc.name _ (.inl rfl))
  have hcom : commit (sampleCfg S chunk) o 9 s.fs s.app 0 =
      finish s.fs s.app 0 c r ((updateDatabaseOnFile (sampleCfg S chunk) o c r).run ⟨s.fs, c.conn⟩) := by
    unfold commit
    rw [h.get]
    simp only [hr]
  obtain ⟨e1, _⟩ := finish_eq s.fs s.app 0 c r ((updateDatabaseOnFile (sampleCfg S chunk) o c r).run ⟨s.fs, c.conn⟩)
  have hold := (hc.holds.bounds h.reference)
  have hdir : s.fs.dir ((sampleCfg S chunk).path c.name) = some c.conn.ino := by rw [h.name]; exact h.linked
  rw [hcom, e1]
  generalize (updateDatabaseOnFile (sampleCfg S chunk) o c r).run ⟨s.fs, c.conn⟩ = x at *
  obtain ⟨out, w⟩ := x
  simp only at ht hp ⊢
  intro f hf
  unfold FS.file at hf
  cases hp with
  | old _ _ hs hd _ =>
    rcases hd with hd | ⟨hd, _⟩
    · rw [hd, hdir, Option.map_some, ht.ino _ hc.lt (fun p hp => hc.dst_ne hn hc.name p hp)] at hf
      injection hf with hf
      rw [← hf]; exact hold.2
    · rw [hdir] at hd; cases hd
  | gone _ _ x hs hd _ _ _ _ _ _ => rw [hd] at hf; cases hf
  | late _ _ j hs hd _ hx _ _ _ _ =>
    rw [hd, Option.map_some, (hx.2 ho hc.holds.bounds).2] at hf
    injection hf with hf
    rw [← hf]; exact hnew
  | new _ j hd _ hx _ _ _ _ _ =>
    rw [hd, Option.map_some, (hx.2 ho hc.holds.bounds).2] at hf
    injection hf with hf
    rw [← hf]; exact hnew

/-- The hypotheses of C31 hold for a commit that stops in the middle of writing the reference, or anywhere else outside the
operations whose errors are ignored. -/
example (S : Sha) (p : Pt) (k : Nat) : ∃ cfg u s c old, cfg.S = S ∧ Names cfg u ∧ u.lossless ∧ Reachable cfg u s ∧
    s.app.get 0 = some c ∧ CommitFits cfg u (oneFault p (.crash k)) 9 s.fs s.app 0 c ∧ s.fs.file (cfg.path c.name) = some old := by
  obtain ⟨s, c, h⟩ := sample_ready S 10 True
  refine ⟨_, _, s, c, s.fs.ino c.conn.ino, rfl, sampleNames S 10 True, trivial, h.reachable, h.get,
    sample_fits_any S 10 True h (by decide) (by decide) (by decide) _ ?_, ?_⟩
  · intro i j; unfold oneFault; refine ⟨?_, ?_, ?_, ?_, ?_⟩ <;> split <;> simp
  · unfold FS.file; rw [h.name]; rw [show s.fs.dir ((sampleCfg S 10).path ['a']) = _ from h.linked]; rfl

/-- C32 is false of the code: when the process stops between the removal of the old file and the renaming of the new one, there
is no file with the database's name, and opening the database fails. -/
theorem C32_crash_leaves_no_database (S : Sha) : ∃ cfg u s c, cfg.S = S ∧ Names cfg u ∧ u.lossless ∧ Reachable cfg u s ∧
    s.app.get 0 = some c ∧ s.fs.file (cfg.path c.name) ≠ none ∧
    CommitFits cfg u (oneFault .rename (.crash 0)) 9 s.fs s.app 0 c ∧
    exists' cfg (commit cfg (oneFault .rename (.crash 0)) 9 s.fs s.app 0).fs c.name = false ∧
    open' cfg (commit cfg (oneFault .rename (.crash 0)) 9 s.fs s.app 0).fs [] c.name = .err := by
  obtain ⟨s, c, h⟩ := sample_ready S 10 True
  have hn := sampleNames S 10 True
  obtain ⟨t, r, hr, hu, htouch, hfile, hne, hends, hdata, hlen⟩ := ready_facts h (by decide) (by decide)
  have hinv := h.reachable.inv hn
  have hc : CtxOK (sampleCfg S 10) (sampleUsage True) s.fs c := hinv.ctxs _ (get_mem h.get)
  have hw := writeDestination_calm (sampleCfg S 10) c r ⟨s.fs, c.conn⟩ h.isOpen hne hends
  rw [writeDestination_congr (o := calm) (o' := oneFault .rename (.crash 0)) (fun k => ⟨rfl, rfl, rfl⟩) (fun k => ⟨rfl, rfl⟩) rfl rfl] at hw
  have hd := rename_fault (sampleCfg S 10) (oneFault .rename (.crash 0)) c r s.fs hinv.good (hn.distinct hc.name) h.isOpen _ _
    ⟨rfl, rfl, rfl, rfl, rfl, rfl, rfl, rfl⟩ (by simp [oneFault]) (by rw [htouch]; exact hw)
  have hfs : (commit (sampleCfg S 10) (oneFault .rename (.crash 0)) 9 s.fs s.app 0).fs.dir ((sampleCfg S 10).path c.name) = none := by
    unfold commit
    rw [h.get]
    simp only [hr]
    rw [(finish_eq _ _ _ _ _ _).1]
    exact hd
  refine ⟨_, _, s, c, rfl, hn, trivial, h.reachable, h.get, by rw [hfile]; simp,
    sample_fits_any S 10 True h (by decide) (by decide) (by decide) _ ?_, ?_, ?_⟩
  · intro i j; simp [oneFault]
  · unfold exists'; rw [hfs]; rfl
  · unfold open' retrieveAt FS.file
    rw [hfs]
    rfl

/-- C32, what does hold: wherever a commit stops or fails other than at the renaming (and outside the ignored failures of C31),
the file with the database's name exists and is the complete old or the complete new content. Missing from the full claim: the
window between the removal of the old file and the renaming of the new one. -/
theorem C32_openable_outside_the_rename_partial (cfg : Cfg) (u : Usage) (hn : Names cfg u) (hl : u.lossless) (s : State)
    (hs : Reachable cfg u s) (id : Nat) (c : Ctx) (o : Pt → Fault) (now : Int) (hg : s.app.get id = some c)
    (hf : CommitFits cfg u o now s.fs s.app id c) (hr : o .rename = .none) (old : Bytes)
    (hold : s.fs.file (cfg.path c.name) = some old) :
    ∃ x, (commit cfg o now s.fs s.app id).fs.file (cfg.path c.name) = some x ∧ (x = old ∨ Complete cfg s c now x) := by
  rcases commit_leaves hn hl (hs.inv hn) hg hf hold with h | ⟨x, h1, h2, _⟩ | ⟨x, h1, h2, h3, h4, _⟩
  · exact ⟨old, h.1, .inl rfl⟩
  · exact ⟨x, h1, .inr h2⟩
  · exact absurd hr h4

/-! ### C33 -/

theorem second_commit {S : Sha} {s : State} {c : Ctx}
    (h : ReadyWith (sampleCfg S 10) (sampleUsage False) s c [contentX]) :
    ∃ (k k' : ContentKeys), contentKeys s.app 0 = .ok k ∧ k.list.length = 1 ∧
    (commit (sampleCfg S 10) calm 9 s.fs s.app 0).out = .ok () ∧
    contentKeys (commit (sampleCfg S 10) calm 9 s.fs s.app 0).app 0 = .ok k' ∧ k'.list.length = 2 := by
  obtain ⟨h1, _, t, r, j, hu, _, ha, _⟩ := h.commit (by decide) (by decide) (by decide)
  cases hr : c.reference with
  | none => exact absurd hr h.reference
  | some r0 =>
    have hk := congrArg List.length h.keys
    simp only [hr, oldKeys, List.length_map, List.length_cons, List.length_nil] at hk
    refine ⟨r0.contentKeys, r.contentKeys, ?_, hk, h1, ?_, ?_⟩
    · unfold contentKeys
      rw [h.get]
      simp only [hr]
    · unfold contentKeys
      rw [ha, get_set_self]
    · rw [hu.keys, hr, List.length_append]
      simp only [oldKeys, hk, h.pending, keysFrom, List.length_cons, List.length_nil]

/-- C33 is false of the code: after a successful commit, a second one without any `Write` in between succeeds and stores the
same content again. -/
theorem C33_second_commit_stores_again (S : Sha) : ∃ (cfg : Cfg) (u : Usage) (s s' : State) (k k' : ContentKeys), cfg.S = S ∧ Names cfg u ∧ Reachable cfg u s ∧
    (commit cfg calm 5 s.fs s.app 0).out = .ok () ∧
    s' = ⟨(commit cfg calm 5 s.fs s.app 0).fs, (commit cfg calm 5 s.fs s.app 0).app⟩ ∧
    contentKeys s'.app 0 = .ok k ∧ k.list.length = 1 ∧
    (commit cfg calm 9 s'.fs s'.app 0).out = .ok () ∧
    contentKeys (commit cfg calm 9 s'.fs s'.app 0).app 0 = .ok k' ∧ k'.list.length = 2 := by
  obtain ⟨c, h⟩ := sCommitted_ready S 10 False
  obtain ⟨k, k', h1⟩ := second_commit h
  exact ⟨sampleCfg S 10, _, sWritten, sCommitted S 10, k, k', rfl, sampleNames S 10 False,
    sWritten_reachable S 10 False, (sWritten_commit S 10 False).1, by unfold sCommitted; rfl, h1⟩

/-- C33, what does hold: when the pending contents were dropped by `Cancel` since the last commit, a commit changes no file and
no context, with any faults. Missing from the full claim: a second commit without `Cancel`. -/
theorem C33_commit_after_cancel_changes_nothing_partial (cfg : Cfg) (a a' : App) (id : Nat) (hc : cancel a id = .ok a')
    (o : Pt → Fault) (now : Int) (fs : FS) :
    (commit cfg o now fs a' id).fs = fs ∧ (commit cfg o now fs a' id).app = a' ∧ (commit cfg o now fs a' id).out ≠ .ok () := by
  obtain ⟨c, hg, rfl⟩ := cancel_ok hc
  rcases commit_cases cfg o now fs _ id _ (get_set_self _ _ _) with ⟨h1, h2, h3⟩ | ⟨r, hr, _⟩
  · refine ⟨h1, h2, ?_⟩
    unfold commit
    rw [get_set_self]
    simp only
    cases hu : updateReference cfg { c with contentList := [] } now with
    | ok r => exact absurd hu (h3 r)
    | err => simp
    | panic => simp
  · exact absurd rfl (updateReference_nonempty hr)

example : ∃ a a', cancel a 0 = .ok a' ∧ a.get 0 = some ctxX := ⟨sWritten.app, _, rfl, rfl⟩

/-! ### C34 -/

theorem updateReference_empty (cfg : Cfg) (c : Ctx) (now : Int) (h : c.contentList = []) (hr : ∀ r, c.reference = some r → RefOK cfg r) :
    updateReference cfg c now = .panic := by
  unfold updateReference
  rw [latestHash_ok cfg _ hr]
  simp only [Res.bind_ok]
  rw [h, List.map_nil, C04_empty_list_panics]
  rfl

/-- C34 is false of the code: `Commit` panics on every open context with nothing pending. -/
theorem C34_commit_with_nothing_pending_panics (cfg : Cfg) (u : Usage) (hn : Names cfg u) (s : State) (hs : Reachable cfg u s)
    (id : Nat) (c : Ctx) (hg : s.app.get id = some c) (h : c.contentList = []) (o : Pt → Fault) (now : Int) :
    (commit cfg o now s.fs s.app id).out = .panic := by
  have hc : CtxOK cfg u s.fs c := (hs.inv hn).ctxs _ (get_mem hg)
  unfold commit
  rw [hg]
  simp only [updateReference_empty cfg c now h hc.holds.ref]

example (S : Sha) : ∃ cfg u s c, cfg.S = S ∧ Names cfg u ∧ Reachable cfg u s ∧ s.app.get 0 = some c ∧ c.contentList = [] :=
  ⟨sampleCfg S 3, _, sOpen, _, rfl, sampleNames S 3 False, sOpen_reachable S 3 False, rfl, rfl⟩

/-- C34, what does hold: with at least one content pending and a handle that is still open, `Commit` never panics, whatever
fails and wherever. Missing from the full claim: nothing pending, and contexts whose handle an earlier failed commit closed. -/
theorem C34_commit_never_panics_partial (cfg : Cfg) (u : Usage) (hn : Names cfg u) (s : State) (hs : Reachable cfg u s)
    (id : Nat) (c : Ctx) (hg : s.app.get id = some c) (hne : c.contentList ≠ []) (hopen : c.conn.isOpen = true)
    (hdata : total (oldKeys c.reference) + (allData c.contentList).length < 2 ^ 63) (o : Pt → Fault) (now : Int) :
    (commit cfg o now s.fs s.app id).out ≠ .panic := by
  have hinv := hs.inv hn
  have hc : CtxOK cfg u s.fs c := hinv.ctxs _ (get_mem hg)
  obtain ⟨t, r, hr, _⟩ := updateReference_ok cfg c now hne hc.pending hc.holds.ref hdata
  have := updateDatabase_calmly cfg o c r s.fs hopen hc.lt hinv.good (hn.distinct hc.name)
    (hc.dst_ne hn hc.name _ (.inl rfl)) hc.holds.bounds
  unfold commit
  rw [hg]
  simp only [hr]
  generalize (updateDatabaseOnFile cfg o c r).run ⟨s.fs, c.conn⟩ = x at *
  obtain ⟨out, w⟩ := x
  cases out with
  | ok v => obtain ⟨conn, off⟩ := v; simp [finish]
  | err => simp [finish]
  | panic => exact absurd rfl this
  | crash => simp [finish]
  | hang => simp [finish]

example (S : Sha) : ∃ cfg u s c, cfg.S = S ∧ Names cfg u ∧ Reachable cfg u s ∧ s.app.get 0 = some c ∧ c.contentList ≠ [] ∧
    c.conn.isOpen = true ∧ c.reference ≠ none ∧ total (oldKeys c.reference) + (allData c.contentList).length < 2 ^ 63 := by
  obtain ⟨s, c, h⟩ := sample_ready S 10 True
  exact ⟨_, _, s, c, rfl, sampleNames S 10 True, h.reachable, h.get, by rw [h.pending]; simp, h.isOpen, h.reference,
    (h.commit (by decide) (by decide) (by decide)).2.1.data⟩

/-! ### C35 -/

/-- C35 is false of the code: after opening "a" and "b" and closing "a", opening "c" returns the identifier of "b", whose
context is lost. -/
theorem C35_open_reuses_an_identifier (S : Sha) : ∃ cfg u s c id a' c', cfg.S = S ∧ Names cfg u ∧ Reachable cfg u s ∧
    s.app.get id = some c ∧ open' cfg s.fs s.app ['c'] = .ok (id, a') ∧ a'.get id = some c' ∧ c.name = ['b'] ∧ c'.name = ['c'] := by
  have hn := sampleNames S 3 False
  obtain ⟨s0, h0, h⟩ := sTwo_reachable S 3 False
  refine ⟨sampleCfg S 3, sampleUsage False, ⟨((fs0.create ['a']).create ['b']).create ['c'], [(1, ⟨['b'], ⟨1, 0, true⟩, none, 0, []⟩)]⟩, _, 1,
    [(1, ⟨['c'], ⟨2, 0, true⟩, none, 0, []⟩)], _, rfl, hn, ⟨s0, h0, ?_⟩, rfl, rfl, rfl, rfl, rfl⟩
  exact .tail _ ⟨(fs0.create ['a']).create ['b'], [(1, ⟨['b'], ⟨1, 0, true⟩, none, 0, []⟩)]⟩ _
    (.tail _ _ _ h (.close sTwo 0 _ rfl))
    (.new ⟨(fs0.create ['a']).create ['b'], [(1, ⟨['b'], ⟨1, 0, true⟩, none, 0, []⟩)]⟩ ['c'] _ (by simp [sampleUsage]) rfl)

/-- Histories in which only the context opened last is closed: a context is closed only when its identifier is the highest. -/
inductive LastClosedFirst (cfg : Cfg) (u : Usage) : State → State → Prop
  | refl (s : State) : LastClosedFirst cfg u s s
  | tail (s t v : State) (h : LastClosedFirst cfg u s t) (hs : Step cfg u t v)
      (hc : ∀ id a', close t.app id = .ok a' → v.app = a' → v.app.length < t.app.length → ∀ e ∈ t.app, e.1 ≤ id) :
      LastClosedFirst cfg u s v

/-- The identifiers in use are exactly the first ones. -/
def Dense (a : App) : Prop := (a.map (·.1)).Perm (List.range a.length)

theorem dense_fresh {a : App} (h : Dense a) : a.get a.length = none := by
  cases hg : a.get a.length with
  | none => rfl
  | some c =>
    have h1 : a.length ∈ a.map (·.1) := List.mem_map.mpr ⟨_, get_mem hg, rfl⟩
    rw [h.mem_iff] at h1
    simp at h1

theorem dense_set {a : App} (h : Dense a) {id : Nat} {c : Ctx} (hg : a.get id = some c) (c' : Ctx) :
    Dense (a.set id c') ∧ (a.set id c').length = a.length := by
  have hnd : (a.map (·.1)).Nodup := h.nodup_iff.mpr List.nodup_range
  have hmem := get_mem hg
  have key : ∀ b : App, (b.map (·.1)).Nodup → (id, c) ∈ b →
      (((id, c') :: b.filter (fun e => !(e.1 == id))).map (·.1)).Perm (b.map (·.1)) := by
    intro b
    induction b with
    | nil => intro _ hm; cases hm
    | cons e es ih =>
      intro hnd hm
      simp only [List.map_cons, List.nodup_cons] at hnd
      rcases List.mem_cons.mp hm with rfl | hm
      · have : es.filter (fun e => !(e.1 == id)) = es := by
          rw [List.filter_eq_self]
          intro x hx
          simp only [Bool.not_eq_true', beq_eq_false_iff_ne]
          rintro rfl
          exact hnd.1 (List.mem_map.mpr ⟨x, hx, rfl⟩)
        simp [this]
      · have hne : e.1 ≠ id := by
          rintro rfl
          exact hnd.1 (List.mem_map.mpr ⟨_, hm, rfl⟩)
        rw [List.filter_cons_of_pos (by simp [hne])]
        have := ih hnd.2 hm
        simp only [List.map_cons] at this ⊢
        exact (List.Perm.swap _ _ _).trans (this.cons _)
  have hp := key a hnd hmem
  have hl : (a.set id c').length = a.length := by
    have := hp.length_eq
    simpa [App.set] using this
  refine ⟨?_, hl⟩
  unfold Dense
  rw [hl]
  exact hp.trans h

theorem dense_delete_last {a : App} (h : Dense a) {id : Nat} {c : Ctx} (hg : a.get id = some c) (hlast : ∀ e ∈ a, e.1 ≤ id) :
    Dense (a.delete id) := by
  have hp := (dense_set h hg c).1
  have hl := (dense_set h hg c).2
  have e : a.set id c = (id, c) :: a.delete id := rfl
  rw [e] at hp hl
  unfold Dense at hp
  simp only [List.map_cons, List.length_cons] at hp hl
  have hid : id = (a.delete id).length := by
    have h1 : id ∈ List.range ((a.delete id).length + 1) := hp.mem_iff.mp (by simp)
    have h2 : (a.delete id).length ∈ id :: (a.delete id).map (·.1) := hp.mem_iff.mpr (by simp)
    have h3 : (a.delete id).length ≤ id := by
      rcases List.mem_cons.mp h2 with h2 | h2
      · omega
      · obtain ⟨x, hx, he⟩ := List.mem_map.mp h2
        rw [← he]; exact hlast x (mem_delete hx)
    simp at h1
    omega
  unfold Dense
  rw [List.range_succ] at hp
  have hp2 := hp.trans (List.perm_append_comm)
  simp only [List.singleton_append] at hp2
  rw [← hid] at hp2 ⊢
  exact (List.perm_cons id).mp hp2

theorem commit_dense {cfg : Cfg} {o : Pt → Fault} {now : Int} {fs : FS} {a : App} {id : Nat} {c : Ctx} (hg : a.get id = some c)
    (h : Dense a) : Dense (commit cfg o now fs a id).app := by
  rcases commit_cases cfg o now fs a id c hg with ⟨_, h2, _⟩ | ⟨r, _, he⟩
  · rw [h2]; exact h
  · rw [he, (finish_eq _ _ _ _ _ _).2]
    exact (dense_set h hg _).1

/-- C35, what does hold: as long as only the most recently opened context is ever closed, `Open` returns an identifier no open
context has. Missing from the full claim: closing contexts in any other order. -/
theorem C35_open_is_fresh_partial (cfg : Cfg) (u : Usage) (s0 s : State) (h0 : s0.app = []) (hs : LastClosedFirst cfg u s0 s)
    (n : Name) (id : Nat) (a' : App) (ho : open' cfg s.fs s.app n = .ok (id, a')) :
    s.app.get id = none ∧ ∀ id' c, s.app.get id' = some c → a'.get id' = some c := by
  have hd : Dense s.app := by
    clear ho
    induction hs with
    | refl => rw [h0]; exact List.Perm.refl _
    | tail t v _ hst hc ih =>
      cases hst with
      | new n fs' hu he => exact ih
      | delete n fs' hu ht he => exact ih
      | open' n id a' hu he =>
        unfold open' at he
        split at he
        · cases he
        obtain ⟨r, _, he⟩ := Res.bind_eq_ok.mp he
        simp only [Res.pure_eq, Res.ok.injEq, Prod.mk.injEq] at he
        obtain ⟨rfl, rfl⟩ := he
        have hf : t.app.filter (fun e => !(e.1 == t.app.length)) = t.app := by
          rw [List.filter_eq_self]
          intro x hx
          simp only [Bool.not_eq_true', beq_eq_false_iff_ne]
          intro hxe
          have : t.app.length ∈ t.app.map (·.1) := List.mem_map.mpr ⟨x, hx, hxe⟩
          rw [ih.mem_iff] at this
          simp at this
        unfold Dense App.set
        simp only [hf, List.map_cons, List.length_cons, List.range_succ]
        exact (ih.cons _).trans (List.perm_append_comm (l₁ := [t.app.length]))
      | close id a' he =>
        have he' := he
        unfold close at he
        cases hg : t.app.get id with
        | none => rw [hg] at he; cases he
        | some c =>
          simp only [hg] at he
          split at he
          case isFalse => cases he
          injection he with he
          subst he
          have hlen := (dense_set ih hg c).2
          exact dense_delete_last ih hg (hc id _ he' rfl (by
            have e : (t.app.set id c).length = (t.app.delete id).length + 1 := rfl
            show (t.app.delete id).length < t.app.length
            omega))
      | write id hash data kind a' hh hk he =>
        obtain ⟨c, x, hg, rfl⟩ := write_ok he
        exact (dense_set ih hg _).1
      | cancel id a' he =>
        obtain ⟨c, hg, rfl⟩ := cancel_ok he
        exact (dense_set ih hg _).1
      | commit id c o now hg hf => exact commit_dense hg ih
      | restart => exact List.Perm.refl _
  unfold open' at ho
  split at ho
  · cases ho
  obtain ⟨r, _, ho⟩ := Res.bind_eq_ok.mp ho
  simp only [Res.pure_eq, Res.ok.injEq, Prod.mk.injEq] at ho
  obtain ⟨rfl, rfl⟩ := ho
  refine ⟨dense_fresh hd, ?_⟩
  intro id' c hg
  rw [get_set_ne _ _ ?_, hg]
  rintro rfl
  rw [dense_fresh hd] at hg
  cases hg

/-- The hypotheses hold after opening "a" and "b" and closing "b". -/
example (S : Sha) : ∃ cfg u s0 s id a', cfg.S = S ∧ s0.app = [] ∧ LastClosedFirst cfg u s0 s ∧ s.app ≠ [] ∧
    open' cfg s.fs s.app ['b'] = .ok (id, a') := by
  refine ⟨sampleCfg S 3, sampleUsage False, ⟨fs0, []⟩, ⟨(fs0.create ['a']).create ['b'], [(0, ⟨['a'], ⟨0, 0, true⟩, none, 0, []⟩)]⟩, 1, _, rfl,
    rfl, ?_, by simp, rfl⟩
  refine .tail _ ⟨(fs0.create ['a']).create ['b'],
    [(1, ⟨['b'], ⟨1, 0, true⟩, none, 0, []⟩), (0, ⟨['a'], ⟨0, 0, true⟩, none, 0, []⟩)]⟩ _ ?_ (.close _ 1 _ rfl) ?_
  · refine .tail _ ⟨(fs0.create ['a']).create ['b'], [(0, ⟨['a'], ⟨0, 0, true⟩, none, 0, []⟩)]⟩ _ ?_
      (.open' ⟨(fs0.create ['a']).create ['b'], [(0, ⟨['a'], ⟨0, 0, true⟩, none, 0, []⟩)]⟩ ['b'] 1 _ (by simp [sampleUsage]) rfl) ?_
    · refine .tail _ sOpen _ ?_ (.new sOpen ['b'] _ (by simp [sampleUsage]) rfl) ?_
      · refine .tail _ ⟨fs0.create ['a'], []⟩ _ ?_ (.open' ⟨fs0.create ['a'], []⟩ ['a'] 0 _ (by simp [sampleUsage]) rfl) ?_
        · refine .tail _ ⟨fs0, []⟩ _ (.refl _) (.new _ ['a'] _ (by simp [sampleUsage]) rfl) ?_
          simp
        · simp
      · simp [sOpen]
    · simp
  · intro id a' h1 h2 _ e he
    simp only [List.mem_cons, List.not_mem_nil, or_false] at he
    rcases he with rfl | rfl
    · by_contra hlt
      have : id = 0 := by omega
      subst this
      simp only at h2
      subst h2
      revert h1
      simp [close, App.get, App.delete]
    · simp

/-! ### C36 -/

/-- C36: `Exists` is true exactly for names with a file; `New` fails on an existing name and otherwise makes an empty file under
that name and changes no other file; `Delete` fails on a missing name and otherwise makes `Exists` false and changes no other
file. -/
theorem C36_new_delete_exists (cfg : Cfg) (fs : FS) (hg : FsGood fs) (n : Name) :
    (exists' cfg fs n = true ↔ ∃ f, fs.file (cfg.path n) = some f) ∧
    (exists' cfg fs n = true → new' cfg fs n = .err ∧
      ∃ fs', delete' cfg fs n = .ok fs' ∧ exists' cfg fs' n = false ∧ ∀ p, p ≠ cfg.path n → fs'.file p = fs.file p) ∧
    (exists' cfg fs n = false → delete' cfg fs n = .err ∧
      ∃ fs', new' cfg fs n = .ok fs' ∧ fs'.file (cfg.path n) = some [] ∧ ∀ p, p ≠ cfg.path n → fs'.file p = fs.file p) := by
  unfold exists' new' delete'
  cases hd : fs.dir (cfg.path n) with
  | none =>
    simp only [Option.isSome_none, Bool.false_eq_true, if_false, false_imp_iff, true_and, forall_const, FS.file, hd,
      Option.map_none, reduceCtorEq, exists_false]
    refine ⟨_, rfl, ?_, ?_⟩
    · rw [create_dir_self, Option.map_some, create_ino_self]
    · intro p hp
      rw [create_dir_ne _ hp]
      cases hq : fs.dir p with
      | none => rfl
      | some i =>
        have := hg.1 _ _ hq
        simp only [Option.map_some, Option.some.injEq]
        exact create_ino_ne _ (by simp [FS.createIno, hd]; omega)
  | some i =>
    simp only [Option.isSome_some, if_true, FS.file, hd, Option.map_some, Option.some.injEq, exists_eq', true_and,
      Bool.true_eq_false, false_imp_iff, and_true, forall_const]
    refine ⟨_, rfl, by simp [FS.remove, upd], ?_⟩
    intro p hp
    simp [FS.remove, upd, hp]

/-- A database just created opens, and has nothing to list. -/
theorem C36_new_database_is_empty (cfg : Cfg) (fs fs' : FS) (n : Name) (h : new' cfg fs n = .ok fs') (a : App)
    (ha : ∀ e ∈ a, e.2.name ≠ n) :
    ∃ id a', open' cfg fs' a n = .ok (id, a') ∧ contentKeys a' id = .err ∧ commits a' id = .err := by
  unfold new' at h
  split at h
  · cases h
  injection h with h
  subst h
  have hany : a.any (fun e => e.2.name == n) = false := by
    rw [List.any_eq_false]; intro e he; simpa using ha e he
  refine ⟨a.length, a.set a.length ⟨n, ⟨fs.createIno (cfg.path n), 0, true⟩, none, 0, []⟩, ?_, ?_, ?_⟩
  · unfold open' retrieveAt FS.file
    rw [create_dir_self, Option.map_some, create_ino_self]
    simp only [hany, retrieveReference_nil]
    rfl
  · unfold contentKeys; rw [get_set_self]
  · unfold commits; rw [get_set_self]

example : FsGood sTwo.fs ∧ exists' (sampleCfg toySha 3) sTwo.fs ['a'] = true ∧ exists' (sampleCfg toySha 3) sTwo.fs ['c'] = false :=
  ⟨((sTwo_reachable toySha 3 False).inv (sampleNames toySha 3 False)).good, rfl, rfl⟩

end Props
end Rodkina
