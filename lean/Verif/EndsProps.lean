import Verif.DatabaseProps5
/-! Property theorems for the file database, C141: commits that never end. -/

namespace Rodkina
namespace DB

open Ref

/-- The outcome is not an endless loop. -/
def Ends {α : Type} (x : Out α × World) : Prop := x.1 ≠ .hang

theorem ends_bind {α β : Type} {x : M α} {f : α → M β} {w : World} (hx : Ends (x.run w))
    (hf : ∀ a w1, x.run w = (.ok a, w1) → Ends ((f a).run w1)) : Ends ((x >>= f).run w) := by
  unfold Ends at *
  rw [bind_def]
  rcases h : x.run w with ⟨out, w1⟩
  rw [h] at hx
  cases out with
  | ok a => exact hf a w1 h
  | hang => exact absurd rfl hx
  | _ => simp

theorem attempt_ends (f : Fault) (full : World → World) (part : Nat → World → World) (w : World) :
    Ends ((attempt f full part).run w) := by
  cases f <;> simp [Ends, attempt]

theorem swallow_ends {x : M Unit} {w : World} (h : Ends (x.run w)) : Ends ((swallow x).run w) := by
  unfold Ends swallow at *
  simp only
  rcases hx : x.run w with ⟨out, w1⟩
  rw [hx] at h
  cases out <;> simp_all

theorem save_ends (f g : Fault) (i off : Nat) (bs : Bytes) (w : World) : Ends ((saveDataOnDisk f g i off bs).run w) := by
  unfold saveDataOnDisk
  exact ends_bind (attempt_ends _ _ _ _) (fun _ _ _ => attempt_ends _ _ _ _)

theorem copyRead_ends (f : Fault) (chunk off : Nat) (w : World) : Ends ((copyRead f chunk off).run w) := by
  unfold Ends copyRead
  cases f with
  | none =>
    simp only
    cases hr : connRead w.fs w.conn chunk off <;> simp
  | fail k => simp
  | crash k => simp

theorem copyRead_some {f : Fault} {chunk off : Nat} {w w' : World} {b : Bytes} (hc : 0 < chunk)
    (h : (copyRead f chunk off).run w = (.ok (some b), w')) : off + chunk ≤ (w.fs.ino w.conn.ino).length ∧ w' = w := by
  unfold copyRead at h
  cases f with
  | none =>
    simp only at h
    cases hr : connRead w.fs w.conn chunk off with
    | ok x =>
      rw [hr] at h
      simp only [Prod.mk.injEq] at h
      refine ⟨?_, h.2.symm⟩
      unfold connRead readAt at hr
      split at hr
      · cases hr
      split at hr
      · cases hr
      split at hr
      · cases hr
      split at hr
      · omega
      split at hr
      · assumption
      · cases hr
    | err => rw [hr] at h; simp at h
    | panic => rw [hr] at h; simp at h
  | fail k => simp at h
  | crash k => simp at h

theorem swallow_save {f g : Fault} {i off : Nat} {bs : Bytes} {w w' : World}
    (h : (swallow (saveDataOnDisk f g i off bs)).run w = (.ok true, w')) : w' = { w with fs := w.fs.write i off bs } := by
  unfold swallow saveDataOnDisk atomic attempt writeOp attempt at h
  cases f with
  | none =>
    cases g with
    | none =>
      simp [bind_def] at h
      exact h.symm
    | _ => simp [bind_def] at h
  | _ => simp [bind_def] at h

theorem copyLoop_ends (o : Pt → Fault) (chunk i : Nat) (hc : 0 < chunk) : ∀ (fuel k ro wo : Nat) (w : World), w.conn.ino ≠ i →
    0 < fuel → (w.fs.ino w.conn.ino).length < ro + fuel * chunk → Ends ((copyLoop o chunk i fuel k ro wo).run w)
  | 0, _, _, _, _, _, h, _ => absurd h (by omega)
  | n + 1, k, ro, wo, w, hi, _, hl => by
    unfold copyLoop
    refine ends_bind (copyRead_ends _ _ _ _) ?_
    intro r w1 hr
    unfold copyStep
    cases r with
    | none => simp [Ends]
    | some b =>
      obtain ⟨hle, rfl⟩ := copyRead_some hc hr
      refine ends_bind (swallow_ends (save_ends _ _ _ _ _ _)) ?_
      intro go w2 hg
      cases go with
      | false => simp [Ends]
      | true =>
        have e := swallow_save hg
        have hino : w2.fs.ino w2.conn.ino = w1.fs.ino w1.conn.ino := by
          rw [e]
          exact upd_ne _ _ hi
        rw [Nat.succ_mul] at hl
        refine copyLoop_ends o chunk i hc n _ _ _ w2 (by rw [e]; exact hi) ?_ (by rw [hino]; omega)
        rcases Nat.eq_zero_or_pos n with rfl | h
        · omega
        · exact h

theorem writeContents_ends (o : Pt → Fault) (i k wo : Nat) (L : List Content) (w : World) :
    Ends ((writeContents o i k wo L).run w) := by
  induction L generalizing k wo w with
  | nil => simp [writeContents, Ends]
  | cons x xs ih =>
    unfold writeContents
    apply ends_bind (swallow_ends (save_ends _ _ _ _ _ _))
    intro go w2 _
    cases go
    · simp [Ends]
    · exact ih _ _ w2

theorem removeOp_ends (f : Fault) (p : Name) (w : World) : Ends ((removeOp f p).run w) := by
  unfold removeOp
  dsimp only
  split
  · exact attempt_ends _ _ _ _
  · simp [Ends]

theorem swap_ends (cfg : Cfg) (o : Pt → Fault) (n : Name) (w : World) : Ends ((swap cfg o n).run w) := by
  unfold swap
  apply ends_bind
  · unfold closeConn
    dsimp only
    split
    · simp [Ends]
    · exact attempt_ends _ _ _ _
  intro _ _ _
  apply ends_bind (removeOp_ends _ _ _)
  intro _ _ _
  apply ends_bind
  · unfold renameOp
    dsimp only
    split
    · exact attempt_ends _ _ _ _
    · simp [Ends]
  intro _ _ _
  apply ends_bind (removeOp_ends _ _ _)
  intro _ w1 _
  unfold openOp
  dsimp only
  split
  · exact ends_bind (attempt_ends _ _ _ _) (fun _ _ _ => by simp [Ends])
  · simp [Ends]

theorem updateDatabase_ends (cfg : Cfg) (o : Pt → Fault) (c : Ctx) (r : Reference) (fs : FS) (hlt : c.conn.ino < fs.next)
    (hd : cfg.Distinct c.name) (hdst : fs.dir (cfg.dst c.name) ≠ some c.conn.ino)
    (hoff : c.reference ≠ none → 0 < cfg.readChunkSize ∧ c.dataOffset < (fs.ino c.conn.ino).length ∧ (fs.ino c.conn.ino).length < 2 ^ 63) :
    Ends ((updateDatabaseOnFile cfg o c r).run ⟨fs, c.conn⟩) := by
  obtain ⟨d1, d2, d3⟩ := hd
  unfold updateDatabaseOnFile
  apply ends_bind (attempt_ends _ _ _ _)
  intro _ w1 h1
  have h1 := (atomic_ok h1).2
  subst h1
  simp only
  apply ends_bind
  · unfold writeDestination
    apply ends_bind (by simp [Ends, inoOf])
    intro i w2 h2
    injection h2 with h2a h2b
    injection h2a with h2a
    subst h2a h2b
    apply ends_bind (attempt_ends _ _ _ _)
    intro _ w3 h3
    have h3 := (atomic_ok h3).2
    subst h3
    apply ends_bind (attempt_ends _ _ _ _)
    intro _ w4 h4
    have h4 := (writeOp_ok h4).2
    have hne : c.conn.ino ≠ (fs.touch (cfg.path c.name)).createIno (cfg.dst c.name) :=
      createIno_lt_of_dir (Nat.lt_of_lt_of_le hlt (touch_next _ _)) (by rw [touch_dir_ne _ (Ne.symm d1)]; exact hdst)
    have hsrc : w4.fs.ino w4.conn.ino = fs.ino c.conn.ino := by
      rw [h4]
      simp only [FS.write]
      rw [upd_ne _ _ hne, create_ino_ne _ hne, touch_ino_lt _ _ hlt]
    have hc4 : w4.conn = c.conn := by rw [h4]
    apply ends_bind
    · unfold copyOld
      cases hr : c.reference with
      | none => simp [Ends]
      | some r0 =>
        obtain ⟨hpos, hle, hsz⟩ := hoff (by rw [hr]; simp)
        refine ends_bind ?_ ?_
        · unfold statSize Ends
          dsimp only
          split <;> simp
        · intro size w5 h5
          have h5' : size = (fs.ino c.conn.ino).length ∧ w5 = w4 := by
            unfold statSize at h5
            dsimp only at h5
            split at h5
            · simp only [Prod.mk.injEq, Out.ok.injEq] at h5
              exact ⟨by rw [← h5.1, hsrc], h5.2.symm⟩
            · simp at h5
          obtain ⟨rfl, rfl⟩ := h5'
          have hcp := makeChunkSize_pos cfg (n := (fs.ino c.conn.ino).length - c.dataOffset) hpos (by omega)
          rw [copyFrom, sub64_eq (by omega) hsz]
          have hfuel : copyFuel (makeChunkSize cfg ((fs.ino c.conn.ino).length - c.dataOffset)) (fs.ino c.conn.ino).length =
              (fs.ino c.conn.ino).length + 1 := by
            unfold copyFuel; rw [if_neg (by omega)]
          rw [hfuel]
          refine copyLoop_ends _ _ _ hcp _ _ _ _ _ (by rw [hc4]; exact hne) (by omega) ?_
          rw [hsrc]
          have := Nat.le_mul_of_pos_right ((fs.ino c.conn.ino).length + 1) hcp
          omega
    intro _ w5 _
    apply ends_bind (writeContents_ends _ _ _ _ _ _)
    intro _ _ _
    simp [Ends]
  intro _ w2 _
  apply ends_bind
  · unfold backup
    apply ends_bind (by simp [Ends, inoOf])
    intro _ _ _
    apply ends_bind (attempt_ends _ _ _ _)
    intro _ w3 _
    apply ends_bind
    · unfold copyBackup
      dsimp only
      split
      · simp [Ends]
      · exact attempt_ends _ _ _ _
    intro _ _ _
    exact attempt_ends _ _ _ _
  intro _ _ _
  apply ends_bind (swap_ends _ _ _ _)
  intro _ _ _
  simp [Ends]

/-- When nothing is left to copy, or the chunk size is zero, the copy reads nothing for ever. -/
theorem updateDatabase_hangs (cfg : Cfg) (c : Ctx) (r : Reference) (fs : FS) (hopen : c.conn.isOpen = true) (hlt : c.conn.ino < fs.next)
    (hd : cfg.Distinct c.name) (hdst : fs.dir (cfg.dst c.name) ≠ some c.conn.ino) (hr : c.reference ≠ none)
    (hle : c.dataOffset ≤ (fs.ino c.conn.ino).length) (hsz : (fs.ino c.conn.ino).length < 2 ^ 63)
    (h0 : makeChunkSize cfg ((fs.ino c.conn.ino).length - c.dataOffset) = 0) :
    ((updateDatabaseOnFile cfg calm c r).run ⟨fs, c.conn⟩).1 = .hang := by
  obtain ⟨d1, d2, d3⟩ := hd
  have hne : c.conn.ino ≠ (fs.touch (cfg.path c.name)).createIno (cfg.dst c.name) :=
    createIno_lt_of_dir (Nat.lt_of_lt_of_le hlt (touch_next _ _)) (by rw [touch_dir_ne _ (Ne.symm d1)]; exact hdst)
  obtain ⟨r0, hr0⟩ := Option.ne_none_iff_exists'.mp hr
  have hw : ∃ w', (writeDestination cfg calm c r).run ⟨fs.touch (cfg.path c.name), c.conn⟩ = (.hang, w') := by
    unfold writeDestination
    rw [bind_ok_eq (inoOf_run _ _)]
    rw [bind_ok_eq (x := createOp (calm .createDst) (cfg.dst c.name)) (createOp_none _ _)]
    rw [bind_ok_eq (x := writeOp (calm .writeRef) _ 0 (refData r)) (writeOp_none _ _ _ _)]
    have hc : ∀ i wo w, w.conn.isOpen = true → (w.fs.ino w.conn.ino) = fs.ino c.conn.ino → (copyOld cfg calm c i wo).run w = (.hang, w) := by
      intro i wo w hop hino
      unfold copyOld
      rw [hr0]
      have hs : statSize.run w = (.ok (fs.ino c.conn.ino).length, w) := by simp [statSize, hop, hino]
      dsimp only
      rw [bind_ok_eq hs, copyFrom, sub64_eq hle hsz, h0]
      rfl
    rw [bind_def, hc _ _ _ hopen ?_]
    · exact ⟨_, rfl⟩
    · simp only [FS.write]
      rw [upd_ne _ _ hne, create_ino_ne _ hne, touch_ino_lt _ _ hlt]
  obtain ⟨w', hw⟩ := hw
  unfold updateDatabaseOnFile
  rw [bind_ok_eq (x := atomic (calm .tryLock) _) (w' := ⟨fs.touch (cfg.path c.name), c.conn⟩) rfl, bind_def, hw]

end DB

namespace Props
open Ref DB

/-- C141, what does hold: whatever happened before and whatever fails, a commit comes to an end when the chunk size is positive and
there is something behind the reference in the file of a database that has been committed to, which is always so if every commit
stores what it reports to have stored (missing from the full claim: databases without data behind their reference, a chunk size of
zero). -/
theorem C141_ends_partial (cfg : Cfg) (u : Usage) (hn : Names cfg u) (hchunk : 0 < cfg.readChunkSize) (s : State) (hs : Reachable cfg u s)
    (id : Nat) (o : Pt → Fault) (now : Int) :
    (u.lossless → (commit cfg o now s.fs s.app id).out ≠ .hang) ∧
    ((∀ c, s.app.get id = some c → c.reference ≠ none → dataOf s.fs c ≠ []) → (commit cfg o now s.fs s.app id).out ≠ .hang) := by
  have hinv := hs.inv hn
  have key : (∀ c, s.app.get id = some c → c.reference ≠ none → dataOf s.fs c ≠ []) → (commit cfg o now s.fs s.app id).out ≠ .hang := by
    intro hd
    unfold commit
    cases hg : s.app.get id with
    | none => simp
    | some c =>
      have hc : CtxOK cfg u s.fs c := hinv.ctxs _ (get_mem hg)
      dsimp only
      cases hr : updateReference cfg c now with
      | err => simp
      | panic => simp
      | ok r =>
        dsimp only
        have := updateDatabase_ends cfg o c r s.fs hc.lt (hn.distinct hc.name) (hc.dst_ne hn hc.name _ (.inl rfl)) (fun hcr => by
          have hb := hc.holds.bounds hcr
          have h1 := hd c hg hcr
          unfold dataOf at h1
          rw [ne_eq, List.drop_eq_nil_iff] at h1
          exact ⟨hchunk, by omega, hb.2⟩)
        unfold Ends at this
        generalize (updateDatabaseOnFile cfg o c r).run ⟨s.fs, c.conn⟩ = x at *
        obtain ⟨out, w⟩ := x
        cases out with
        | ok v => obtain ⟨conn, off⟩ := v; simp [finish]
        | hang => exact absurd rfl this
        | _ => simp [finish]
  refine ⟨fun hl => key ?_, key⟩
  intro c hg hcr
  have hc : CtxOK cfg u s.fs c := hinv.ctxs _ (get_mem hg)
  have hh := hc.holds
  obtain ⟨r0, hr0⟩ := Option.ne_none_iff_exists'.mp hcr
  rw [hr0] at hh
  obtain ⟨h1, h2, h3, d, hd, h4⟩ := hh
  have := total_pos h1.wf.keys (contentKeysNow_ok h1.wf.keysBuilt).1
  unfold dataOf
  rw [hd, h2, List.drop_left]
  intro e
  have h4 := h4 hl
  rw [e] at h4
  simp at h4
  omega

/-- A database with stored data and a pending content. -/
example (S : Sha) : ∃ cfg u s c, cfg.S = S ∧ Names cfg u ∧ 0 < cfg.readChunkSize ∧ u.lossless ∧ Reachable cfg u s ∧ s.app.get 0 = some c ∧
    c.reference ≠ none ∧ dataOf s.fs c ≠ [] ∧ c.contentList ≠ [] := by
  obtain ⟨s, c, h⟩ := sample_ready S 10 True
  exact ⟨_, _, s, c, rfl, sampleNames S 10 True, by simp [sampleCfg], trivial, h.reachable, h.get, h.reference, by rw [h.data]; simp,
    by rw [h.pending]; simp⟩

/-- C141, exactly: when nothing fails, a commit of pending contents never ends if and only if the database has been committed to
before, and its file holds nothing behind its reference or the chunk size is zero. -/
theorem C141_exact_partial (cfg : Cfg) (u : Usage) (hn : Names cfg u) (s : State) (hs : Reachable cfg u s)
    (id : Nat) (c : Ctx) (hg : s.app.get id = some c) (hne : c.contentList ≠ []) (hopen : c.conn.isOpen = true)
    (hdata : total (oldKeys c.reference) + (allData c.contentList).length < 2 ^ 63) (now : Int) :
    (commit cfg calm now s.fs s.app id).out = .hang ↔ c.reference ≠ none ∧ (dataOf s.fs c = [] ∨ cfg.readChunkSize = 0) := by
  have hinv := hs.inv hn
  have hc : CtxOK cfg u s.fs c := hinv.ctxs _ (get_mem hg)
  obtain ⟨t, r, hr, _⟩ := updateReference_ok cfg c now hne hc.pending hc.holds.ref hdata
  constructor
  · intro h
    by_cases hcr : c.reference = none
    · exfalso
      have := updateDatabase_ends cfg calm c r s.fs hc.lt (hn.distinct hc.name) (hc.dst_ne hn hc.name _ (.inl rfl))
        (fun h => absurd hcr h)
      unfold commit at h
      rw [hg] at h
      simp only [hr] at h
      unfold Ends at this
      generalize (updateDatabaseOnFile cfg calm c r).run ⟨s.fs, c.conn⟩ = x at *
      obtain ⟨out, w⟩ := x
      cases out with
      | ok v => obtain ⟨conn, off⟩ := v; simp [finish] at h
      | hang => exact absurd rfl this
      | _ => simp [finish] at h
    · refine ⟨hcr, ?_⟩
      by_contra hno
      rw [not_or] at hno
      refine (C141_ends_partial cfg u hn (by omega) s hs id calm now).2 ?_ h
      intro c' hg' _
      rw [hg] at hg'
      cases hg'
      exact hno.1
  · rintro ⟨hcr, h⟩
    have hb := hc.holds.bounds hcr
    have hz : makeChunkSize cfg ((s.fs.ino c.conn.ino).length - c.dataOffset) = 0 := by
      rcases h with h | h
      · unfold dataOf at h
        rw [List.drop_eq_nil_iff] at h
        have := makeChunkSize_le cfg ((s.fs.ino c.conn.ino).length - c.dataOffset)
        omega
      · unfold makeChunkSize
        split <;> omega
    have := updateDatabase_hangs cfg c r s.fs hopen hc.lt (hn.distinct hc.name) (hc.dst_ne hn hc.name _ (.inl rfl)) hcr hb.1 hb.2 hz
    unfold commit
    rw [hg]
    simp only [hr]
    generalize (updateDatabaseOnFile cfg calm c r).run ⟨s.fs, c.conn⟩ = x at *
    obtain ⟨out, w⟩ := x
    simp only at this
    subst this
    rfl

/-- Both sides occur: a database with stored data whose chunk size is positive, and one whose chunk size is zero. -/
example (S : Sha) (chunk : Nat) : ∃ cfg u s c, cfg.S = S ∧ cfg.readChunkSize = chunk ∧ Names cfg u ∧ Reachable cfg u s ∧
    s.app.get 0 = some c ∧ c.contentList ≠ [] ∧ c.conn.isOpen = true ∧ c.reference ≠ none ∧ dataOf s.fs c ≠ [] ∧
    total (oldKeys c.reference) + (allData c.contentList).length < 2 ^ 63 := by
  obtain ⟨s, c, h⟩ := sample_ready S chunk False
  obtain ⟨k0, hk0, e0⟩ := List.map_eq_singleton_iff.mp h.keys
  simp at e0
  refine ⟨_, _, s, c, rfl, rfl, sampleNames S chunk False, h.reachable, h.get, by rw [h.pending]; simp, h.isOpen, h.reference,
    by rw [h.data]; simp, ?_⟩
  rw [hk0, h.pending]
  simp [total, e0.2.2.2, allData, contentY]

/-- **C141 is false**: the first commit to a database reports success although writing its only content failed; the next commit of the
same application never ends, although nothing fails any more. -/
theorem C141_negation (S : Sha) : ∃ (cfg : Cfg) (u : Usage) (s : State) (c : Ctx) (C : Committed),
    cfg.S = S ∧ 0 < cfg.readChunkSize ∧ Names cfg u ∧ Reachable cfg u s ∧ s.app.get 0 = some c ∧ c.contentList ≠ [] ∧
    C = commit cfg (oneFault (.dataWrite 0) (.fail 0)) 5 s.fs s.app 0 ∧ C.out = .ok () ∧ Reachable cfg u ⟨C.fs, C.app⟩ ∧
    ∀ now, (commit cfg calm now C.fs C.app 0).out = .hang := by
  have hn := sampleNames S 10 False
  have hs := sWritten_reachable S 10 False
  have hinv := hs.inv hn
  obtain ⟨_, hfits, t, r, j, hu, hsmall, _, _, _, hr, hsize⟩ := sWritten_commit S 10 False
  have hg : sWritten.app.get 0 = some ctxX := rfl
  have hc : CtxOK (sampleCfg S 10) (sampleUsage False) sWritten.fs ctxX := hinv.ctxs _ (get_mem hg)
  have ho : OnlyInLoops (oneFault (.dataWrite 0) (.fail 0)) := by
    refine ⟨⟨rfl, rfl, rfl, rfl, rfl, rfl, rfl, rfl⟩, rfl, rfl, rfl, ?_, ?_, ?_, ?_, ?_⟩ <;>
      · intro k j
        unfold oneFault
        split <;> simp
  obtain ⟨hok, r', copied, hr', hcop, _, hfile⟩ := C66_torn_content (sampleCfg S 10) (sampleUsage False) hn sWritten hs 0 ctxX 5 hg rfl
    [] contentX [] rfl 0 hfits.data (by simp [sampleCfg]) (fun h => absurd rfl h) _ rfl
  rw [hr] at hr'
  cases hr'
  rw [hcop rfl] at hfile
  simp only [allData, List.flatMap_nil, List.take_zero, List.append_nil, List.length_nil] at hfile hok
  have hlen : (refData r).length < 2 ^ 63 := by
    unfold newFile at hsize
    rw [List.length_append] at hsize
    omega
  have hfits' : CommitFits (sampleCfg S 10) (sampleUsage False) (oneFault (.dataWrite 0) (.fail 0)) 5 sWritten.fs sWritten.app 0 ctxX := by
    refine ⟨by decide, by decide, hfits.data, ?_, fun h => h.elim, fun h => h.elim⟩
    intro f hf
    rw [hfile] at hf
    cases hf
    exact hlen
  have hreach : Reachable (sampleCfg S 10) (sampleUsage False)
      ⟨(commit (sampleCfg S 10) (oneFault (.dataWrite 0) (.fail 0)) 5 sWritten.fs sWritten.app 0).fs,
       (commit (sampleCfg S 10) (oneFault (.dataWrite 0) (.fail 0)) 5 sWritten.fs sWritten.app 0).app⟩ := by
    obtain ⟨s0, h0, h⟩ := hs
    exact ⟨s0, h0, .tail _ _ _ h (.commit sWritten 0 ctxX _ 5 hg hfits')⟩
  -- the context afterwards
  obtain ⟨_, x, w2, hr2, _, _, _, hw, _, _⟩ := commit_gets_through (now := 5) hn hs hg rfl (by simp [ctxX]) hfits.data
    (by simp [sampleCfg]) (fun h => absurd rfl h) ho
  rw [hr] at hr2
  cases hr2
  obtain ⟨w', hrun, _, _⟩ := quiet_commit (sampleCfg S 10) _ ctxX r sWritten.fs hinv.good (hn.distinct hc.name) rfl x w2 ho.early ho.rename
    ho.removeBck ho.reopen hw
  have happ : (commit (sampleCfg S 10) (oneFault (.dataWrite 0) (.fail 0)) 5 sWritten.fs sWritten.app 0).app.get 0 =
      some { ctxX with conn := ⟨(sWritten.fs.touch ((sampleCfg S 10).path ctxX.name)).createIno ((sampleCfg S 10).dst ctxX.name), 0, true⟩, reference := some r, dataOffset := x } := by
    unfold commit
    rw [hg]
    simp only [hr, hrun, finish]
    exact get_set_self _ _ _
  refine ⟨_, _, sWritten, ctxX, _, rfl, by simp [sampleCfg], hn, hs, hg, by simp [ctxX], rfl, hok, hreach, fun now => ?_⟩
  have hinv' := hreach.inv hn
  have hc' : CtxOK (sampleCfg S 10) (sampleUsage False) _ _ := hinv'.ctxs _ (get_mem happ)
  have hh := hc'.holds
  obtain ⟨_, hoff, _, _⟩ := hh
  refine (C141_exact_partial (sampleCfg S 10) (sampleUsage False) hn ⟨_, _⟩ hreach 0 _ happ (by simp [ctxX]) rfl ?_ now).mpr ⟨by simp, .inl ?_⟩
  · show total r.contentKeys.list + _ < _
    rw [hu.keys]
    simp [ctxX, oldKeys, total, keysFrom, allData, contentX]
  · unfold dataOf
    have hl := hc'.linked trivial rfl
    unfold FS.file at hfile
    erw [hl] at hfile
    simp only [Option.map_some, Option.some.injEq] at hfile
    rw [List.drop_eq_nil_iff]
    refine Nat.le_of_eq ?_
    exact (congrArg List.length hfile).trans hoff.symm

end Props
end Rodkina
