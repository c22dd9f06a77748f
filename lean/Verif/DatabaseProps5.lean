import Verif.DatabaseProps4
/-! Property theorems for the file database, C66: failures that a commit does not report. -/

namespace Rodkina
namespace DB

open Ref

/-- The outcome is a value, the handle and its file are the same. -/
def Through {α : Type} (i : Nat) (w : World) (x : Out α × World) : Prop :=
  (∃ a, x.1 = .ok a) ∧ x.2.conn = w.conn ∧ ∀ j, j ≠ i → x.2.fs.ino j = w.fs.ino j

theorem through_bind {α β : Type} {i : Nat} {x : M α} {f : α → M β} {w : World} (hx : Through i w (x.run w))
    (hf : ∀ a w1, x.run w = (.ok a, w1) → Through i w1 ((f a).run w1)) : Through i w ((x >>= f).run w) := by
  obtain ⟨⟨a, ha⟩, h2, h3⟩ := hx
  rcases h : x.run w with ⟨out, w1⟩
  rw [h] at ha h2 h3
  simp only at ha h2 h3
  subst ha
  rw [bind_ok_eq h]
  obtain ⟨g1, g2, g3⟩ := hf a w1 h
  exact ⟨g1, by rw [g2, h2], fun j hj => by rw [g3 j hj, h3 j hj]⟩

theorem through_pure {α : Type} (i : Nat) (a : α) (w : World) : Through i w ((pure a : M α).run w) :=
  ⟨⟨a, rfl⟩, rfl, fun _ _ => rfl⟩

theorem swallow_through {f g : Fault} (hf : ∀ j, f ≠ .crash j) (hg : ∀ j, g ≠ .crash j) (i off : Nat) (bs : Bytes)
    (w : World) : Through i w ((swallow (saveDataOnDisk f g i off bs)).run w) := by
  have hw : ∀ b, ∀ j, j ≠ i → (w.fs.write i off b).ino j = w.fs.ino j := by
    intro b j hj
    simp only [FS.write]
    exact upd_ne _ _ hj
  cases f with
  | crash j => exact absurd rfl (hf j)
  | fail j => exact ⟨⟨false, rfl⟩, rfl, fun _ _ => rfl⟩
  | none =>
    cases g with
    | crash j => exact absurd rfl (hg j)
    | fail j => exact ⟨⟨false, rfl⟩, rfl, hw _⟩
    | none => exact ⟨⟨true, rfl⟩, rfl, hw _⟩

theorem writeContents_through {o : Pt → Fault} (hs : ∀ k j, o (.dataSeek k) ≠ .crash j)
    (hw : ∀ k j, o (.dataWrite k) ≠ .crash j) (i k wo : Nat) (L : List Content) (w : World) :
    Through i w ((writeContents o i k wo L).run w) := by
  induction L generalizing k wo w with
  | nil => exact through_pure i () w
  | cons x xs ih =>
    unfold writeContents
    apply through_bind (swallow_through (hs k) (hw k) i wo x.data w)
    intro go w1 _
    cases go
    · exact through_pure i () w1
    · exact ih _ _ _

theorem copyLoop_through {o : Pt → Fault} (hr : ∀ k j, o (.copyRead k) ≠ .crash j)
    (hs : ∀ k j, o (.copySeek k) ≠ .crash j) (hw : ∀ k j, o (.copyWrite k) ≠ .crash j)
    (chunk i fuel k ro wo : Nat) (w : World) (hc : 0 < chunk) (hc' : chunk < 2 ^ 63) (hi : w.conn.ino ≠ i)
    (hro : ro ≤ (w.fs.ino w.conn.ino).length) (hfuel : (w.fs.ino w.conn.ino).length < ro + fuel) :
    Through i w ((copyLoop o chunk i fuel k ro wo).run w) := by
  induction fuel generalizing k ro wo w with
  | zero => omega
  | succ fuel ih =>
    unfold copyLoop
    have hread : ∃ r, (copyRead (o (.copyRead k)) chunk ro).run w = (.ok r, w) ∧
        (r ≠ none → ro + chunk ≤ (w.fs.ino w.conn.ino).length) := by
      unfold copyRead
      cases ho : o (.copyRead k) with
      | crash j => exact absurd ho (hr k j)
      | fail j => exact ⟨none, rfl, fun h => absurd rfl h⟩
      | none =>
        simp only
        have hcr : connRead w.fs w.conn chunk ro = .err ∨ ∃ b, connRead w.fs w.conn chunk ro = .ok b ∧
            ro + chunk ≤ (w.fs.ino w.conn.ino).length := by
          unfold connRead readAt
          rw [if_neg (by omega)]
          split
          · exact .inl rfl
          split
          · exact .inl rfl
          rw [if_neg (by omega)]
          split
          · exact .inr ⟨_, rfl, by assumption⟩
          · exact .inl rfl
        rcases hcr with h | ⟨b, h, hle⟩
        · rw [h]; exact ⟨none, rfl, fun h => absurd rfl h⟩
        · rw [h]; exact ⟨some b, rfl, fun _ => hle⟩
    obtain ⟨r, h1, h2⟩ := hread
    rw [bind_ok_eq h1]
    unfold copyStep
    cases r with
    | none => exact through_pure i wo w
    | some b =>
      have hle := h2 (by simp)
      apply through_bind (swallow_through (hs k) (hw k) i wo b w)
      intro go w1 hrun
      obtain ⟨_, g2, g3⟩ := swallow_through (hs k) (hw k) i wo b w
      rw [hrun] at g2 g3
      simp only at g2 g3
      cases go
      · exact through_pure i wo w1
      · have hsame : w1.fs.ino w1.conn.ino = w.fs.ino w.conn.ino := by rw [g2]; exact g3 _ hi
        exact ih _ _ _ _ (by rw [g2]; exact hi) (by rw [hsame]; exact hle) (by rw [hsame]; omega)

/-- The failures a commit does not report: those inside the loop that copies the old data, and inside the loop that
writes the pending contents. -/
structure OnlyInLoops (o : Pt → Fault) : Prop where
  early : Early o
  rename : o .rename = .none
  removeBck : o .removeBck = .none
  reopen : o .reopen = .none
  copyRead : ∀ k j, o (.copyRead k) ≠ .crash j
  copySeek : ∀ k j, o (.copySeek k) ≠ .crash j
  copyWrite : ∀ k j, o (.copyWrite k) ≠ .crash j
  dataSeek : ∀ k j, o (.dataSeek k) ≠ .crash j
  dataWrite : ∀ k j, o (.dataWrite k) ≠ .crash j

theorem writeDestination_through {cfg : Cfg} {o : Pt → Fault} (ho : OnlyInLoops o) (c : Ctx) (r : Reference) (w : World)
    (hopen : w.conn.isOpen = true) (hi : w.conn.ino ≠ w.fs.createIno (cfg.dst c.name))
    (he : CopyEnds cfg c (w.fs.ino w.conn.ino)) :
    ∃ x w', (writeDestination cfg o c r).run w = (.ok x, w') := by
  have key : Through (w.fs.createIno (cfg.dst c.name)) w ((writeDestination cfg o c r).run w) := by
    unfold writeDestination
    rw [bind_ok_eq (inoOf_run _ w), ho.early.createDst, ho.early.writeRef]
    apply through_bind
    · rw [createOp_none]
      exact ⟨⟨_, rfl⟩, rfl, fun j hj => create_ino_ne _ hj⟩
    intro _ w1 h1
    rw [createOp_none] at h1
    injection h1 with _ h1
    subst h1
    have hsrc : (w.fs.create (cfg.dst c.name)).ino w.conn.ino = w.fs.ino w.conn.ino := create_ino_ne _ hi
    apply through_bind
    · rw [writeOp_none]
      exact ⟨⟨_, rfl⟩, rfl, fun j hj => upd_ne _ _ hj⟩
    intro _ w2 h2
    rw [writeOp_none] at h2
    injection h2 with _ h2
    have hc2 : w2.conn = w.conn := by rw [← h2]
    have hsrc2 : w2.fs.ino w2.conn.ino = w.fs.ino w.conn.ino := by
      rw [hc2, ← h2]
      simp only [FS.write]
      rw [upd_ne _ _ hi, hsrc]
    apply through_bind
    · unfold copyOld
      cases hr : c.reference with
      | none => exact through_pure _ _ _
      | some r0 =>
        rcases he with he | ⟨hc, hlt, hsmall⟩
        · rw [hr] at he; cases he
        have hs : statSize.run w2 = (.ok (w.fs.ino w.conn.ino).length, w2) := by
          simp [statSize, hc2, hopen, ← hsrc2]
        rw [bind_ok_eq hs, copyFrom, sub64_eq (by omega) hsmall]
        have hp := makeChunkSize_pos cfg (n := (w.fs.ino w.conn.ino).length - c.dataOffset) hc (by omega)
        have hle := makeChunkSize_le cfg ((w.fs.ino w.conn.ino).length - c.dataOffset)
        have hfuel : copyFuel (makeChunkSize cfg ((w.fs.ino w.conn.ino).length - c.dataOffset))
            (w.fs.ino w.conn.ino).length = (w.fs.ino w.conn.ino).length + 1 := by
          unfold copyFuel; rw [if_neg (by omega)]
        rw [hfuel]
        exact copyLoop_through ho.copyRead ho.copySeek ho.copyWrite _ _ _ _ _ _ _ hp (by omega)
          (by rw [hc2]; exact hi) (by rw [hsrc2]; omega) (by rw [hsrc2]; omega)
    intro wo w3 _
    apply through_bind (writeContents_through ho.dataSeek ho.dataWrite _ _ _ _ _)
    intro _ w4 _
    exact through_pure _ _ _
  obtain ⟨⟨x, hx⟩, _⟩ := key
  exact ⟨x, _, Prod.ext hx rfl⟩

/-! ### A failing write of a pending content -/

theorem writeContents_torn {o : Pt → Fault} (hs : ∀ k, o (.dataSeek k) = .none) (j n i k wo : Nat) (L : List Content)
    (x : Content) (L2 : List Content) (hk : j = k + L.length) (hj : o (.dataWrite j) = .fail n)
    (hb : ∀ m, m < j → o (.dataWrite m) = .none) (w : World) (hwo : wo = (w.fs.ino i).length) :
    (writeContents o i k wo (L ++ x :: L2)).run w =
      (.ok (), { w with fs := w.fs.setIno i (w.fs.ino i ++ (allData L ++ x.data.take n)) }) := by
  induction L generalizing k wo w with
  | nil =>
    have hkj : k = j := by simp at hk; exact hk.symm
    subst hkj
    simp only [List.nil_append]
    unfold writeContents
    rw [hs, hj]
    have : (swallow (saveDataOnDisk .none (.fail n) i wo x.data)).run w
        = (.ok false, { w with fs := w.fs.write i wo (x.data.take n) }) := rfl
    rw [bind_ok_eq this, hwo, write_end]
    rfl
  | cons y ys ih =>
    simp only [List.cons_append]
    unfold writeContents
    rw [hs, hb k (by simp at hk; omega)]
    rw [bind_ok_eq (swallow_ok (save_none i wo y.data w))]
    simp only [if_true]
    rw [ih]
    · subst hwo
      simp only [write_end, setIno_setIno, setIno_ino, allData, List.flatMap_cons, List.append_assoc]
    · simp at hk; omega
    · subst hwo
      simp [write_end, setIno_ino]

theorem copyOld_congr {cfg : Cfg} {o o' : Pt → Fault} (h : ∀ k, o (.copyRead k) = o' (.copyRead k) ∧
    o (.copySeek k) = o' (.copySeek k) ∧ o (.copyWrite k) = o' (.copyWrite k)) (c : Ctx) (i wo : Nat) :
    copyOld cfg o c i wo = copyOld cfg o' c i wo := by
  unfold copyOld
  have e : copyFrom cfg o = copyFrom cfg o' := by
    funext a b d e
    rw [copyFrom, copyFrom, copyLoop_congr h]
  rw [e]

theorem writeDestination_torn {cfg : Cfg} {c : Ctx} {L1 : List Content} {x : Content} {L2 : List Content}
    (hL : c.contentList = L1 ++ x :: L2) (n : Nat) (r : Reference) (w : World) (hopen : w.conn.isOpen = true)
    (hi : w.conn.ino ≠ w.fs.createIno (cfg.dst c.name)) (he : CopyEnds cfg c (w.fs.ino w.conn.ino)) :
    (writeDestination cfg (oneFault (.dataWrite L1.length) (.fail n)) c r).run w =
      (.ok (refData r).length,
       ⟨(w.fs.create (cfg.dst c.name)).setIno (w.fs.createIno (cfg.dst c.name))
          (refData r ++ (carried cfg c (w.fs.ino w.conn.ino) ++ (allData L1 ++ x.data.take n))),
        w.conn⟩) := by
  generalize ho : oneFault (.dataWrite L1.length) (.fail n) = o
  have hn : ∀ p, p ≠ .dataWrite L1.length → o p = .none := by
    intro p hp
    rw [← ho]
    simp [oneFault, hp]
  unfold writeDestination
  rw [bind_ok_eq (inoOf_run _ w), hn .createDst (by simp), hn .writeRef (by simp)]
  rw [bind_ok_eq (createOp_none _ w)]
  generalize hI : w.fs.createIno (cfg.dst c.name) = i at *
  have hnil : (w.fs.create (cfg.dst c.name)).ino i = [] := by rw [← hI]; exact create_ino_self _ _
  have hsrc : (w.fs.create (cfg.dst c.name)).ino w.conn.ino = w.fs.ino w.conn.ino := create_ino_ne _ (by rw [hI]; exact hi)
  generalize hF : w.fs.create (cfg.dst c.name) = F at *
  have hw : F.write i 0 (refData r) = F.setIno i (refData r) := by
    have := write_end F i (refData r)
    rw [hnil] at this
    simpa using this
  have h1 : (writeOp .none i 0 (refData r)).run { w with fs := F } =
      (.ok (), { w with fs := F.setIno i (refData r) }) := by
    rw [writeOp_none, ← hw]
  rw [bind_ok_eq h1]
  have hsrc' : (F.setIno i (refData r)).ino w.conn.ino = w.fs.ino w.conn.ino := by
    rw [setIno_ino_ne _ _ hi, hsrc]
  have h2 := copyOld_calm cfg c i { w with fs := F.setIno i (refData r) } hopen hi (by rw [hsrc']; exact he)
  simp only [setIno_ino, hsrc', setIno_setIno] at h2
  rw [copyOld_congr (o' := calm) (fun k => ⟨hn _ (by simp), hn _ (by simp), hn _ (by simp)⟩), bind_ok_eq h2, hL]
  have h3 := writeContents_torn (o := o) (fun k => hn _ (by simp)) L1.length n i 0
    ((refData r).length + (carried cfg c (w.fs.ino w.conn.ino)).length) L1 x L2 (by omega)
    (by rw [← ho]; simp [oneFault]) (fun m hm => hn _ (by simp; omega))
    { w with fs := F.setIno i (refData r ++ carried cfg c (w.fs.ino w.conn.ino)) } (by simp [setIno_ino])
  rw [bind_ok_eq h3]
  simp only [setIno_ino, setIno_setIno, pure_run, List.append_assoc]

end DB

namespace Props

open Ref DB

theorem commit_gets_through {cfg : Cfg} {u : Usage} (hn : Names cfg u) {s : State} (hs : Reachable cfg u s) {id : Nat} {c : Ctx}
    {o : Pt → Fault} {now : Int} (hg : s.app.get id = some c) (hopen : c.conn.isOpen = true) (hne : c.contentList ≠ [])
    (hdata : total (oldKeys c.reference) + (allData c.contentList).length < 2 ^ 63) (hchunk : 0 < cfg.readChunkSize)
    (hold : c.reference ≠ none → dataOf s.fs c ≠ []) (ho : OnlyInLoops o) :
    ∃ r x w2, updateReference cfg c now = .ok r ∧
      (s.fs.touch (cfg.path c.name)).ino c.conn.ino = s.fs.ino c.conn.ino ∧
      c.conn.ino ≠ (s.fs.touch (cfg.path c.name)).createIno (cfg.dst c.name) ∧
      CopyEnds cfg c (s.fs.ino c.conn.ino) ∧
      (writeDestination cfg o c r).run ⟨s.fs.touch (cfg.path c.name), c.conn⟩ = (.ok x, w2) ∧
      (commit cfg o now s.fs s.app id).out = .ok () ∧
      (commit cfg o now s.fs s.app id).fs.file (cfg.path c.name) =
        some (w2.fs.ino ((s.fs.touch (cfg.path c.name)).createIno (cfg.dst c.name))) := by
  have hinv := hs.inv hn
  have hc : CtxOK cfg u s.fs c := hinv.ctxs _ (get_mem hg)
  obtain ⟨t, r, hr, _⟩ := updateReference_ok cfg c now hne hc.pending hc.holds.ref hdata
  have hd := hn.distinct hc.name
  obtain ⟨d1, d2, d3⟩ := hd
  have hino : (s.fs.touch (cfg.path c.name)).ino c.conn.ino = s.fs.ino c.conn.ino := touch_ino_lt _ _ hc.lt
  have hi : c.conn.ino ≠ (s.fs.touch (cfg.path c.name)).createIno (cfg.dst c.name) :=
    createIno_lt_of_dir (Nat.lt_of_lt_of_le hc.lt (touch_next _ _))
      (by rw [touch_dir_ne _ (Ne.symm d1)]; exact hc.dst_ne hn hc.name _ (.inl rfl))
  have hends : CopyEnds cfg c (s.fs.ino c.conn.ino) := by
    unfold CopyEnds
    by_cases hrn : c.reference = none
    · exact .inl hrn
    · right
      have hb := hc.holds.bounds hrn
      refine ⟨hchunk, ?_, hb.2⟩
      have := hold hrn
      unfold dataOf at this
      rw [ne_eq, List.drop_eq_nil_iff] at this
      omega
  obtain ⟨x, w2, hw⟩ := writeDestination_through ho c r ⟨s.fs.touch (cfg.path c.name), c.conn⟩ hopen hi
    (by rw [hino]; exact hends)
  obtain ⟨w', hrun, hdir, hfile⟩ := quiet_commit cfg o c r s.fs hinv.good (hn.distinct hc.name) hopen x w2 ho.early ho.rename
    ho.removeBck ho.reopen hw
  refine ⟨r, x, w2, hr, hino, hi, hends, hw, ?_, ?_⟩
  · unfold commit
    rw [hg]
    simp only [hr, hrun, finish]
  · unfold commit
    rw [hg]
    simp only [hr, hrun, finish]
    unfold FS.file
    rw [hdir]
    show some (w'.fs.ino _) = _
    rw [hfile]

/-- **C66 is false, in general form**: whatever fails in the loop that copies the old data or in the loop that writes the
pending contents, and however often, the commit reports success. -/
theorem C66_failures_are_not_reported (cfg : Cfg) (u : Usage) (hn : Names cfg u) (s : State) (hs : Reachable cfg u s)
    (id : Nat) (c : Ctx) (o : Pt → Fault) (now : Int) (hg : s.app.get id = some c) (hopen : c.conn.isOpen = true)
    (hne : c.contentList ≠ []) (hdata : total (oldKeys c.reference) + (allData c.contentList).length < 2 ^ 63)
    (hchunk : 0 < cfg.readChunkSize) (hold : c.reference ≠ none → dataOf s.fs c ≠ []) (ho : OnlyInLoops o) :
    (commit cfg o now s.fs s.app id).out = .ok () := by
  obtain ⟨_, _, _, _, _, _, _, _, h, _⟩ := commit_gets_through (now := now) hn hs hg hopen hne hdata hchunk hold ho
  exact h

/-- **C66 is false, what is stored instead**: when writing one of the pending contents fails after `n` bytes, the commit
reports success, and the database file ends after these `n` bytes: the rest of that content and all contents behind it are
missing, although the reference lists them. -/
theorem C66_torn_content (cfg : Cfg) (u : Usage) (hn : Names cfg u) (s : State) (hs : Reachable cfg u s)
    (id : Nat) (c : Ctx) (now : Int) (hg : s.app.get id = some c) (hopen : c.conn.isOpen = true)
    (L1 : List Content) (x : Content) (L2 : List Content) (hL : c.contentList = L1 ++ x :: L2) (n : Nat)
    (hdata : total (oldKeys c.reference) + (allData c.contentList).length < 2 ^ 63)
    (hchunk : 0 < cfg.readChunkSize) (hold : c.reference ≠ none → dataOf s.fs c ≠ [])
    (o : Pt → Fault) (ho : o = oneFault (.dataWrite L1.length) (.fail n)) :
    (commit cfg o now s.fs s.app id).out = .ok () ∧
    ∃ r copied, updateReference cfg c now = .ok r ∧ (c.reference = none → copied = []) ∧
      (c.reference ≠ none → copied = kept cfg (dataOf s.fs c)) ∧
      (commit cfg o now s.fs s.app id).fs.file (cfg.path c.name) =
        some (refData r ++ (copied ++ (allData L1 ++ x.data.take n))) := by
  have hl : OnlyInLoops o := by
    subst ho
    refine ⟨⟨rfl, rfl, rfl, rfl, rfl, rfl, rfl, rfl⟩, rfl, rfl, rfl, ?_, ?_, ?_, ?_, ?_⟩ <;>
      · intro k j
        unfold oneFault
        split <;> simp
  obtain ⟨r, y, w2, hr, h1, h2, h3, hw, hok, hf⟩ := commit_gets_through (now := now) hn hs hg hopen (by rw [hL]; simp) hdata hchunk
    hold hl
  refine ⟨hok, r, carried cfg c (s.fs.ino c.conn.ino), hr, ?_, ?_, ?_⟩
  · intro h; simp [carried, h]
  · intro h
    unfold carried dataOf
    cases hc : c.reference with
    | none => exact absurd hc h
    | some r0 => rfl
  · rw [hf]
    have := writeDestination_torn hL n r ⟨s.fs.touch (cfg.path c.name), c.conn⟩ hopen h2 (by rw [h1]; exact h3)
    rw [← ho, hw] at this
    injection this with _ this
    rw [this]
    simp only [setIno_ino, h1]

/-- A database with five stored bytes and one pending content, of which one byte is written. -/
example (S : Sha) : ∃ cfg u s c, cfg.S = S ∧ Names cfg u ∧ Reachable cfg u s ∧ s.app.get 0 = some c ∧ c.conn.isOpen = true ∧
    c.contentList = [] ++ contentY :: [] ∧ total (oldKeys c.reference) + (allData c.contentList).length < 2 ^ 63 ∧
    0 < cfg.readChunkSize ∧ c.reference ≠ none ∧ dataOf s.fs c ≠ [] ∧ contentY.data.take 1 ≠ contentY.data := by
  obtain ⟨s, c, h⟩ := sample_ready S 10 True
  exact ⟨_, _, s, c, rfl, sampleNames S 10 True, h.reachable, h.get, h.isOpen, h.pending,
    (h.commit (by decide) (by decide) (by decide)).2.1.data, by simp [sampleCfg], h.reference, by rw [h.data]; simp, by decide⟩

end Props
end Rodkina
