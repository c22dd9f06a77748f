import Verif.DatabaseLemmas
/-! Helper lemmas for the file database: what a commit does, with and without faults. -/

namespace Rodkina
namespace DB

open Ref

theorem create_ino_ne (fs : FS) {p : Name} {j : Nat} (h : j ≠ fs.createIno p) : (fs.create p).ino j = fs.ino j := by
  unfold FS.create FS.createIno at *
  cases h' : fs.dir p <;> simp_all [upd]

theorem createIno_lt_of_dir {fs : FS} {p : Name} {j : Nat} (hj : j < fs.next) (hd : fs.dir p ≠ some j) : j ≠ fs.createIno p := by
  unfold FS.createIno
  cases h : fs.dir p with
  | none => simp; omega
  | some i => simp; rintro rfl; exact hd h

theorem makeChunkSize_le (cfg : Cfg) (n : Nat) : makeChunkSize cfg n ≤ n := by
  unfold makeChunkSize; split <;> omega

theorem makeChunkSize_pos (cfg : Cfg) {n : Nat} (hc : 0 < cfg.readChunkSize) (hn : 0 < n) : 0 < makeChunkSize cfg n := by
  unfold makeChunkSize; split <;> omega

theorem sub64_eq {a b : Nat} (h : b ≤ a) (ha : a < 2 ^ 63) : sub64 a b = a - b := by
  unfold sub64
  rw [show a + 2 ^ 64 - b = (a - b) + 2 ^ 64 by omega, Nat.add_mod_right]
  exact Nat.mod_eq_of_lt (by omega)

/-- The part of the old data area a commit copies. -/
def carried (cfg : Cfg) (c : Ctx) (file : Bytes) : Bytes :=
  match c.reference with
  | none => []
  | some _ => kept cfg (file.drop c.dataOffset)

/-- The condition under which the copy of the old data comes to an end: there is no old data to copy, or there is some and
the chunk size is positive. -/
def CopyEnds (cfg : Cfg) (c : Ctx) (file : Bytes) : Prop :=
  c.reference = none ∨ (0 < cfg.readChunkSize ∧ c.dataOffset < file.length ∧ file.length < 2 ^ 63)

/-- The bytes of the file a commit of `c` writes when its reference becomes `r` and the old file is `file`. -/
def newFile (cfg : Cfg) (c : Ctx) (r : Reference) (file : Bytes) : Bytes :=
  refData r ++ (carried cfg c file ++ c.contentList.flatMap (·.data))

theorem copyOld_calm (cfg : Cfg) (c : Ctx) (i : Nat) (w : World) (hopen : w.conn.isOpen = true) (hi : w.conn.ino ≠ i)
    (he : CopyEnds cfg c (w.fs.ino w.conn.ino)) :
    (copyOld cfg calm c i (w.fs.ino i).length).run w =
      (.ok ((w.fs.ino i).length + (carried cfg c (w.fs.ino w.conn.ino)).length),
       { w with fs := w.fs.setIno i (w.fs.ino i ++ carried cfg c (w.fs.ino w.conn.ino)) }) := by
  unfold CopyEnds at he
  unfold copyOld carried
  cases hr : c.reference with
  | none => simp [setIno_self]
  | some r =>
    rw [hr] at he
    rcases he with he | ⟨hc, hlt, hsmall⟩
    · cases he
    have hs : statSize.run w = (.ok (w.fs.ino w.conn.ino).length, w) := by simp [statSize, hopen]
    rw [bind_ok_eq hs, copyFrom, sub64_eq (by omega) hsmall]
    have hp := makeChunkSize_pos cfg (n := (w.fs.ino w.conn.ino).length - c.dataOffset) hc (by omega)
    have hle := makeChunkSize_le cfg ((w.fs.ino w.conn.ino).length - c.dataOffset)
    have hfuel : copyFuel (makeChunkSize cfg ((w.fs.ino w.conn.ino).length - c.dataOffset)) (w.fs.ino w.conn.ino).length =
        (w.fs.ino w.conn.ino).length + 1 := by
      unfold copyFuel; rw [if_neg (by omega)]
    have hdl := Nat.div_le_self ((w.fs.ino w.conn.ino).length - c.dataOffset)
      (makeChunkSize cfg ((w.fs.ino w.conn.ino).length - c.dataOffset))
    have hml := Nat.div_mul_le_self ((w.fs.ino w.conn.ino).length - c.dataOffset)
      (makeChunkSize cfg ((w.fs.ino w.conn.ino).length - c.dataOffset))
    rw [hfuel, copyLoop_calm _ _ _ _ _ _ w hp (by omega) hsmall (by omega) hopen hi rfl (by omega)]
    simp only [kept, List.length_take, List.length_drop]
    rw [Nat.min_eq_left hml]

theorem createOp_none (p : Name) (w : World) : (createOp .none p).run w = (.ok (), { w with fs := w.fs.create p }) := rfl

theorem inoOf_run (p : Name) (w : World) : (inoOf p).run w = (.ok (w.fs.createIno p), w) := rfl

theorem writeDestination_calm (cfg : Cfg) (c : Ctx) (r : Reference) (w : World) (hopen : w.conn.isOpen = true)
    (hi : w.conn.ino ≠ w.fs.createIno (cfg.dst c.name)) (he : CopyEnds cfg c (w.fs.ino w.conn.ino)) :
    (writeDestination cfg calm c r).run w =
      (.ok (refData r).length,
       ⟨(w.fs.create (cfg.dst c.name)).setIno (w.fs.createIno (cfg.dst c.name)) (newFile cfg c r (w.fs.ino w.conn.ino)),
        w.conn⟩) := by
  unfold writeDestination
  rw [bind_ok_eq (inoOf_run _ w)]
  rw [bind_ok_eq (x := createOp (calm .createDst) (cfg.dst c.name)) (createOp_none _ w)]
  generalize hI : w.fs.createIno (cfg.dst c.name) = i at *
  have hnil : (w.fs.create (cfg.dst c.name)).ino i = [] := by rw [← hI]; exact create_ino_self _ _
  have hsrc : (w.fs.create (cfg.dst c.name)).ino w.conn.ino = w.fs.ino w.conn.ino := create_ino_ne _ (by rw [hI]; exact hi)
  generalize hF : w.fs.create (cfg.dst c.name) = F at *
  have hw : F.write i 0 (refData r) = F.setIno i (refData r) := by
    have := write_end F i (refData r)
    rw [hnil] at this
    simpa using this
  have h1 : (writeOp (calm .writeRef) i 0 (refData r)).run { w with fs := F } =
      (.ok (), { w with fs := F.setIno i (refData r) }) := by
    rw [show calm .writeRef = .none from rfl, writeOp_none, ← hw]
  rw [bind_ok_eq h1]
  have hsrc' : (F.setIno i (refData r)).ino w.conn.ino = w.fs.ino w.conn.ino := by
    rw [setIno_ino_ne _ _ hi, hsrc]
  have h2 := copyOld_calm cfg c i { w with fs := F.setIno i (refData r) } hopen hi (by rw [hsrc']; exact he)
  simp only [setIno_ino, hsrc', setIno_setIno] at h2
  rw [bind_ok_eq h2]
  have h3 := writeContents_calm i 0 ((refData r).length + (carried cfg c (w.fs.ino w.conn.ino)).length) c.contentList
    { w with fs := F.setIno i (refData r ++ carried cfg c (w.fs.ino w.conn.ino)) } (by simp [setIno_ino])
  rw [bind_ok_eq h3]
  simp only [setIno_ino, setIno_setIno, pure_run, newFile, List.append_assoc]

theorem copyBackup_none (i : Nat) (w : World) (hopen : w.conn.isOpen = true) :
    (copyBackup .none i).run w = (.ok (), ⟨w.fs.write i 0 ((w.fs.ino w.conn.ino).drop w.conn.pos),
      { w.conn with pos := w.conn.pos + ((w.fs.ino w.conn.ino).drop w.conn.pos).length }⟩) := by
  unfold copyBackup
  simp [hopen, attempt]

/-- A fault-free backup succeeds. -/
theorem backup_calm (cfg : Cfg) (n : Name) (w : World) (hopen : w.conn.isOpen = true) :
    ∃ w', (backup cfg calm n).run w = (.ok (), w') ∧ w'.fs.dir (cfg.bck n) ≠ none := by
  unfold backup
  rw [bind_ok_eq (inoOf_run _ w)]
  rw [bind_ok_eq (x := createOp (calm .createBck) (cfg.bck n)) (createOp_none _ w)]
  rw [bind_ok_eq (x := copyBackup (calm .copyBck) _) (copyBackup_none _ _ (by exact hopen))]
  refine ⟨_, rfl, ?_⟩
  simp only [id, FS.write]
  rw [create_dir_self]
  simp

theorem closeConn_none (w : World) (hopen : w.conn.isOpen = true) :
    (closeConn .none).run w = (.ok (), { w with conn := { w.conn with isOpen := false } }) := by
  unfold closeConn
  simp [hopen, attempt]

theorem removeOp_none (p : Name) (w : World) (h : w.fs.dir p ≠ none) :
    (removeOp .none p).run w = (.ok (), { w with fs := w.fs.remove p }) := by
  unfold removeOp
  have : (w.fs.dir p).isSome = true := by cases h' : w.fs.dir p <;> simp_all
  simp [this, atomic, attempt]

theorem renameOp_none (p q : Name) (w : World) (h : w.fs.dir p ≠ none) :
    (renameOp .none p q).run w = (.ok (), { w with fs := w.fs.rename p q }) := by
  unfold renameOp
  have : (w.fs.dir p).isSome = true := by cases h' : w.fs.dir p <;> simp_all
  simp [this, atomic, attempt]

theorem openOp_none (p : Name) (w : World) (i : Nat) (h : w.fs.dir p = some i) :
    (openOp .none p).run w = (.ok ⟨i, 0, true⟩, w) := by
  unfold openOp
  simp only [h]
  rfl

/-- The paths a commit uses are different files. -/
def Cfg.Distinct (cfg : Cfg) (n : Name) : Prop :=
  cfg.path n ≠ cfg.dst n ∧ cfg.path n ≠ cfg.bck n ∧ cfg.dst n ≠ cfg.bck n

/-- The file system after the swap. -/
def swapped (cfg : Cfg) (n : Name) (fs : FS) : FS :=
  (((fs.remove (cfg.path n)).rename (cfg.dst n) (cfg.path n)).remove (cfg.bck n))

theorem swapped_dir (cfg : Cfg) (n : Name) (fs : FS) (hd : cfg.Distinct n) (p : Name) :
    (swapped cfg n fs).dir p =
      if p = cfg.path n then fs.dir (cfg.dst n) else if p = cfg.dst n ∨ p = cfg.bck n then none else fs.dir p := by
  obtain ⟨h1, h2, h3⟩ := hd
  simp only [swapped, FS.remove, FS.rename, upd]
  by_cases e1 : p = cfg.path n
  · subst e1; simp [h1, h2, Ne.symm h1]
  · by_cases e2 : p = cfg.dst n
    · subst e2; simp [e1]
    · by_cases e3 : p = cfg.bck n
      · subst e3; simp [e1]
      · simp [e1, e2, e3]

theorem swap_calm (cfg : Cfg) (n : Name) (w : World) (hd : cfg.Distinct n) (hopen : w.conn.isOpen = true) (i : Nat)
    (h1 : w.fs.dir (cfg.path n) ≠ none) (h2 : w.fs.dir (cfg.dst n) = some i) (h3 : w.fs.dir (cfg.bck n) ≠ none) :
    (swap cfg calm n).run w = (.ok ⟨i, 0, true⟩, ⟨swapped cfg n w.fs, { w.conn with isOpen := false }⟩) := by
  obtain ⟨d1, d2, d3⟩ := hd
  unfold swap
  rw [bind_ok_eq (x := closeConn (calm .closeConn)) (closeConn_none w hopen)]
  rw [bind_ok_eq (x := removeOp (calm .removeSrc) _)
    (removeOp_none _ ⟨w.fs, { w.conn with isOpen := false }⟩ h1)]
  have e2 : (w.fs.remove (cfg.path n)).dir (cfg.dst n) = some i := by
    simp only [FS.remove]; rw [upd_ne _ _ (Ne.symm d1)]; exact h2
  rw [bind_ok_eq (x := renameOp (calm .rename) _ _) 
    (renameOp_none _ _ ⟨w.fs.remove (cfg.path n), { w.conn with isOpen := false }⟩ (by simp only; rw [e2]; simp))]
  have e3 : ((w.fs.remove (cfg.path n)).rename (cfg.dst n) (cfg.path n)).dir (cfg.bck n) ≠ none := by
    simp only [FS.remove, FS.rename]
    rw [upd_ne _ _ (Ne.symm d3), upd_ne _ _ (Ne.symm d2), upd_ne _ _ (Ne.symm d2)]; exact h3
  have h4 := removeOp_none (cfg.bck n)
    ⟨(w.fs.remove (cfg.path n)).rename (cfg.dst n) (cfg.path n), { w.conn with isOpen := false }⟩ e3
  have h5 := openOp_none (cfg.path n) ⟨swapped cfg n w.fs, { w.conn with isOpen := false }⟩ i (by
    simp only
    rw [swapped_dir cfg n w.fs ⟨d1, d2, d3⟩]
    simp [h2])
  exact (bind_ok_eq (x := removeOp (calm .removeBck) _) h4).trans h5

/-- What the commit of `c` with the new reference `r` leaves behind in the file system `fs'` it started from `fs`; `j` is the
inode of the new file. -/
structure CommitEffect (cfg : Cfg) (c : Ctx) (r : Reference) (fs fs' : FS) (j : Nat) : Prop where
  good : FsGood fs'
  next : fs.next ≤ fs'.next
  dir : fs'.dir (cfg.path c.name) = some j
  content : fs'.ino j = newFile cfg c r (fs.ino c.conn.ino)
  dst : fs'.dir (cfg.dst c.name) = none
  bck : fs'.dir (cfg.bck c.name) = none
  other : ∀ p, p ≠ cfg.path c.name → p ≠ cfg.dst c.name → p ≠ cfg.bck c.name → fs'.dir p = fs.dir p
  frame : ∀ i, i < fs.next → fs.dir (cfg.dst c.name) ≠ some i → fs.dir (cfg.bck c.name) ≠ some i → fs'.ino i = fs.ino i
  fresh : fs.next ≤ j ∨ fs.dir (cfg.dst c.name) = some j

theorem touch_dir_ne (fs : FS) {p q : Name} (h : q ≠ p) : (fs.touch p).dir q = fs.dir q := by
  unfold FS.touch
  cases fs.dir p with
  | some _ => rfl
  | none => exact create_dir_ne fs h

theorem touch_ino_lt (fs : FS) (p : Name) {i : Nat} (h : i < fs.next) : (fs.touch p).ino i = fs.ino i := by
  unfold FS.touch
  cases hd : fs.dir p with
  | some _ => rfl
  | none =>
    simp only [FS.create, hd]
    rw [upd_ne]
    omega

theorem touch_dir_self (fs : FS) (p : Name) : (fs.touch p).dir p ≠ none := by
  unfold FS.touch
  cases hd : fs.dir p with
  | some _ => simp [hd]
  | none => simp only; rw [create_dir_self]; simp

theorem touch_next (fs : FS) (p : Name) : fs.next ≤ (fs.touch p).next := by
  unfold FS.touch FS.create
  cases hd : fs.dir p <;> simp

theorem touch_good {fs : FS} (h : FsGood fs) (p : Name) : FsGood (fs.touch p) := by
  unfold FS.touch
  cases hd : fs.dir p with
  | some _ => exact h
  | none => exact create_good h p

theorem create_next (fs : FS) (p : Name) : fs.next ≤ (fs.create p).next := by
  unfold FS.create
  cases hd : fs.dir p <;> simp

theorem remove_good {fs : FS} (h : FsGood fs) (p : Name) : FsGood (fs.remove p) :=
  (remove_touches fs p (· = p) (fun _ => False) rfl).good h

theorem rename_good {fs : FS} (h : FsGood fs) {p q : Name} (hne : p ≠ q) : FsGood (fs.rename p q) :=
  (rename_touches fs p q (fun _ => True) (fun _ => False) trivial trivial hne id).good h

/-- A fault-free commit on disk. -/
theorem updateDatabase_calm (cfg : Cfg) (c : Ctx) (r : Reference) (fs : FS) (hg : FsGood fs) (hd : cfg.Distinct c.name)
    (hopen : c.conn.isOpen = true) (hlt : c.conn.ino < fs.next) (h1 : fs.dir (cfg.dst c.name) ≠ some c.conn.ino)
    (he : CopyEnds cfg c (fs.ino c.conn.ino)) :
    ∃ (w' : World) (j : Nat), (updateDatabaseOnFile cfg calm c r).run ⟨fs, c.conn⟩ = (.ok (⟨j, 0, true⟩, (refData r).length), w') ∧
      CommitEffect cfg c r fs w'.fs j := by
  obtain ⟨d1, d2, d3⟩ := hd
  have hg1 := touch_good hg (cfg.path c.name)
  have hlt1 : c.conn.ino < (fs.touch (cfg.path c.name)).next := Nat.lt_of_lt_of_le hlt (touch_next _ _)
  have hdst1 : (fs.touch (cfg.path c.name)).dir (cfg.dst c.name) = fs.dir (cfg.dst c.name) := touch_dir_ne _ (Ne.symm d1)
  have hbck1 : (fs.touch (cfg.path c.name)).dir (cfg.bck c.name) = fs.dir (cfg.bck c.name) := touch_dir_ne _ (Ne.symm d2)
  have hsrc1 : (fs.touch (cfg.path c.name)).ino c.conn.ino = fs.ino c.conn.ino := touch_ino_lt _ _ hlt
  have hpath1 := touch_dir_self fs (cfg.path c.name)
  have hnext1 := touch_next fs (cfg.path c.name)
  have hfr1 : ∀ i, i < fs.next → (fs.touch (cfg.path c.name)).ino i = fs.ino i := fun i hi => touch_ino_lt _ _ hi
  have hoth1 : ∀ p, p ≠ cfg.path c.name → (fs.touch (cfg.path c.name)).dir p = fs.dir p := fun p hp => touch_dir_ne _ hp
  unfold updateDatabaseOnFile
  rw [bind_ok_eq (x := atomic (calm .tryLock) _) (atomic_none _ _)]
  generalize fs.touch (cfg.path c.name) = F1 at *
  dsimp only
  have hi : c.conn.ino ≠ F1.createIno (cfg.dst c.name) := createIno_lt_of_dir hlt1 (by rw [hdst1]; exact h1)
  have hw := writeDestination_calm cfg c r ⟨F1, c.conn⟩ hopen hi (by simp only; rw [hsrc1]; exact he)
  rw [bind_ok_eq hw]
  simp only [hsrc1]
  have hg2 := create_good hg1 (cfg.dst c.name)
  have hnext2 := create_next F1 (cfg.dst c.name)
  have hj2 := create_dir_self F1 (cfg.dst c.name)
  have hoth2 : ∀ p, p ≠ cfg.dst c.name → (F1.create (cfg.dst c.name)).dir p = F1.dir p := fun p hp => create_dir_ne _ hp
  have hfr2 : ∀ i, i ≠ F1.createIno (cfg.dst c.name) → (F1.create (cfg.dst c.name)).ino i = F1.ino i :=
    fun i hi => create_ino_ne _ hi
  have hcases : F1.next ≤ F1.createIno (cfg.dst c.name) ∨ F1.dir (cfg.dst c.name) = some (F1.createIno (cfg.dst c.name)) := by
    unfold FS.createIno
    cases h : F1.dir (cfg.dst c.name) <;> simp
  generalize F1.createIno (cfg.dst c.name) = j at *
  generalize F1.create (cfg.dst c.name) = F2 at *
  generalize hC : newFile cfg c r (fs.ino c.conn.ino) = C at *
  have hg3 : FsGood (F2.setIno j C) := hg2
  obtain ⟨w4, hb, hbd⟩ := backup_calm cfg c.name ⟨F2.setIno j C, c.conn⟩ hopen
  rw [bind_ok_eq hb]
  have hrel := backup_rel cfg calm c.name ⟨F2.setIno j C, c.conn⟩
  rw [hb] at hrel
  obtain ⟨ht, hino, hop⟩ := hrel
  simp only at ht hino hop
  have e1 : w4.fs.dir (cfg.path c.name) = F1.dir (cfg.path c.name) := by
    rw [ht.dir _ d2]; simp only [FS.setIno]; exact hoth2 _ d1
  have e2 : w4.fs.dir (cfg.dst c.name) = some j := by
    rw [ht.dir _ d3]; exact hj2
  have hsw := swap_calm cfg c.name w4 ⟨d1, d2, d3⟩ (by rw [hop]; exact hopen) j (by rw [e1]; exact hpath1) e2 hbd
  rw [bind_ok_eq hsw]
  refine ⟨_, j, rfl, ?_⟩
  have hjlt : j < F2.next := hg2.1 _ _ hj2
  have hjnb : ∀ p, p = cfg.bck c.name → (F2.setIno j C).dir p ≠ some j := by
    rintro p rfl he
    exact d3 (hg2.2 _ _ j hj2 he)
  refine ⟨?_, ?_, ?_, ?_, ?_, ?_, ?_, ?_, ?_⟩
  · exact remove_good (rename_good (remove_good (ht.good hg3) _) (Ne.symm d1)) _
  · have := ht.next
    simp only [FS.setIno] at this
    show fs.next ≤ w4.fs.next
    omega
  · rw [swapped_dir _ _ _ ⟨d1, d2, d3⟩]; simp [e2]
  · rw [hC]
    show w4.fs.ino j = C
    rw [ht.ino j hjlt hjnb, setIno_ino]
  · rw [swapped_dir _ _ _ ⟨d1, d2, d3⟩]; simp [Ne.symm d1]
  · rw [swapped_dir _ _ _ ⟨d1, d2, d3⟩]; simp [Ne.symm d2]
  · intro p p1 p2 p3
    rw [swapped_dir _ _ _ ⟨d1, d2, d3⟩]
    simp only [p1, p2, p3, if_false, or_self]
    rw [ht.dir p p3]
    simp only [FS.setIno]
    rw [hoth2 p p2, hoth1 p p1]
  · intro i hi hid hib
    show w4.fs.ino i = fs.ino i
    have hne : i ≠ j := by
      rintro rfl
      rcases hcases with h | h
      · omega
      · rw [hdst1] at h; exact hid h
    rw [ht.ino i (by simp only [FS.setIno]; omega), setIno_ino_ne _ _ hne, hfr2 i hne, hfr1 i hi]
    rintro p rfl he
    simp only [FS.setIno] at he
    rw [hoth2 _ (Ne.symm d3), hbck1] at he
    exact hib he
  · rcases hcases with h | h
    · left; omega
    · right; rw [hdst1] at h; exact h

end DB
end Rodkina
