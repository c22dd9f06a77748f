import Verif.DatabaseLemmas3
/-! What a commit leaves on disk, for every way its file operations can fail or stop. -/

namespace Rodkina
namespace DB

open Ref

/-! ### The reference written first is not overwritten -/

theorem writeBytes_take (c bs : Bytes) (L off : Nat) (h : L ≤ off) (hc : L ≤ c.length) :
    (writeBytes c off bs).take L = c.take L ∧ L ≤ (writeBytes c off bs).length := by
  unfold writeBytes
  constructor
  · rw [List.append_assoc, List.take_append_of_le_length (by simp; omega), List.take_take,
      Nat.min_eq_left h, List.take_append_of_le_length hc]
  · simp only [List.length_append, List.length_take]
    by_cases h' : off ≤ c.length
    · omega
    · omega

/-- What a file contains after writing at an offset, byte by byte: the bytes written where they were
written, zeros in the gap before them, what was there elsewhere. -/
theorem writeBytes_getElem (c bs : Bytes) (off i : Nat) :
    (writeBytes c off bs)[i]? =
      if i < off then (if i < c.length then c[i]? else some 0)
      else if i < off + bs.length then bs[i - off]? else c[i]? := by
  unfold writeBytes
  have hl : ((c ++ List.replicate (off - c.length) (0 : UInt8)).take off).length = off := by
    simp only [List.length_take, List.length_append, List.length_replicate]
    omega
  rw [List.append_assoc]
  by_cases h1 : i < off
  · rw [List.getElem?_append_left (by omega), List.getElem?_take_of_lt h1, if_pos h1]
    by_cases h2 : i < c.length
    · rw [List.getElem?_append_left h2, if_pos h2]
    · rw [List.getElem?_append_right (by omega), if_neg h2, List.getElem?_replicate, if_pos (by omega)]
  · rw [List.getElem?_append_right (by omega), hl, if_neg h1]
    by_cases h2 : i < off + bs.length
    · rw [List.getElem?_append_left (by omega), if_pos h2]
    · rw [List.getElem?_append_right (by omega), if_neg h2, List.getElem?_drop]
      congr 1
      omega

/-- The first `L` bytes of inode `i` stay. -/
def RelPre (L i : Nat) (w w' : World) : Prop :=
  L ≤ (w.fs.ino i).length → (w'.fs.ino i).take L = (w.fs.ino i).take L ∧ L ≤ (w'.fs.ino i).length

theorem RelPre.trans {L i : Nat} (a b c : World) (h1 : RelPre L i a b) (h2 : RelPre L i b c) : RelPre L i a c := by
  intro h
  obtain ⟨x, y⟩ := h1 h
  obtain ⟨z, t⟩ := h2 y
  exact ⟨z.trans x, t⟩

theorem RelPre.refl (L i : Nat) (w : World) : RelPre L i w w := fun h => ⟨rfl, h⟩

theorem write_pre (L i off : Nat) (bs : Bytes) (w : World) (h : L ≤ off) : RelPre L i w ⟨w.fs.write i off bs, w.conn⟩ := by
  intro hc
  simp only [FS.write, upd_self]
  exact writeBytes_take _ bs L off h hc

theorem save_pre (f g : Fault) (L i off : Nat) (bs : Bytes) (w : World) (h : L ≤ off) :
    RelPre L i w ((saveDataOnDisk f g i off bs).run w).2 := by
  unfold saveDataOnDisk
  apply rel_bind RelPre.trans
  · exact atomic_rel _ id w (RelPre.refl _ _ w) (RelPre.refl _ _ w)
  · intro _ w1 _
    exact attempt_rel _ _ _ w1 (write_pre L i off bs w1 h) (fun k => write_pre L i off _ w1 h)

theorem copyStep_pre (o : Pt → Fault) (L i k wo : Nat) (r : Option Bytes) (next : M Nat) (w : World) (h : L ≤ wo)
    (hn : ∀ w1, RelPre L i w1 (next.run w1).2) : RelPre L i w ((copyStep o i k wo r next).run w).2 := by
  unfold copyStep
  cases r with
  | none => exact RelPre.refl _ _ _
  | some b =>
    apply rel_bind RelPre.trans
    · rw [swallow_snd]; exact save_pre _ _ L i wo b w h
    · intro go w1 _
      cases go
      · exact RelPre.refl _ _ _
      · exact hn w1

theorem copyLoop_pre (o : Pt → Fault) (L chunk i fuel k ro wo : Nat) (w : World) (h : L ≤ wo) :
    RelPre L i w ((copyLoop o chunk i fuel k ro wo).run w).2 := by
  induction fuel generalizing k ro wo w with
  | zero => exact RelPre.refl _ _ _
  | succ n ih =>
    unfold copyLoop
    apply rel_bind RelPre.trans
    · rw [copyRead_snd]; exact RelPre.refl _ _ _
    · intro r w1 _
      exact copyStep_pre o L i k wo r _ w1 h (fun w2 => ih _ _ _ w2 (by omega))

theorem copyStep_ge (o : Pt → Fault) (i k wo : Nat) (r : Option Bytes) (next : M Nat) (w w' : World) (x : Nat)
    (hn : ∀ w1 w2 y, next.run w1 = (.ok y, w2) → wo ≤ y) (h : (copyStep o i k wo r next).run w = (.ok x, w')) : wo ≤ x := by
  unfold copyStep at h
  cases r with
  | none => simp at h; omega
  | some b =>
    obtain ⟨go, w1, h1, h2⟩ := bind_ok_inv h
    cases go
    · simp at h2; omega
    · exact hn _ _ _ h2

theorem copyLoop_ge (o : Pt → Fault) (chunk i fuel k ro wo : Nat) (w w' : World) (x : Nat)
    (h : (copyLoop o chunk i fuel k ro wo).run w = (.ok x, w')) : wo ≤ x := by
  induction fuel generalizing k ro wo w w' x with
  | zero => simp [copyLoop] at h
  | succ n ih =>
    unfold copyLoop at h
    obtain ⟨r, w1, h1, h2⟩ := bind_ok_inv h
    exact copyStep_ge o i k wo r _ w1 w' x (fun a b y hy => by
      have := ih _ _ _ _ _ _ hy
      omega) h2

theorem writeContents_pre (o : Pt → Fault) (L i k wo : Nat) (xs : List Content) (w : World) (h : L ≤ wo) :
    RelPre L i w ((writeContents o i k wo xs).run w).2 := by
  induction xs generalizing k wo w with
  | nil => exact RelPre.refl _ _ _
  | cons x xs ih =>
    unfold writeContents
    apply rel_bind RelPre.trans
    · rw [swallow_snd]; exact save_pre _ _ L i wo _ w h
    · intro go w1 _
      cases go
      · exact RelPre.refl _ _ _
      · exact ih _ _ w1 (by omega)

theorem copyOld_pre (cfg : Cfg) (o : Pt → Fault) (c : Ctx) (L i wo : Nat) (w : World) (h : L ≤ wo) :
    RelPre L i w ((copyOld cfg o c i wo).run w).2 := by
  unfold copyOld
  cases c.reference with
  | none => exact RelPre.refl _ _ _
  | some r =>
    apply rel_bind RelPre.trans
    · rw [statSize_snd]; exact RelPre.refl _ _ _
    · intro s w1 _
      rw [copyFrom]
      exact copyLoop_pre _ _ _ _ _ _ _ _ _ h

theorem copyOld_ge (cfg : Cfg) (o : Pt → Fault) (c : Ctx) (i wo : Nat) (w w' : World) (x : Nat)
    (h : (copyOld cfg o c i wo).run w = (.ok x, w')) : wo ≤ x := by
  unfold copyOld at h
  cases hr : c.reference with
  | none => rw [hr] at h; simp at h; omega
  | some r =>
    rw [hr] at h
    obtain ⟨s, w1, h1, h2⟩ := bind_ok_inv h
    rw [copyFrom] at h2
    exact copyLoop_ge _ _ _ _ _ _ _ _ _ _ h2

/-- Whatever fails silently, a destination that was written starts with the new reference. -/
theorem writeDestination_starts (cfg : Cfg) (o : Pt → Fault) (c : Ctx) (r : Reference) (w w' : World) (x : Nat)
    (h : (writeDestination cfg o c r).run w = (.ok x, w')) :
    x = (refData r).length ∧ (o .createDst = .none ∧ o .writeRef = .none) ∧
    w'.fs.dir (cfg.dst c.name) = some (w.fs.createIno (cfg.dst c.name)) ∧
    ∃ d, w'.fs.ino (w.fs.createIno (cfg.dst c.name)) = refData r ++ d := by
  have hrel := writeDestination_rel cfg o c r w
  rw [h] at hrel
  unfold writeDestination at h
  obtain ⟨i, w1, h1, h⟩ := bind_ok_inv h
  injection h1 with h1a h1b
  injection h1a with h1a
  subst h1a h1b
  obtain ⟨u, w2, h2, h⟩ := bind_ok_inv h
  have hq2 := (atomic_ok h2).1
  have h2' := (atomic_ok h2).2
  subst h2'
  obtain ⟨u3, w3, h3, h⟩ := bind_ok_inv h
  have h3' := (writeOp_ok h3).2
  obtain ⟨wo, w4, h4, h⟩ := bind_ok_inv h
  obtain ⟨u5, w5, h5, h⟩ := bind_ok_inv h
  simp only [pure_run, Prod.mk.injEq, Out.ok.injEq] at h
  obtain ⟨hx, hw⟩ := h
  subst hw
  have e3 : w3.fs.ino (w.fs.createIno (cfg.dst c.name)) = refData r := by
    rw [h3']
    simp only [FS.write, upd_self]
    rw [create_ino_self]
    exact writeBytes_nil _
  have hd3 : w3.fs.dir (cfg.dst c.name) = some (w.fs.createIno (cfg.dst c.name)) := by
    rw [h3']; exact create_dir_self _ _
  have r4 := copyOld_rel cfg o c (cfg.dst c.name) (w.fs.createIno (cfg.dst c.name)) (refData r).length w3
  rw [h4] at r4
  have r4 := (r4 hd3).2.1
  have r5 := writeContents_rel o (cfg.dst c.name) (w.fs.createIno (cfg.dst c.name)) 0 wo c.contentList w4
  rw [h5] at r5
  have r5 := (r5 r4).2.1
  have p4 := copyOld_pre cfg o c (refData r).length (w.fs.createIno (cfg.dst c.name)) (refData r).length w3 (Nat.le_refl _)
  rw [h4] at p4
  have p5 := writeContents_pre o (refData r).length (w.fs.createIno (cfg.dst c.name)) 0 wo c.contentList w4
    (copyOld_ge _ _ _ _ _ _ _ _ h4)
  rw [h5] at p5
  have p := (RelPre.trans _ _ _ p4 p5) (by rw [e3])
  rw [e3, List.take_length] at p
  refine ⟨hx.symm, ⟨hq2, (writeOp_ok h3).1⟩, r5, (w5.fs.ino (w.fs.createIno (cfg.dst c.name))).drop (refData r).length, ?_⟩
  have := List.take_append_drop (refData r).length (w5.fs.ino (w.fs.createIno (cfg.dst c.name)))
  rw [p.1] at this
  exact this.symm

/-- When nothing fails silently, a destination that was written holds everything. -/
theorem writeDestination_full {o : Pt → Fault} (ho : NoIgnoredFailure o) (cfg : Cfg) (c : Ctx) (r : Reference)
    (w w' : World) (x : Nat) (hopen : w.conn.isOpen = true) (hlt : w.conn.ino < w.fs.next)
    (h1 : w.fs.dir (cfg.dst c.name) ≠ some w.conn.ino)
    (hoff : c.reference ≠ none → c.dataOffset ≤ (w.fs.ino w.conn.ino).length ∧ (w.fs.ino w.conn.ino).length < 2 ^ 63)
    (h : (writeDestination cfg o c r).run w = (.ok x, w')) :
    CopyEnds cfg c (w.fs.ino w.conn.ino) ∧
    w'.fs.ino (w.fs.createIno (cfg.dst c.name)) = newFile cfg c r (w.fs.ino w.conn.ino) := by
  have hcalm := writeDestination_ok ho cfg c r w w' x h
  have hi := createIno_lt_of_dir hlt h1
  have hends : CopyEnds cfg c (w.fs.ino w.conn.ino) := by
    unfold CopyEnds
    cases hr : c.reference with
    | none => left; rfl
    | some r0 =>
      right
      obtain ⟨hle, hsz⟩ := hoff (by rw [hr]; simp)
      unfold writeDestination at hcalm
      obtain ⟨i, w1, e1, hcalm⟩ := bind_ok_inv hcalm
      injection e1 with e1a e1b
      injection e1a with e1a
      subst e1a e1b
      obtain ⟨u, w2, e2, hcalm⟩ := bind_ok_inv hcalm
      have e2' := (atomic_ok e2).2
      subst e2'
      obtain ⟨u3, w3, e3, hcalm⟩ := bind_ok_inv hcalm
      have e3' := (writeOp_ok e3).2
      obtain ⟨wo, w4, e4, hcalm⟩ := bind_ok_inv hcalm
      have hsrc : w3.fs.ino w3.conn.ino = w.fs.ino w.conn.ino := by
        rw [e3']
        simp only [FS.write]
        rw [upd_ne _ _ hi, create_ino_ne _ hi]
      unfold copyOld at e4
      rw [hr] at e4
      obtain ⟨s, w5, e5, e6⟩ := bind_ok_inv e4
      have hs : s = (w.fs.ino w.conn.ino).length := by
        unfold statSize at e5
        simp only [hsrc] at e5
        split at e5
        · simp at e5; exact e5.1.symm
        · simp at e5
      rw [copyFrom, hs, sub64_eq hle hsz] at e6
      have hpos : makeChunkSize cfg ((w.fs.ino w.conn.ino).length - c.dataOffset) ≠ 0 := by
        intro h0
        rw [h0] at e6
        simp [copyFuel, copyLoop] at e6
      have hle' := makeChunkSize_le cfg ((w.fs.ino w.conn.ino).length - c.dataOffset)
      refine ⟨?_, by omega, hsz⟩
      unfold makeChunkSize at hpos
      split at hpos <;> omega
  refine ⟨hends, ?_⟩
  rw [writeDestination_calm cfg c r w hopen hi hends] at hcalm
  injection hcalm with _ hw
  rw [← hw]
  simp only [setIno_ino]

/-! ### The swap -/

/-- The ways the swap of the files can end. -/
inductive Swapped (cfg : Cfg) (o : Pt → Fault) (n : Name) (j : Nat) (fs : FS) : Out Conn → FS → Prop
  | closing (out : Out Conn) (hs : out.stop) (h : o .closeConn ≠ .none ∨ o .removeSrc ≠ .none) : Swapped cfg o n j fs out fs
  | moving (out : Out Conn) (hs : out.stop) (h : o .rename ≠ .none) (h1 : o .closeConn = .none) (h2 : o .removeSrc = .none) :
      Swapped cfg o n j fs out (fs.remove (cfg.path n))
  | cleaning (out : Out Conn) (hs : out.stop) (h : o .removeBck ≠ .none) (h1 : o .closeConn = .none) (h2 : o .removeSrc = .none)
      (h3 : o .rename = .none) :
      Swapped cfg o n j fs out ((fs.remove (cfg.path n)).rename (cfg.dst n) (cfg.path n))
  | reopening (out : Out Conn) (hs : out.stop) (h : o .reopen ≠ .none) (h1 : o .closeConn = .none) (h2 : o .removeSrc = .none)
      (h3 : o .rename = .none) :
      Swapped cfg o n j fs out (swapped cfg n fs)
  | done (h1 : o .closeConn = .none) (h2 : o .removeSrc = .none) (h3 : o .rename = .none) (h4 : o .removeBck = .none)
      (h5 : o .reopen = .none) : Swapped cfg o n j fs (.ok ⟨j, 0, true⟩) (swapped cfg n fs)

theorem removeOp_cases (f : Fault) (p : Name) (w : World) (h : w.fs.dir p ≠ none) :
    (f = .none ∧ (removeOp f p).run w = (.ok (), ⟨w.fs.remove p, w.conn⟩)) ∨
    (f ≠ .none ∧ ∃ out : Out Unit, out.stop ∧ (removeOp f p).run w = (out, w)) := by
  have hs : (w.fs.dir p).isSome = true := by cases h' : w.fs.dir p <;> simp_all
  unfold removeOp
  simp only [hs, if_true]
  cases f with
  | none => left; exact ⟨rfl, rfl⟩
  | fail k => right; exact ⟨by simp, .err, trivial, rfl⟩
  | crash k => right; exact ⟨by simp, .crash, trivial, rfl⟩

theorem renameOp_cases (f : Fault) (p q : Name) (w : World) (h : w.fs.dir p ≠ none) :
    (f = .none ∧ (renameOp f p q).run w = (.ok (), ⟨w.fs.rename p q, w.conn⟩)) ∨
    (f ≠ .none ∧ ∃ out : Out Unit, out.stop ∧ (renameOp f p q).run w = (out, w)) := by
  have hs : (w.fs.dir p).isSome = true := by cases h' : w.fs.dir p <;> simp_all
  unfold renameOp
  simp only [hs, if_true]
  cases f with
  | none => left; exact ⟨rfl, rfl⟩
  | fail k => right; exact ⟨by simp, .err, trivial, rfl⟩
  | crash k => right; exact ⟨by simp, .crash, trivial, rfl⟩

theorem openOp_cases (f : Fault) (p : Name) (w : World) (i : Nat) (h : w.fs.dir p = some i) :
    (f = .none ∧ (openOp f p).run w = (.ok ⟨i, 0, true⟩, w)) ∨
    (f ≠ .none ∧ ∃ out : Out Conn, out.stop ∧ (openOp f p).run w = (out, w)) := by
  unfold openOp
  simp only [h]
  cases f with
  | none => left; exact ⟨rfl, rfl⟩
  | fail k => right; exact ⟨by simp, .err, trivial, rfl⟩
  | crash k => right; exact ⟨by simp, .crash, trivial, rfl⟩

theorem closeConn_cases (f : Fault) (w : World) (h : w.conn.isOpen = true) :
    (f = .none ∧ (closeConn f).run w = (.ok (), ⟨w.fs, { w.conn with isOpen := false }⟩)) ∨
    (f ≠ .none ∧ ∃ out : Out Unit, out.stop ∧ (closeConn f).run w = (out, ⟨w.fs, { w.conn with isOpen := false }⟩)) := by
  unfold closeConn
  simp only [h, Bool.true_eq_false, if_false]
  cases f with
  | none => left; exact ⟨rfl, rfl⟩
  | fail k => right; exact ⟨by simp, .err, trivial, rfl⟩
  | crash k => right; exact ⟨by simp, .crash, trivial, rfl⟩

theorem stop_cast {α β : Type} {out : Out α} (h : out.stop) : (out.cast : Out β).stop := by
  cases out <;> first | exact h | trivial

theorem swap_any (cfg : Cfg) (o : Pt → Fault) (n : Name) (w : World) (hd : cfg.Distinct n) (hopen : w.conn.isOpen = true)
    (j : Nat) (h1 : w.fs.dir (cfg.path n) ≠ none) (h2 : w.fs.dir (cfg.dst n) = some j) (h3 : w.fs.dir (cfg.bck n) ≠ none) :
    Swapped cfg o n j w.fs ((swap cfg o n).run w).1 ((swap cfg o n).run w).2.fs ∧
    ((swap cfg o n).run w).2.conn.isOpen = false ∧ ((swap cfg o n).run w).2.conn.ino = w.conn.ino := by
  obtain ⟨d1, d2, d3⟩ := hd
  unfold swap
  rcases closeConn_cases (o .closeConn) w hopen with ⟨q1, e⟩ | ⟨hf, out, hs, e⟩
  swap
  · rw [bind_stop e hs]; exact ⟨.closing _ (stop_cast hs) (.inl hf), rfl, rfl⟩
  rw [bind_ok_eq e]
  rcases removeOp_cases (o .removeSrc) (cfg.path n) ⟨w.fs, { w.conn with isOpen := false }⟩ h1 with ⟨q2, e⟩ | ⟨hf, out, hs, e⟩
  swap
  · rw [bind_stop e hs]; exact ⟨.closing _ (stop_cast hs) (.inr hf), rfl, rfl⟩
  rw [bind_ok_eq e]
  have e2 : (w.fs.remove (cfg.path n)).dir (cfg.dst n) = some j := by
    simp only [FS.remove]; rw [upd_ne _ _ (Ne.symm d1)]; exact h2
  rcases renameOp_cases (o .rename) (cfg.dst n) (cfg.path n)
    ⟨w.fs.remove (cfg.path n), { w.conn with isOpen := false }⟩ (by simp only; rw [e2]; simp) with ⟨q3, e⟩ | ⟨hf, out, hs, e⟩
  swap
  · rw [bind_stop e hs]; exact ⟨.moving _ (stop_cast hs) hf q1 q2, rfl, rfl⟩
  rw [bind_ok_eq e]
  have e3 : ((w.fs.remove (cfg.path n)).rename (cfg.dst n) (cfg.path n)).dir (cfg.bck n) ≠ none := by
    simp only [FS.remove, FS.rename]
    rw [upd_ne _ _ (Ne.symm d3), upd_ne _ _ (Ne.symm d2), upd_ne _ _ (Ne.symm d2)]; exact h3
  rcases removeOp_cases (o .removeBck) (cfg.bck n)
    ⟨(w.fs.remove (cfg.path n)).rename (cfg.dst n) (cfg.path n), { w.conn with isOpen := false }⟩ e3 with ⟨q4, e⟩ | ⟨hf, out, hs, e⟩
  swap
  · rw [bind_stop e hs]; exact ⟨.cleaning _ (stop_cast hs) hf q1 q2 q3, rfl, rfl⟩
  rw [bind_ok_eq e]
  rcases openOp_cases (o .reopen) (cfg.path n) ⟨swapped cfg n w.fs, { w.conn with isOpen := false }⟩ j (by
    simp only
    rw [swapped_dir cfg n w.fs ⟨d1, d2, d3⟩]
    simp [h2]) with ⟨q5, e⟩ | ⟨hf, out, hs, e⟩
  · exact e ▸ ⟨.done q1 q2 q3 q4 q5, rfl, rfl⟩
  · exact e ▸ ⟨.reopening _ hs hf q1 q2 q3, rfl, rfl⟩

/-! ### The whole commit -/

/-- The paths a commit of `n` uses. -/
def Own (cfg : Cfg) (n p : Name) : Prop := p = cfg.path n ∨ p = cfg.dst n ∨ p = cfg.bck n

/-- The paths a commit of `n` overwrites in place. -/
def Scratch (cfg : Cfg) (n p : Name) : Prop := p = cfg.dst n ∨ p = cfg.bck n

/-- What is known of the bytes a commit wrote: the new reference, and all data unless an operation failed silently. -/
def Wrote (cfg : Cfg) (o : Pt → Fault) (c : Ctx) (r : Reference) (old x : Bytes) : Prop :=
  (∃ d, x = refData r ++ d) ∧
  (NoIgnoredFailure o → (c.reference ≠ none → c.dataOffset ≤ old.length ∧ old.length < 2 ^ 63) →
    CopyEnds cfg c old ∧ x = newFile cfg c r old)

/-- Every operation up to the removal of the old file worked, as far as the code looks. -/
structure Early (o : Pt → Fault) : Prop where
  tryLock : o .tryLock = .none
  createDst : o .createDst = .none
  writeRef : o .writeRef = .none
  createBck : o .createBck = .none
  copyBck : o .copyBck = .none
  closeBck : o .closeBck = .none
  closeConn : o .closeConn = .none
  removeSrc : o .removeSrc = .none

/-- Where a commit can leave the file of the database. -/
inductive Place (cfg : Cfg) (o : Pt → Fault) (c : Ctx) (r : Reference) (fs : FS) : Out (Conn × Nat) → World → Prop
  /-- Still the old one (the lock creates an empty file when there was none). -/
  | old (out : Out (Conn × Nat)) (w : World) (hs : out.stop)
      (dir : w.fs.dir (cfg.path c.name) = fs.dir (cfg.path c.name) ∨
        (fs.dir (cfg.path c.name) = none ∧ ∃ i, fs.next ≤ i ∧ w.fs.dir (cfg.path c.name) = some i ∧ w.fs.ino i = []))
      (conn : w.conn.isOpen = c.conn.isOpen ∨
        (w.conn.isOpen = false ∧ (o .closeConn ≠ .none ∨ o .removeSrc ≠ .none))) : Place cfg o c r fs out w
  /-- Removed; the new one is still under the temporary name. -/
  | gone (out : Out (Conn × Nat)) (w : World) (x : Bytes) (hs : out.stop) (dir : w.fs.dir (cfg.path c.name) = none)
      (dst : w.fs.file (cfg.dst c.name) = some x) (hx : Wrote cfg o c r (fs.ino c.conn.ino) x)
      (conn : w.conn.isOpen = false) (wasOpen : c.conn.isOpen = true) (h : o .rename ≠ .none) (early : Early o) :
      Place cfg o c r fs out w
  /-- The new one, but the commit did not succeed. -/
  | late (out : Out (Conn × Nat)) (w : World) (j : Nat) (hs : out.stop) (dir : w.fs.dir (cfg.path c.name) = some j)
      (fresh : fs.next ≤ j ∨ fs.dir (cfg.dst c.name) = some j) (hx : Wrote cfg o c r (fs.ino c.conn.ino) (w.fs.ino j))
      (conn : w.conn.isOpen = false) (wasOpen : c.conn.isOpen = true) (h : o .removeBck ≠ .none ∨ o .reopen ≠ .none)
      (early : Early o) :
      Place cfg o c r fs out w
  /-- The new one, and the commit succeeded. -/
  | new (w : World) (j : Nat) (dir : w.fs.dir (cfg.path c.name) = some j)
      (fresh : fs.next ≤ j ∨ fs.dir (cfg.dst c.name) = some j) (hx : Wrote cfg o c r (fs.ino c.conn.ino) (w.fs.ino j))
      (dst : w.fs.dir (cfg.dst c.name) = none) (bck : w.fs.dir (cfg.bck c.name) = none)
      (wasOpen : c.conn.isOpen = true) (early : Early o)
      (late : o .rename = .none ∧ o .removeBck = .none ∧ o .reopen = .none) : Place cfg o c r fs (.ok (⟨j, 0, true⟩, (refData r).length)) w

/-- A backup that succeeded was made from an open file, and exists. -/
theorem backup_ok (cfg : Cfg) (o : Pt → Fault) (n : Name) (w w' : World) (u : Unit)
    (h : (backup cfg o n).run w = (.ok u, w')) : w.conn.isOpen = true ∧ w'.fs.dir (cfg.bck n) ≠ none ∧
      (o .createBck = .none ∧ o .copyBck = .none ∧ o .closeBck = .none) := by
  unfold backup at h
  obtain ⟨i, w1, h1, h⟩ := bind_ok_inv h
  injection h1 with h1a h1b
  injection h1a with h1a
  subst h1a h1b
  obtain ⟨u2, w2, h2, h⟩ := bind_ok_inv h
  have hq2 := (atomic_ok h2).1
  have h2' := (atomic_ok h2).2
  subst h2'
  obtain ⟨u3, w3, h3, h⟩ := bind_ok_inv h
  have hopen : w.conn.isOpen = true := by
    unfold copyBackup at h3
    by_contra hne
    rw [Bool.not_eq_true] at hne
    simp [hne] at h3
  have hq3 : o .copyBck = .none := by
    unfold copyBackup at h3
    simp only [hopen, Bool.true_eq_false, if_false, attempt] at h3
    cases hf : o .copyBck <;> rw [hf] at h3 <;> simp_all
  refine ⟨hopen, ?_, hq2, hq3, (atomic_ok h).1⟩
  have r3 := copyBackup_rel (o .copyBck) (cfg.bck n) (w.fs.createIno (cfg.bck n)) ⟨w.fs.create (cfg.bck n), w.conn⟩
  rw [h3] at r3
  have r3 := (r3 (create_dir_self _ _)).2.1
  have h4 := (atomic_ok h).2
  rw [h4, id, r3]
  simp

theorem updateDatabase_any (cfg : Cfg) (o : Pt → Fault) (c : Ctx) (r : Reference) (fs : FS) (hg : FsGood fs)
    (hd : cfg.Distinct c.name) (hlt : c.conn.ino < fs.next) (hdst : fs.dir (cfg.dst c.name) ≠ some c.conn.ino) :
    Touches (Own cfg c.name) (Scratch cfg c.name) fs ((updateDatabaseOnFile cfg o c r).run ⟨fs, c.conn⟩).2.fs ∧
    ((updateDatabaseOnFile cfg o c r).run ⟨fs, c.conn⟩).2.conn.ino = c.conn.ino ∧
    Place cfg o c r fs ((updateDatabaseOnFile cfg o c r).run ⟨fs, c.conn⟩).1
      ((updateDatabaseOnFile cfg o c r).run ⟨fs, c.conn⟩).2 := by
  obtain ⟨d1, d2, d3⟩ := hd
  unfold updateDatabaseOnFile
  cases htl : o .tryLock with
  | fail k => exact ⟨Touches.refl _ _ _, rfl, .old _ _ trivial (.inl rfl) (.inl rfl)⟩
  | crash k => exact ⟨Touches.refl _ _ _, rfl, .old _ _ trivial (.inl rfl) (.inl rfl)⟩
  | none =>
  rw [bind_ok_eq (atomic_none _ _)]
  have t1 : Touches (Own cfg c.name) (Scratch cfg c.name) fs (fs.touch (cfg.path c.name)) :=
    touch_touches fs _ _ _ (.inl rfl) (by rintro (h | h); exacts [d1 h, d2 h])
  have hg1 := touch_good hg (cfg.path c.name)
  have hlt1 : c.conn.ino < (fs.touch (cfg.path c.name)).next := Nat.lt_of_lt_of_le hlt (touch_next _ _)
  have hdst1 : (fs.touch (cfg.path c.name)).dir (cfg.dst c.name) = fs.dir (cfg.dst c.name) := touch_dir_ne _ (Ne.symm d1)
  have hsrc1 : (fs.touch (cfg.path c.name)).ino c.conn.ino = fs.ino c.conn.ino := touch_ino_lt _ _ hlt
  have hpath1 := touch_dir_self fs (cfg.path c.name)
  have hnext1 := touch_next fs (cfg.path c.name)
  have hold1 : (fs.touch (cfg.path c.name)).dir (cfg.path c.name) = fs.dir (cfg.path c.name) ∨
      (fs.dir (cfg.path c.name) = none ∧ ∃ i, fs.next ≤ i ∧ (fs.touch (cfg.path c.name)).dir (cfg.path c.name) = some i ∧
        (fs.touch (cfg.path c.name)).ino i = []) := by
    unfold FS.touch
    cases h : fs.dir (cfg.path c.name) with
    | some i => left; exact h
    | none =>
      right
      refine ⟨rfl, _, ?_, create_dir_self _ _, create_ino_self _ _⟩
      simp [FS.createIno, h]
  generalize fs.touch (cfg.path c.name) = F1 at *
  -- the old file is still there as long as only the scratch files are touched
  have keep : ∀ F : FS, Touches (Scratch cfg c.name) (Scratch cfg c.name) F1 F →
      F.dir (cfg.path c.name) = fs.dir (cfg.path c.name) ∨
        (fs.dir (cfg.path c.name) = none ∧ ∃ i, fs.next ≤ i ∧ F.dir (cfg.path c.name) = some i ∧ F.ino i = []) := by
    intro F tF
    have hA : ¬ Scratch cfg c.name (cfg.path c.name) := by rintro (h | h); exacts [d1 h, d2 h]
    have hdir := tF.dir _ hA
    rcases hold1 with h | ⟨h, i, hn, hi, he⟩
    · left; rw [hdir, h]
    · right
      refine ⟨h, i, hn, by rw [hdir, hi], ?_⟩
      rw [tF.ino i (hg1.1 _ _ hi), he]
      rintro q hq hd
      exact hA (hg1.2 _ _ i hi hd ▸ hq)
  have toOwn : ∀ F : FS, Touches (Scratch cfg c.name) (Scratch cfg c.name) F1 F →
      Touches (Own cfg c.name) (Scratch cfg c.name) fs F := fun F tF =>
    t1.trans (tF.mono (fun p hp => .inr hp) (fun p hp => hp) (fun p hp hn => absurd hp hn))
  -- the destination
  have t2 := writeDestination_rel cfg o c r ⟨F1, c.conn⟩
  rcases hw : (writeDestination cfg o c r).run ⟨F1, c.conn⟩ with ⟨out2, w2⟩
  rw [hw] at t2
  obtain ⟨t2, c2⟩ := t2
  have t2' : Touches (Scratch cfg c.name) (Scratch cfg c.name) F1 w2.fs :=
    t2.mono (fun p hp => .inl hp) (fun p hp => .inl hp) (fun p hp hn => by
      rcases hp with hp | hp
      · exact absurd hp hn
      · exact t2.dir p hn)
  by_cases hs2 : out2.stop
  · rw [bind_stop hw hs2]
    exact ⟨toOwn _ t2', by rw [c2], .old _ _ (stop_cast hs2) (keep _ t2') (.inl (by rw [c2]))⟩
  obtain ⟨x, rfl⟩ : ∃ x, out2 = .ok x := by cases out2 <;> first | exact ⟨_, rfl⟩ | exact absurd trivial hs2
  rw [bind_ok_eq hw]
  obtain ⟨hxe, ⟨q2, q3⟩, hj2, d, hcont⟩ := writeDestination_starts cfg o c r _ _ _ hw
  have hfull : NoIgnoredFailure o → c.conn.isOpen = true →
      (c.reference ≠ none → c.dataOffset ≤ (fs.ino c.conn.ino).length ∧ (fs.ino c.conn.ino).length < 2 ^ 63) →
      CopyEnds cfg c (fs.ino c.conn.ino) ∧
        w2.fs.ino (F1.createIno (cfg.dst c.name)) = newFile cfg c r (fs.ino c.conn.ino) := by
    intro ho hopen hoff
    have := writeDestination_full ho cfg c r ⟨F1, c.conn⟩ w2 x hopen hlt1 (by simp only; rw [hdst1]; exact hdst)
      (by simp only; rw [hsrc1]; exact hoff) hw
    simp only [hsrc1] at this
    exact this
  have hfresh : fs.next ≤ F1.createIno (cfg.dst c.name) ∨ fs.dir (cfg.dst c.name) = some (F1.createIno (cfg.dst c.name)) := by
    rw [← hdst1]
    unfold FS.createIno
    cases h : F1.dir (cfg.dst c.name) with
    | none => left; exact hnext1
    | some i => right; rfl
  simp only at hj2 hcont
  generalize F1.createIno (cfg.dst c.name) = j at *
  have hg2 : FsGood w2.fs := t2'.good hg1
  -- the backup
  have t3 := backup_rel cfg o c.name w2
  rcases hb : (backup cfg o c.name).run w2 with ⟨out3, w3⟩
  rw [hb] at t3
  obtain ⟨t3, c3, o3⟩ := t3
  have t3' : Touches (Scratch cfg c.name) (Scratch cfg c.name) F1 w3.fs :=
    t2'.trans (t3.mono (fun p hp => .inr hp) (fun p hp => .inr hp) (fun p hp hn => by
      rcases hp with hp | hp
      · exact t3.dir p hn
      · exact absurd hp hn))
  simp only at c3 o3
  have c3' : w3.conn.ino = c.conn.ino := by rw [c3, c2]
  have o3' : w3.conn.isOpen = c.conn.isOpen := by rw [o3, c2]
  by_cases hs3 : out3.stop
  · rw [bind_stop hb hs3]
    exact ⟨toOwn _ t3', c3', .old _ _ (stop_cast hs3) (keep _ t3') (.inl o3')⟩
  obtain ⟨u, rfl⟩ : ∃ x, out3 = .ok x := by cases out3 <;> first | exact ⟨_, rfl⟩ | exact absurd trivial hs3
  rw [bind_ok_eq hb]
  obtain ⟨hopen2, hbck, q4, q5, q6⟩ := backup_ok cfg o c.name w2 w3 u hb
  have hopen : c.conn.isOpen = true := by rw [← o3', o3]; exact hopen2
  have hpath3 : w3.fs.dir (cfg.path c.name) ≠ none := by
    rw [t3'.dir _ (by rintro (h | h); exacts [d1 h, d2 h])]
    exact hpath1
  have hdst3 : w3.fs.dir (cfg.dst c.name) = some j := by rw [t3.dir _ d3]; exact hj2
  have hcont3 : w3.fs.ino j = w2.fs.ino j := by
    apply t3.ino j (hg2.1 _ _ hj2)
    rintro p rfl he
    exact d3 (hg2.2 _ _ j hj2 he)
  have hwrote : Wrote cfg o c r (fs.ino c.conn.ino) (w3.fs.ino j) := by
    rw [hcont3]
    exact ⟨⟨d, hcont⟩, fun ho hoff => hfull ho hopen hoff⟩
  have hg3 : FsGood w3.fs := t3'.good hg1
  -- the swap
  have tS := toOwn _ t3'
  obtain ⟨hsw, hcl, hci⟩ := swap_any cfg o c.name w3 ⟨d1, d2, d3⟩ (by rw [o3']; exact hopen) j hpath3 hdst3 hbck
  rcases hr : (swap cfg o c.name).run w3 with ⟨out4, w4⟩
  rw [hr] at hsw hcl hci
  simp only at hsw hcl hci
  have hci' : w4.conn.ino = c.conn.ino := by rw [hci, c3']
  have tr : Touches (Own cfg c.name) (Scratch cfg c.name) fs (w3.fs.remove (cfg.path c.name)) :=
    tS.trans (remove_touches _ _ _ _ (.inl rfl))
  have tn : Touches (Own cfg c.name) (Scratch cfg c.name) fs
      ((w3.fs.remove (cfg.path c.name)).rename (cfg.dst c.name) (cfg.path c.name)) :=
    tr.trans (rename_touches _ _ _ _ _ (.inr (.inl rfl)) (.inl rfl) (Ne.symm d1) (by rintro (h | h); exacts [d1 h, d2 h]))
  have ts : Touches (Own cfg c.name) (Scratch cfg c.name) fs (swapped cfg c.name w3.fs) :=
    tn.trans (remove_touches _ _ _ _ (.inr (.inr rfl)))
  have hsd := swapped_dir cfg c.name w3.fs ⟨d1, d2, d3⟩
  by_cases hs4 : out4.stop
  · rw [bind_stop hr hs4]
    simp only
    generalize hF : w4.fs = F at *
    cases hsw with
    | closing _ _ h =>
      exact ⟨hF ▸ tS, hci', .old _ _ (stop_cast hs4) (hF ▸ keep _ t3') (.inr ⟨hcl, h⟩)⟩
    | moving _ _ h q7 q8 =>
      refine ⟨hF ▸ tr, hci', .gone _ _ (w3.fs.ino j) (stop_cast hs4) ?_ ?_ hwrote hcl hopen h ⟨htl, q2, q3, q4, q5, q6, q7, q8⟩⟩
      · rw [hF]; simp [FS.remove, upd]
      · rw [hF]; simp only [FS.file, FS.remove]; rw [upd_ne _ _ (Ne.symm d1), hdst3]; rfl
    | cleaning _ _ h q7 q8 _ =>
      refine ⟨hF ▸ tn, hci', .late _ _ j (stop_cast hs4) ?_ hfresh ?_ hcl hopen (.inl h)
        ⟨htl, q2, q3, q4, q5, q6, q7, q8⟩⟩
      · rw [hF]; simp only [FS.rename, FS.remove]
        rw [upd_ne _ _ d1, upd_self, upd_ne _ _ (Ne.symm d1), hdst3]
      · rw [hF]; exact hwrote
    | reopening _ _ h q7 q8 _ =>
      refine ⟨hF ▸ ts, hci', .late _ _ j (stop_cast hs4) ?_ hfresh ?_ hcl hopen (.inr h)
        ⟨htl, q2, q3, q4, q5, q6, q7, q8⟩⟩
      · rw [hF, hsd]; simp [hdst3]
      · rw [hF]; exact hwrote
    | done => exact absurd hs4 (by simp [Out.stop])
  · cases hsw' : out4 with
    | ok conn =>
      rw [hsw'] at hr hsw
      rw [bind_ok_eq hr]
      simp only [pure_run]
      generalize hF : w4.fs = F at *
      cases hsw with
      | closing _ hs _ => exact absurd hs (by simp [Out.stop])
      | moving _ hs _ _ _ => exact absurd hs (by simp [Out.stop])
      | cleaning _ hs _ _ _ _ => exact absurd hs (by simp [Out.stop])
      | reopening _ hs _ _ _ _ => exact absurd hs (by simp [Out.stop])
      | done q7 q8 q9 q10 q11 =>
        refine ⟨hF ▸ ts, hci', ?_⟩
        rw [hxe]
        refine .new _ j ?_ hfresh ?_ ?_ ?_ hopen ⟨htl, q2, q3, q4, q5, q6, q7, q8⟩ ⟨q9, q10, q11⟩
        · rw [hF, hsd]; simp [hdst3]
        · rw [hF]; exact hwrote
        · rw [hF, hsd]; simp [Ne.symm d1]
        · rw [hF, hsd]; simp [Ne.symm d2]
    | err => rw [hsw'] at hs4; exact absurd trivial hs4
    | panic => rw [hsw'] at hs4; exact absurd trivial hs4
    | crash => rw [hsw'] at hs4; exact absurd trivial hs4
    | hang => rw [hsw'] at hs4; exact absurd trivial hs4

end DB
end Rodkina
