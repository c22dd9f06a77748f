import Verif.Database
import Verif.ReferencesLemmas
import Verif.HashTreeProps
import Mathlib.Data.List.Forall2
/-! Helper lemmas for the file database: file system frames, sequencing, faults. -/

namespace Rodkina
namespace DB

open Ref

/-! ### Sequencing -/

theorem bind_def {α β : Type} (x : M α) (f : α → M β) (w : World) :
    (x >>= f).run w = match x.run w with
      | (.ok a, w') => (f a).run w'
      | (.err, w') => (.err, w')
      | (.panic, w') => (.panic, w')
      | (.crash, w') => (.crash, w')
      | (.hang, w') => (.hang, w') := rfl

@[simp] theorem pure_run {α : Type} (a : α) (w : World) : (pure a : M α).run w = (.ok a, w) := rfl

theorem bind_ok_eq {α β : Type} {x : M α} {f : α → M β} {w w' : World} {a : α} (h : x.run w = (.ok a, w')) :
    (x >>= f).run w = (f a).run w' := by rw [bind_def, h]

/-- An outcome that is not a value. -/
def Out.stop {α : Type} : Out α → Prop
  | .ok _ => False
  | _ => True

/-- The same outcome at another type. -/
def Out.cast {α β : Type} : Out α → Out β
  | .ok _ => .err
  | .err => .err
  | .panic => .panic
  | .crash => .crash
  | .hang => .hang

theorem bind_stop {α β : Type} {x : M α} {f : α → M β} {w w' : World} {out : Out α} (h : x.run w = (out, w'))
    (hs : out.stop) : (x >>= f).run w = (out.cast, w') := by
  rw [bind_def, h]
  cases out <;> first | rfl | exact absurd hs (by simp [Out.stop])

/-- A successful sequence splits. -/
theorem bind_ok_inv {α β : Type} {x : M α} {f : α → M β} {w w' : World} {b : β} (h : (x >>= f).run w = (.ok b, w')) :
    ∃ a w1, x.run w = (.ok a, w1) ∧ (f a).run w1 = (.ok b, w') := by
  rw [bind_def] at h
  rcases hx : x.run w with ⟨out, w1⟩
  rw [hx] at h
  cases out <;> simp at h
  exact ⟨_, _, rfl, h⟩

/-- A property of the final world of a sequence: it either stops in the first part or runs the second. -/
theorem bind_world {α β : Type} (P : World → Prop) {x : M α} {f : α → M β} {w : World}
    (hstop : ∀ out w1, x.run w = (out, w1) → out.stop → P w1)
    (hrun : ∀ a w1, x.run w = (.ok a, w1) → P ((f a).run w1).2) : P ((x >>= f).run w).2 := by
  rw [bind_def]
  rcases h : x.run w with ⟨out, w1⟩
  cases out with
  | ok a => exact hrun a w1 h
  | err => exact hstop _ w1 h trivial
  | panic => exact hstop _ w1 h trivial
  | crash => exact hstop _ w1 h trivial
  | hang => exact hstop _ w1 h trivial

/-- A relation kept by every outcome of a sequence. -/
theorem rel_bind {α β : Type} {R : World → World → Prop} (htr : ∀ a b c, R a b → R b c → R a c) {x : M α}
    {f : α → M β} {w : World} (hx : R w (x.run w).2) (hf : ∀ a w1, x.run w = (.ok a, w1) → R w1 ((f a).run w1).2) :
    R w ((x >>= f).run w).2 := by
  apply bind_world (R w)
  · intro out w1 h _; rw [h] at hx; exact hx
  · intro a w1 h; rw [h] at hx; exact htr _ _ _ hx (hf a w1 h)

/-! ### File system frames -/

/-- Names of inodes are below `next` and no two paths share an inode. -/
def FsGood (fs : FS) : Prop :=
  (∀ p i, fs.dir p = some i → i < fs.next) ∧ (∀ p q i, fs.dir p = some i → fs.dir q = some i → p = q)

/-- Only directory entries in `A` change, and only inodes that are new or named by a path in `W` are written. -/
structure Touches (A W : Name → Prop) (fs fs' : FS) : Prop where
  next : fs.next ≤ fs'.next
  dir : ∀ p, ¬ A p → fs'.dir p = fs.dir p
  ino : ∀ i, i < fs.next → (∀ p, W p → fs.dir p ≠ some i) → fs'.ino i = fs.ino i
  src : ∀ p, W p → ∀ j, fs'.dir p = some j → (∃ q, W q ∧ fs.dir q = some j) ∨ fs.next ≤ j
  good : FsGood fs → FsGood fs'

theorem Touches.refl (A W : Name → Prop) (fs : FS) : Touches A W fs fs :=
  ⟨Nat.le_refl _, fun _ _ => rfl, fun _ _ _ => rfl, fun p hp _ h => .inl ⟨p, hp, h⟩, id⟩

theorem Touches.trans {A W : Name → Prop} {a b c : FS} (h1 : Touches A W a b) (h2 : Touches A W b c) :
    Touches A W a c := by
  refine ⟨Nat.le_trans h1.next h2.next, fun p hp => (h2.dir p hp).trans (h1.dir p hp), ?_, ?_,
    fun g => h2.good (h1.good g)⟩
  · intro i hi hW
    rw [h2.ino i (Nat.lt_of_lt_of_le hi h1.next), h1.ino i hi hW]
    intro p hp he
    rcases h1.src p hp i he with ⟨q, hq, hd⟩ | hlt
    · exact hW q hq hd
    · omega
  · intro p hp i he
    rcases h2.src p hp i he with ⟨q, hq, hd⟩ | hlt
    · exact h1.src q hq i hd
    · exact .inr (Nat.le_trans h1.next hlt)

theorem Touches.mono {A W A' W' : Name → Prop} {a b : FS} (h : Touches A W a b) (hA : ∀ p, A p → A' p)
    (hW : ∀ p, W p → W' p) (hd : ∀ p, W' p → ¬ W p → b.dir p = a.dir p) : Touches A' W' a b := by
  refine ⟨h.next, fun p hp => h.dir p (fun hp' => hp (hA p hp')), fun i hi hi' => h.ino i hi (fun p hp => hi' p (hW p hp)),
    ?_, h.good⟩
  intro p hp i he
  by_cases hw : W p
  · rcases h.src p hw i he with ⟨q, hq, hd⟩ | hlt
    · exact .inl ⟨q, hW q hq, hd⟩
    · exact .inr hlt
  · rw [hd p hp hw] at he
    exact .inl ⟨p, hp, he⟩

theorem upd_self {α β : Type} [DecidableEq α] (f : α → β) (a : α) (b : β) : upd f a b a = b := by simp [upd]
theorem upd_ne {α β : Type} [DecidableEq α] (f : α → β) {a x : α} (b : β) (h : x ≠ a) : upd f a b x = f x := by
  simp [upd, h]

theorem create_dir_self (fs : FS) (p : Name) : (fs.create p).dir p = some (fs.createIno p) := by
  unfold FS.create FS.createIno
  cases h : fs.dir p <;> simp [upd, h]

theorem create_dir_ne (fs : FS) {p q : Name} (h : q ≠ p) : (fs.create p).dir q = fs.dir q := by
  unfold FS.create
  cases h' : fs.dir p <;> simp [upd, h]

theorem create_ino_self (fs : FS) (p : Name) : (fs.create p).ino (fs.createIno p) = [] := by
  unfold FS.create FS.createIno
  cases h' : fs.dir p <;> simp [upd]

theorem create_good {fs : FS} (h : FsGood fs) (p : Name) : FsGood (fs.create p) := by
  unfold FS.create
  cases h' : fs.dir p with
  | some i => exact ⟨fun q j hq => h.1 q j hq, fun q q' j hq hq' => h.2 q q' j hq hq'⟩
  | none =>
    constructor
    · intro q j hq
      simp only [upd] at hq
      split at hq
      · injection hq with hq; simp [← hq]
      · have := h.1 q j hq; simp; omega
    · intro q q' j hq hq'
      simp only [upd] at hq hq'
      split at hq <;> split at hq'
      · simp_all
      · injection hq with hq
        have := h.1 q' j hq'
        omega
      · injection hq' with hq'
        have := h.1 q j hq
        omega
      · exact h.2 q q' j hq hq'

theorem create_touches (fs : FS) (p : Name) (A W : Name → Prop) (hA : A p) (hW : W p) : Touches A W fs (fs.create p) := by
  refine ⟨?_, ?_, ?_, ?_, fun g => create_good g p⟩
  · unfold FS.create; cases fs.dir p <;> simp
  · intro q hq
    exact create_dir_ne fs (by rintro rfl; exact hq hA)
  · intro i hi hw
    have := hw p hW
    unfold FS.create
    cases h : fs.dir p with
    | some j => simp only; rw [upd_ne]; intro e; subst e; exact this h
    | none => simp only; rw [upd_ne]; omega
  · intro q hq i he
    by_cases e : q = p
    · subst e
      rw [create_dir_self] at he
      injection he with he
      unfold FS.createIno at he
      cases h : fs.dir q with
      | some j => rw [h] at he; exact .inl ⟨q, hq, by rw [h]; simpa using he⟩
      | none => rw [h] at he; right; simp at he; omega
    · rw [create_dir_ne fs e] at he
      exact .inl ⟨q, hq, he⟩

theorem touch_touches (fs : FS) (p : Name) (A W : Name → Prop) (hA : A p) (hW : ¬ W p) : Touches A W fs (fs.touch p) := by
  unfold FS.touch
  cases h : fs.dir p with
  | some j => exact Touches.refl A W fs
  | none =>
    refine ⟨?_, ?_, ?_, ?_, fun g => create_good g p⟩
    · unfold FS.create; simp [h]
    · intro q hq
      exact create_dir_ne fs (by rintro rfl; exact hq hA)
    · intro i hi _
      unfold FS.create
      simp only [h]
      rw [upd_ne]; omega
    · intro q hq i he
      rw [create_dir_ne fs (by rintro rfl; exact hW hq)] at he
      exact .inl ⟨q, hq, he⟩

theorem write_touches (fs : FS) (i off : Nat) (bs : Bytes) (p : Name) (A W : Name → Prop) (hp : fs.dir p = some i)
    (hW : W p) : Touches A W fs (fs.write i off bs) := by
  refine ⟨Nat.le_refl _, fun _ _ => rfl, ?_, fun q hq j h => .inl ⟨q, hq, h⟩, fun g => g⟩
  intro j hj hw
  simp only [FS.write]
  rw [upd_ne]
  rintro rfl
  exact hw p hW hp

theorem remove_touches (fs : FS) (p : Name) (A W : Name → Prop) (hA : A p) : Touches A W fs (fs.remove p) := by
  refine ⟨Nat.le_refl _, ?_, fun _ _ _ => rfl, ?_, ?_⟩
  · intro q hq
    simp only [FS.remove]
    rw [upd_ne]
    rintro rfl; exact hq hA
  · intro q hq i he
    simp only [FS.remove, upd] at he
    split at he
    · cases he
    · exact .inl ⟨q, hq, he⟩
  · intro g
    constructor
    · intro q i he
      simp only [FS.remove, upd] at he
      split at he
      · cases he
      · exact g.1 q i he
    · intro q q' i he he'
      simp only [FS.remove, upd] at he he'
      split at he
      · cases he
      split at he'
      · cases he'
      exact g.2 q q' i he he'

theorem rename_touches (fs : FS) (p q : Name) (A W : Name → Prop) (hp : A p) (hq : A q) (hne : p ≠ q) (hW : ¬ W q) :
    Touches A W fs (fs.rename p q) := by
  refine ⟨Nat.le_refl _, ?_, fun _ _ _ => rfl, ?_, ?_⟩
  · intro x hx
    simp only [FS.rename]
    rw [upd_ne _ _ (by rintro rfl; exact hx hp), upd_ne _ _ (by rintro rfl; exact hx hq)]
  · intro x hx i he
    simp only [FS.rename, upd] at he
    split at he
    · cases he
    split at he
    · rename_i e; subst e; exact absurd hx hW
    exact .inl ⟨x, hx, he⟩
  · intro g
    have key : ∀ x i, (fs.rename p q).dir x = some i → (x = q ∧ fs.dir p = some i) ∨ (x ≠ p ∧ x ≠ q ∧ fs.dir x = some i) := by
      intro x i he
      simp only [FS.rename, upd] at he
      split at he
      · cases he
      split at he
      · exact .inl ⟨‹_›, he⟩
      · exact .inr ⟨‹_›, ‹_›, he⟩
    constructor
    · intro x i he
      rcases key x i he with ⟨_, h⟩ | ⟨_, _, h⟩ <;> exact g.1 _ i h
    · intro x y i hx hy
      rcases key x i hx with ⟨rfl, h⟩ | ⟨h1, h2, h⟩ <;> rcases key y i hy with ⟨rfl, h'⟩ | ⟨h1', h2', h'⟩
      · rfl
      · exact absurd (g.2 _ _ i h h').symm h1'
      · exact absurd (g.2 _ _ i h h') h1
      · exact g.2 _ _ i h h'

/-- A file whose path is not changed and not written keeps its bytes. -/
theorem Touches.file {A W : Name → Prop} {a b : FS} (h : Touches A W a b) (g : FsGood a) (p : Name) (hA : ¬ A p)
    (hW : ∀ q, W q → q ≠ p) : b.file p = a.file p := by
  unfold FS.file
  rw [h.dir p hA]
  cases hd : a.dir p with
  | none => rfl
  | some i =>
    simp only [Option.map_some, Option.some.injEq]
    apply h.ino i (g.1 p i hd)
    intro q hq he
    exact hW q hq (g.2 _ _ i he hd)

theorem writeBytes_end (c bs : Bytes) : writeBytes c c.length bs = c ++ bs := by
  simp [writeBytes]

theorem writeBytes_nil (bs : Bytes) : writeBytes [] 0 bs = bs := by
  simp [writeBytes]

/-! ### The operations of a commit keep frames -/

/-- The files change as `Touches` says, and the handle stays on its inode. -/
def Rel (A W : Name → Prop) (w w' : World) : Prop := Touches A W w.fs w'.fs ∧ w'.conn.ino = w.conn.ino

theorem Rel.trans {A W : Name → Prop} (a b c : World) (h1 : Rel A W a b) (h2 : Rel A W b c) : Rel A W a c :=
  ⟨h1.1.trans h2.1, h2.2.trans h1.2⟩

theorem Rel.refl (A W : Name → Prop) (w : World) : Rel A W w w := ⟨Touches.refl A W w.fs, rfl⟩

/-- `Rel` together with: the path `p` keeps naming the inode `i`, and the handle is unchanged. -/
def RelAt (p : Name) (i : Nat) (w w' : World) : Prop :=
  w.fs.dir p = some i → Touches (· = p) (· = p) w.fs w'.fs ∧ w'.fs.dir p = some i ∧ w'.conn = w.conn

theorem RelAt.trans {p : Name} {i : Nat} (a b c : World) (h1 : RelAt p i a b) (h2 : RelAt p i b c) : RelAt p i a c := by
  intro h
  obtain ⟨t1, d1, c1⟩ := h1 h
  obtain ⟨t2, d2, c2⟩ := h2 d1
  exact ⟨t1.trans t2, d2, c2.trans c1⟩

theorem RelAt.refl (p : Name) (i : Nat) (w : World) : RelAt p i w w := fun h => ⟨Touches.refl _ _ _, h, rfl⟩

theorem attempt_rel {R : World → World → Prop} (f : Fault) (full : World → World) (part : Nat → World → World) (w : World)
    (h1 : R w (full w)) (h2 : ∀ k, R w (part k w)) : R w ((attempt f full part).run w).2 := by
  cases f with
  | none => exact h1
  | fail k => exact h2 k
  | crash k => exact h2 k

theorem atomic_rel {R : World → World → Prop} (f : Fault) (full : World → World) (w : World)
    (h1 : R w (full w)) (h2 : R w w) : R w ((atomic f full).run w).2 := attempt_rel f full _ w h1 (fun _ => h2)

theorem writeOp_rel (f : Fault) (p : Name) (i off : Nat) (bs : Bytes) (w : World) :
    RelAt p i w ((writeOp f i off bs).run w).2 := by
  apply attempt_rel (R := RelAt p i)
  · intro h; exact ⟨write_touches _ _ _ _ p _ _ h rfl, h, rfl⟩
  · intro k h; exact ⟨write_touches _ _ _ _ p _ _ h rfl, h, rfl⟩

theorem save_rel (f g : Fault) (p : Name) (i off : Nat) (bs : Bytes) (w : World) :
    RelAt p i w ((saveDataOnDisk f g i off bs).run w).2 := by
  unfold saveDataOnDisk
  apply rel_bind RelAt.trans
  · exact atomic_rel f id w (RelAt.refl p i w) (RelAt.refl p i w)
  · intro _ w1 _; exact writeOp_rel g p i off bs w1

theorem swallow_snd (x : M Unit) (w : World) : ((swallow x).run w).2 = (x.run w).2 := by
  unfold swallow
  dsimp only
  rcases x.run w with ⟨out, w1⟩
  cases out <;> rfl

theorem copyRead_snd (f : Fault) (chunk off : Nat) (w : World) : ((copyRead f chunk off).run w).2 = w := by
  unfold copyRead
  cases f with
  | none => simp only; cases connRead w.fs w.conn chunk off <;> rfl
  | fail k => rfl
  | crash k => rfl

theorem copyStep_rel (o : Pt → Fault) (p : Name) (i k wo : Nat) (r : Option Bytes) (next : M Nat) (w : World)
    (hn : ∀ w, RelAt p i w (next.run w).2) : RelAt p i w ((copyStep o i k wo r next).run w).2 := by
  cases r with
  | none => exact RelAt.refl p i w
  | some b =>
    unfold copyStep
    apply rel_bind RelAt.trans
    · rw [swallow_snd]; exact save_rel _ _ p i wo b w
    · intro go w2 _
      cases go with
      | true => exact hn w2
      | false => exact RelAt.refl p i w2

theorem copyLoop_rel (o : Pt → Fault) (chunk : Nat) (p : Name) (i fuel k ro wo : Nat) (w : World) :
    RelAt p i w ((copyLoop o chunk i fuel k ro wo).run w).2 := by
  induction fuel generalizing k ro wo w with
  | zero => exact RelAt.refl p i w
  | succ fuel ih =>
    unfold copyLoop
    apply rel_bind RelAt.trans
    · rw [copyRead_snd]; exact RelAt.refl p i w
    · intro r w1 _
      exact copyStep_rel o p i k wo r _ w1 (fun w => ih _ _ _ w)

theorem statSize_snd (w : World) : (statSize.run w).2 = w := by
  unfold statSize; dsimp only; split <;> rfl

theorem copyFrom_rel (cfg : Cfg) (o : Pt → Fault) (p : Name) (off i wo s : Nat) (w : World) :
    RelAt p i w ((copyFrom cfg o off i wo s).run w).2 := by
  rw [copyFrom]
  exact copyLoop_rel o _ p i _ 0 off wo w

theorem copyOld_rel (cfg : Cfg) (o : Pt → Fault) (c : Ctx) (p : Name) (i wo : Nat) (w : World) :
    RelAt p i w ((copyOld cfg o c i wo).run w).2 := by
  unfold copyOld
  cases c.reference with
  | none => exact RelAt.refl p i w
  | some r =>
    apply rel_bind RelAt.trans
    · rw [statSize_snd]; exact RelAt.refl p i w
    · intro s w1 _; exact copyFrom_rel cfg o p c.dataOffset i wo s w1

theorem writeContents_rel (o : Pt → Fault) (p : Name) (i k wo : Nat) (L : List Content) (w : World) :
    RelAt p i w ((writeContents o i k wo L).run w).2 := by
  induction L generalizing k wo w with
  | nil => exact RelAt.refl p i w
  | cons x xs ih =>
    unfold writeContents
    apply rel_bind RelAt.trans
    · rw [swallow_snd]; exact save_rel _ _ p i wo _ w
    · intro go w2 _
      cases go with
      | true => exact ih _ _ w2
      | false => exact RelAt.refl p i w2

/-- The file operations writing the destination only touch the destination path and leave the handle alone. -/
theorem writeDestination_rel (cfg : Cfg) (o : Pt → Fault) (c : Ctx) (r : Reference) (w : World) :
    Touches (· = cfg.dst c.name) (· = cfg.dst c.name) w.fs ((writeDestination cfg o c r).run w).2.fs ∧
    ((writeDestination cfg o c r).run w).2.conn = w.conn := by
  unfold writeDestination
  apply bind_world (fun w' => Touches (· = cfg.dst c.name) (· = cfg.dst c.name) w.fs w'.fs ∧ w'.conn = w.conn)
  · intro out w1 h hs; injection h with h1 h2; subst h1; exact absurd hs (by simp [Out.stop])
  intro i w1 h
  injection h with h1 h2
  injection h1 with h1
  subst h1 h2
  apply bind_world (fun w' => Touches (· = cfg.dst c.name) (· = cfg.dst c.name) w.fs w'.fs ∧ w'.conn = w.conn)
  · intro out w1 h hs
    have := attempt_rel (R := fun a b => Touches (· = cfg.dst c.name) (· = cfg.dst c.name) a.fs b.fs ∧ b.conn = a.conn)
      (o .createDst) (fun w => { w with fs := w.fs.create (cfg.dst c.name) }) (fun _ w => w) w
      ⟨create_touches _ _ _ _ rfl rfl, rfl⟩ (fun _ => ⟨Touches.refl _ _ _, rfl⟩)
    unfold createOp atomic at h
    rw [h] at this
    exact this
  intro u w2 h
  have hw2 : w2 = { w with fs := w.fs.create (cfg.dst c.name) } := by
    unfold createOp atomic attempt at h
    revert h
    cases o .createDst <;> simp
    intro h; exact h.symm
  have key : RelAt (cfg.dst c.name) (w.fs.createIno (cfg.dst c.name)) w2
      ((do
        writeOp (o .writeRef) (w.fs.createIno (cfg.dst c.name)) 0 (refData r)
        let wo ← copyOld cfg o c (w.fs.createIno (cfg.dst c.name)) (refData r).length
        writeContents o (w.fs.createIno (cfg.dst c.name)) 0 wo c.contentList
        pure (refData r).length : M Nat).run w2).2 := by
    apply rel_bind RelAt.trans (writeOp_rel _ _ _ _ _ w2)
    intro _ w2 _
    apply rel_bind RelAt.trans (copyOld_rel _ _ _ _ _ _ w2)
    intro wo w3 _
    apply rel_bind RelAt.trans (writeContents_rel _ _ _ _ _ _ w3)
    intro _ w4 _
    exact RelAt.refl _ _ w4
  obtain ⟨t, d, e⟩ := key (by rw [hw2]; exact create_dir_self w.fs _)
  refine ⟨Touches.trans (b := w2.fs) ?_ t, e.trans (by rw [hw2])⟩
  rw [hw2]
  exact create_touches _ _ _ _ rfl rfl

/-- `RelAt` for the backup: the handle's position may move. -/
def RelBck (p : Name) (i : Nat) (w w' : World) : Prop :=
  w.fs.dir p = some i → Touches (· = p) (· = p) w.fs w'.fs ∧ w'.fs.dir p = some i ∧ w'.conn.ino = w.conn.ino ∧
    w'.conn.isOpen = w.conn.isOpen

theorem RelBck.trans {p : Name} {i : Nat} (a b c : World) (h1 : RelBck p i a b) (h2 : RelBck p i b c) : RelBck p i a c := by
  intro h
  obtain ⟨t1, d1, c1, o1⟩ := h1 h
  obtain ⟨t2, d2, c2, o2⟩ := h2 d1
  exact ⟨t1.trans t2, d2, c2.trans c1, o2.trans o1⟩

theorem RelBck.refl (p : Name) (i : Nat) (w : World) : RelBck p i w w := fun h => ⟨Touches.refl _ _ _, h, rfl, rfl⟩

theorem copyBackup_rel (f : Fault) (p : Name) (i : Nat) (w : World) : RelBck p i w ((copyBackup f i).run w).2 := by
  unfold copyBackup
  dsimp only
  split
  · exact RelBck.refl p i w
  · apply attempt_rel (R := RelBck p i)
    · intro h; exact ⟨write_touches _ _ _ _ p _ _ h rfl, h, rfl, rfl⟩
    · intro k h; exact ⟨write_touches _ _ _ _ p _ _ h rfl, h, rfl, rfl⟩

/-- Making the backup only touches the backup path; the handle keeps its inode and stays open or closed. -/
theorem backup_rel (cfg : Cfg) (o : Pt → Fault) (n : Name) (w : World) :
    Touches (· = cfg.bck n) (· = cfg.bck n) w.fs ((backup cfg o n).run w).2.fs ∧
    ((backup cfg o n).run w).2.conn.ino = w.conn.ino ∧ ((backup cfg o n).run w).2.conn.isOpen = w.conn.isOpen := by
  unfold backup
  apply bind_world (fun w' => Touches (· = cfg.bck n) (· = cfg.bck n) w.fs w'.fs ∧ w'.conn.ino = w.conn.ino ∧
    w'.conn.isOpen = w.conn.isOpen)
  · intro out w1 h hs; injection h with h1 h2; subst h1; exact absurd hs (by simp [Out.stop])
  intro i w1 h
  injection h with h1 h2
  injection h1 with h1
  subst h1 h2
  apply bind_world (fun w' => Touches (· = cfg.bck n) (· = cfg.bck n) w.fs w'.fs ∧ w'.conn.ino = w.conn.ino ∧
    w'.conn.isOpen = w.conn.isOpen)
  · intro out w1 h hs
    have := attempt_rel (R := fun a b => Touches (· = cfg.bck n) (· = cfg.bck n) a.fs b.fs ∧ b.conn.ino = a.conn.ino ∧
      b.conn.isOpen = a.conn.isOpen)
      (o .createBck) (fun w => { w with fs := w.fs.create (cfg.bck n) }) (fun _ w => w) w
      ⟨create_touches _ _ _ _ rfl rfl, rfl, rfl⟩ (fun _ => ⟨Touches.refl _ _ _, rfl, rfl⟩)
    unfold createOp atomic at h
    rw [h] at this
    exact this
  intro u w2 h
  have hw2 : w2 = { w with fs := w.fs.create (cfg.bck n) } := by
    unfold createOp atomic attempt at h
    revert h
    cases o .createBck <;> simp
    intro h; exact h.symm
  have key : RelBck (cfg.bck n) (w.fs.createIno (cfg.bck n)) w2
      ((do
        copyBackup (o .copyBck) (w.fs.createIno (cfg.bck n))
        atomic (o .closeBck) id : M Unit).run w2).2 := by
    apply rel_bind RelBck.trans (copyBackup_rel _ _ _ w2)
    intro _ w2 _
    exact atomic_rel _ id w2 (RelBck.refl _ _ w2) (RelBck.refl _ _ w2)
  obtain ⟨t, d, e, e'⟩ := key (by rw [hw2]; exact create_dir_self w.fs _)
  refine ⟨Touches.trans (b := w2.fs) ?_ t, e.trans (by rw [hw2]), e'.trans (by rw [hw2])⟩
  rw [hw2]
  exact create_touches _ _ _ _ rfl rfl

/-! ### Fault-free runs -/

/-- No operation whose failure the code ignores fails (it may still be the point of a crash). -/
def NoIgnoredFailure (o : Pt → Fault) : Prop :=
  ∀ k j, o (.copyRead k) ≠ .fail j ∧ o (.copySeek k) ≠ .fail j ∧ o (.copyWrite k) ≠ .fail j ∧
    o (.dataSeek k) ≠ .fail j ∧ o (.dataWrite k) ≠ .fail j

theorem calm_noIgnored : NoIgnoredFailure calm := by
  intro k j; simp [calm]

theorem atomic_ok {f : Fault} {full : World → World} {w w' : World} {u : Unit} (h : (atomic f full).run w = (.ok u, w')) :
    f = .none ∧ w' = full w := by
  unfold atomic attempt at h
  cases f <;> simp_all

theorem atomic_none (full : World → World) (w : World) : (atomic .none full).run w = (.ok (), full w) := rfl

theorem writeOp_none (i off : Nat) (bs : Bytes) (w : World) :
    (writeOp .none i off bs).run w = (.ok (), { w with fs := w.fs.write i off bs }) := rfl

theorem writeOp_ok {f : Fault} {i off : Nat} {bs : Bytes} {w w' : World} {u : Unit}
    (h : (writeOp f i off bs).run w = (.ok u, w')) : f = .none ∧ w' = { w with fs := w.fs.write i off bs } := by
  unfold writeOp attempt at h
  cases f <;> simp_all

theorem save_none (i off : Nat) (bs : Bytes) (w : World) :
    (saveDataOnDisk .none .none i off bs).run w = (.ok (), { w with fs := w.fs.write i off bs }) := rfl

/-- A save that does not fail either stops the process or works. -/
theorem save_cases {f g : Fault} (hf : ∀ j, f ≠ .fail j) (hg : ∀ j, g ≠ .fail j) (i off : Nat) (bs : Bytes) (w : World) :
    (∃ w', (saveDataOnDisk f g i off bs).run w = (.crash, w')) ∨
    (saveDataOnDisk f g i off bs).run w = (.ok (), { w with fs := w.fs.write i off bs }) := by
  cases f with
  | fail j => exact absurd rfl (hf j)
  | crash j => left; exact ⟨_, rfl⟩
  | none =>
    cases g with
    | fail j => exact absurd rfl (hg j)
    | crash j => left; exact ⟨_, rfl⟩
    | none => right; rfl

theorem swallow_crash {x : M Unit} {w w' : World} (h : x.run w = (.crash, w')) : (swallow x).run w = (.crash, w') := by
  unfold swallow
  dsimp only
  rw [h]

theorem swallow_ok {x : M Unit} {w w' : World} (h : x.run w = (.ok (), w')) : (swallow x).run w = (.ok true, w') := by
  unfold swallow
  dsimp only
  rw [h]

theorem bind_crash {α β : Type} {x : M α} {f : α → M β} {w w' : World} (h : x.run w = (.crash, w')) :
    (x >>= f).run w = (.crash, w') := by rw [bind_def, h]

/-- The outcome is a crash, or the same as without faults. -/
def CrashOr {α : Type} (x y : Out α × World) : Prop := x.1 = .crash ∨ x = y

theorem CrashOr.bind {α β : Type} {x y : M α} {f g : α → M β} {w : World} (h : CrashOr (x.run w) (y.run w))
    (hf : ∀ a w1, y.run w = (.ok a, w1) → CrashOr ((f a).run w1) ((g a).run w1)) :
    CrashOr ((x >>= f).run w) ((y >>= g).run w) := by
  rcases h with h | h
  · left
    rcases hx : x.run w with ⟨out, w1⟩
    rw [hx] at h
    simp only at h
    subst h
    rw [bind_crash hx]
  · rw [bind_def, bind_def, h]
    rcases hy : y.run w with ⟨out, w1⟩
    cases out with
    | ok a => exact hf a w1 hy
    | err => right; rfl
    | panic => right; rfl
    | crash => right; rfl
    | hang => right; rfl

theorem swallow_save_cases {f g : Fault} (hf : ∀ j, f ≠ .fail j) (hg : ∀ j, g ≠ .fail j) (i off : Nat) (bs : Bytes)
    (w : World) :
    CrashOr ((swallow (saveDataOnDisk f g i off bs)).run w) ((swallow (saveDataOnDisk .none .none i off bs)).run w) := by
  rcases save_cases hf hg i off bs w with ⟨w', h⟩ | h
  · left; rw [swallow_crash h]
  · right; rw [swallow_ok h, swallow_ok (save_none i off bs w)]

theorem writeContents_cases {o : Pt → Fault} (ho : NoIgnoredFailure o) (i k wo : Nat) (L : List Content) (w : World) :
    CrashOr ((writeContents o i k wo L).run w) ((writeContents calm i k wo L).run w) := by
  induction L generalizing k wo w with
  | nil => right; rfl
  | cons x xs ih =>
    unfold writeContents
    apply CrashOr.bind
    · exact swallow_save_cases (fun j => (ho k j).2.2.2.1) (fun j => (ho k j).2.2.2.2) i wo x.data w
    · intro go w1 _
      cases go with
      | true => exact ih _ _ _
      | false => right; rfl

theorem copyRead_cases {f : Fault} (hf : ∀ j, f ≠ .fail j) (chunk off : Nat) (w : World) :
    CrashOr ((copyRead f chunk off).run w) ((copyRead .none chunk off).run w) := by
  cases f with
  | fail j => exact absurd rfl (hf j)
  | crash j => left; rfl
  | none => right; rfl

theorem copyStep_cases {o : Pt → Fault} (ho : NoIgnoredFailure o) (i k wo : Nat) (r : Option Bytes) (n1 n2 : M Nat)
    (h : ∀ w, CrashOr (n1.run w) (n2.run w)) (w : World) :
    CrashOr ((copyStep o i k wo r n1).run w) ((copyStep calm i k wo r n2).run w) := by
  cases r with
  | none => right; rfl
  | some b =>
    unfold copyStep
    apply CrashOr.bind
    · exact swallow_save_cases (fun j => (ho k j).2.1) (fun j => (ho k j).2.2.1) i wo b w
    · intro go w1 _
      cases go with
      | true => exact h w1
      | false => right; rfl

theorem copyLoop_cases {o : Pt → Fault} (ho : NoIgnoredFailure o) (chunk i fuel k ro wo : Nat) (w : World) :
    CrashOr ((copyLoop o chunk i fuel k ro wo).run w) ((copyLoop calm chunk i fuel k ro wo).run w) := by
  induction fuel generalizing k ro wo w with
  | zero => right; rfl
  | succ fuel ih =>
    unfold copyLoop
    apply CrashOr.bind
    · exact copyRead_cases (fun j => (ho k j).1) chunk ro w
    · intro r w1 _
      exact copyStep_cases ho i k wo r _ _ (fun w => ih _ _ _ w) w1

theorem copyFrom_cases {o : Pt → Fault} (ho : NoIgnoredFailure o) (cfg : Cfg) (off i wo s : Nat) (w : World) :
    CrashOr ((copyFrom cfg o off i wo s).run w) ((copyFrom cfg calm off i wo s).run w) := by
  rw [copyFrom, copyFrom]
  exact copyLoop_cases ho _ i _ 0 off wo w

theorem copyOld_cases {o : Pt → Fault} (ho : NoIgnoredFailure o) (cfg : Cfg) (c : Ctx) (i wo : Nat) (w : World) :
    CrashOr ((copyOld cfg o c i wo).run w) ((copyOld cfg calm c i wo).run w) := by
  unfold copyOld
  cases c.reference with
  | none => right; rfl
  | some r =>
    apply CrashOr.bind
    · right; rfl
    · intro s w1 _; exact copyFrom_cases ho cfg c.dataOffset i wo s w1

/-- A destination that was written without ignored failures is the one a fault-free run writes. -/
theorem writeDestination_ok {o : Pt → Fault} (ho : NoIgnoredFailure o) (cfg : Cfg) (c : Ctx) (r : Reference) (w w' : World)
    (x : Nat) (h : (writeDestination cfg o c r).run w = (.ok x, w')) :
    (writeDestination cfg calm c r).run w = (.ok x, w') := by
  unfold writeDestination at h ⊢
  obtain ⟨i, w1, h1, h⟩ := bind_ok_inv h
  rw [bind_ok_eq h1]
  obtain ⟨u, w2, h2, h⟩ := bind_ok_inv h
  have h2' := atomic_ok h2
  rw [bind_ok_eq (x := createOp (calm .createDst) (cfg.dst c.name)) (w' := w2) (a := u) (by rw [h2'.2]; rfl)]
  obtain ⟨u3, w3, h3, h⟩ := bind_ok_inv h
  have h3' := writeOp_ok h3
  rw [bind_ok_eq (x := writeOp (calm .writeRef) i 0 (refData r)) (w' := w3) (a := u3) (by rw [h3'.2]; rfl)]
  obtain ⟨wo, w4, h4, h⟩ := bind_ok_inv h
  have h4' : (copyOld cfg calm c i (refData r).length).run w3 = (.ok wo, w4) := by
    rcases copyOld_cases ho cfg c i (refData r).length w3 with e | e
    · rw [h4] at e; cases e
    · rw [← e, h4]
  rw [bind_ok_eq h4']
  obtain ⟨u5, w5, h5, h⟩ := bind_ok_inv h
  have h5' : (writeContents calm i 0 wo c.contentList).run w4 = (.ok u5, w5) := by
    rcases writeContents_cases ho i 0 wo c.contentList w4 with e | e
    · rw [h5] at e; cases e
    · rw [← e, h5]
  rw [bind_ok_eq h5']
  exact h

/-- The data area of the file as the copy loop leaves it: whole chunks only. -/
def kept (cfg : Cfg) (d : Bytes) : Bytes :=
  d.take (d.length / makeChunkSize cfg d.length * makeChunkSize cfg d.length)

/-- Replaces the content of an inode. -/
def FS.setIno (fs : FS) (i : Nat) (c : Bytes) : FS := { fs with ino := upd fs.ino i c }

theorem write_end (fs : FS) (i : Nat) (bs : Bytes) : fs.write i (fs.ino i).length bs = fs.setIno i (fs.ino i ++ bs) := by
  unfold FS.write FS.setIno
  rw [writeBytes_end]

theorem setIno_self (fs : FS) (i : Nat) : fs.setIno i (fs.ino i) = fs := by
  unfold FS.setIno
  congr
  funext j
  unfold upd
  split <;> simp_all

theorem setIno_setIno (fs : FS) (i : Nat) (a b : Bytes) : (fs.setIno i a).setIno i b = fs.setIno i b := by
  unfold FS.setIno
  congr 1
  funext j
  unfold upd
  split <;> simp_all

theorem setIno_ino (fs : FS) (i : Nat) (a : Bytes) : (fs.setIno i a).ino i = a := by simp [FS.setIno, upd]

theorem setIno_ino_ne (fs : FS) {i j : Nat} (a : Bytes) (h : j ≠ i) : (fs.setIno i a).ino j = fs.ino j := by
  simp [FS.setIno, upd, h]

theorem writeContents_calm (i k wo : Nat) (L : List Content) (w : World) (hwo : wo = (w.fs.ino i).length) :
    (writeContents calm i k wo L).run w =
      (.ok (), { w with fs := w.fs.setIno i (w.fs.ino i ++ L.flatMap (·.data)) }) := by
  induction L generalizing k wo w with
  | nil => simp [writeContents, setIno_self]
  | cons x xs ih =>
    unfold writeContents
    simp only [calm]
    rw [bind_ok_eq (swallow_ok (save_none i wo x.data w))]
    simp only [if_true]
    rw [ih]
    · subst hwo
      simp only [write_end, setIno_setIno, setIno_ino, List.flatMap_cons, List.append_assoc]
    · subst hwo
      simp [write_end, setIno_ino]

theorem readAt_ok (c : Bytes) (len off : Nat) (h : off + len ≤ c.length) : readAt c len off = .ok ((c.drop off).take len) := by
  unfold readAt
  split
  · rename_i h0; simp [h0]
  · rfl

theorem readAt_short (c : Bytes) (len off : Nat) (h0 : len ≠ 0) (h : ¬ off + len ≤ c.length) : readAt c len off = .err := by
  unfold readAt
  rw [if_neg h0, if_neg h]

theorem copyLoop_calm (chunk i fuel k ro wo : Nat) (w : World) (hc : 0 < chunk) (hc' : chunk < 2 ^ 63)
    (hsize : (w.fs.ino w.conn.ino).length < 2 ^ 63) (hro : ro ≤ (w.fs.ino w.conn.ino).length)
    (hopen : w.conn.isOpen = true) (hi : w.conn.ino ≠ i) (hwo : wo = (w.fs.ino i).length)
    (hfuel : ((w.fs.ino w.conn.ino).length - ro) / chunk < fuel) :
    (copyLoop calm chunk i fuel k ro wo).run w =
      (.ok (wo + ((w.fs.ino w.conn.ino).length - ro) / chunk * chunk),
        { w with fs := w.fs.setIno i (w.fs.ino i ++ ((w.fs.ino w.conn.ino).drop ro).take
          (((w.fs.ino w.conn.ino).length - ro) / chunk * chunk)) }) := by
  induction fuel generalizing k ro wo w with
  | zero => exact absurd hfuel (Nat.not_lt_zero _)
  | succ fuel ih =>
    generalize hsrc : w.fs.ino w.conn.ino = src at *
    unfold copyLoop
    by_cases hr : ro + chunk ≤ src.length
    · have hread : (copyRead (calm (.copyRead k)) chunk ro).run w = (.ok (some ((src.drop ro).take chunk)), w) := by
        unfold copyRead connRead
        simp only [calm, hopen, hsrc]
        rw [if_neg (by omega), if_neg (by simp), if_neg (by omega), readAt_ok _ _ _ hr]
      rw [bind_ok_eq hread]
      unfold copyStep
      dsimp only
      rw [bind_ok_eq (swallow_ok (x := saveDataOnDisk (calm (.copySeek k)) (calm (.copyWrite k)) i wo _) (save_none i wo _ w))]
      simp only [if_true]
      have hlen : ((src.drop ro).take chunk).length = chunk := by simp; omega
      have hdiv : (src.length - ro) / chunk = (src.length - (ro + chunk)) / chunk + 1 := by
        rw [show src.length - ro = (src.length - (ro + chunk)) + chunk by omega]
        exact Nat.add_div_right _ hc
      rw [ih]
      · simp only [FS.write]
        rw [upd_ne _ _ hi, hsrc, hdiv, upd_self]
        subst hwo
        rw [writeBytes_end]
        congr 1
        · congr 1; rw [Nat.add_mul]; omega
        · congr 1
          unfold FS.setIno
          simp only
          congr 1
          funext j
          unfold upd
          split
          · rw [List.append_assoc]
            congr 1
            rw [Nat.add_mul, Nat.one_mul, Nat.add_comm (_ * chunk) chunk, List.take_add, List.drop_drop]
          · rfl
      · simp only [FS.write]; rw [upd_ne _ _ hi, hsrc]; exact hsize
      · simp only [FS.write]; rw [upd_ne _ _ hi, hsrc]; exact hr
      · exact hopen
      · exact hi
      · subst hwo
        simp only [FS.write, upd_self, writeBytes_end, List.length_append, hlen]
      · simp only [FS.write]; rw [upd_ne _ _ hi, hsrc]; omega
    · have hread : (copyRead (calm (.copyRead k)) chunk ro).run w = (.ok none, w) := by
        unfold copyRead connRead
        simp only [calm, hopen, hsrc]
        rw [if_neg (by omega), if_neg (by simp), if_neg (by omega), readAt_short _ _ _ (by omega) hr]
      rw [bind_ok_eq hread]
      have : (src.length - ro) / chunk = 0 := Nat.div_eq_of_lt (by omega)
      simp [copyStep, this, setIno_self]

end DB
end Rodkina
