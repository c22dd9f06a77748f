import Verif.ConcurrentSpec
import Verif.DatabaseLemmas
import Verif.ConcurrentSafe
/-!
# A commit alone, step by step and as a whole
-/

namespace Rodkina
namespace DB

open Ref

set_option linter.unusedVariables false

/-- Run a program alone. -/
def alone {α : Type} (pid : Nat) : Prog α → Shared → α × Shared
  | .ret a, s => (a, s)
  | .op o k, s => alone pid (k (exec pid o s).1) (exec pid o s).2

theorem alone_bind {α β : Type} (pid : Nat) (x : Prog α) (f : α → Prog β) (s : Shared) :
    alone pid (x.bind f) s = alone pid (f (alone pid x s).1) (alone pid x s).2 := by
  induction x generalizing s with
  | ret a => rfl
  | op o k ih => simp only [Prog.bind, alone]; exact ih _ _

/-- The program does what the computation does, and leaves the locks. -/
def Sim {α : Type} (pid : Nat) (x : M α) (q : Prog (Out α)) (conn : Conn) : Prop :=
  ∀ fs L, alone pid q ⟨fs, L⟩ = ((x.run ⟨fs, conn⟩).1, ⟨(x.run ⟨fs, conn⟩).2.fs, L⟩)

/-- The handle does not change. -/
def Keeps {α : Type} (x : M α) (conn : Conn) : Prop := ∀ fs, (x.run ⟨fs, conn⟩).2.conn = conn

theorem Sim.next {α β : Type} {pid : Nat} {x : M α} {q : Prog (Out α)} {conn : Conn} (hk : Keeps x conn)
    (h : Sim pid x q conn) {f : α → M β} {g : α → Prog (Out β)} (hf : ∀ a, Sim pid (f a) (g a) conn) :
    Sim pid (x >>= f) (q.next g) conn := by
  intro fs L
  rw [bind_def, Prog.next, alone_bind, h fs L]
  have hk := hk fs
  obtain ⟨⟨o, w⟩, hx⟩ : ∃ y, x.run ⟨fs, conn⟩ = y := ⟨_, rfl⟩
  rw [hx] at hk ⊢
  obtain ⟨wfs, wc⟩ := w
  cases hk
  cases o <;> first | exact hf _ _ _ | rfl

theorem Keeps.bind {α β : Type} {x : M α} {conn : Conn} (hk : Keeps x conn) {f : α → M β}
    (hf : ∀ a, Keeps (f a) conn) : Keeps (x >>= f) conn := by
  intro fs
  rw [bind_def]
  have hk := hk fs
  obtain ⟨⟨o, w⟩, hx⟩ : ∃ y, x.run ⟨fs, conn⟩ = y := ⟨_, rfl⟩
  rw [hx] at hk ⊢
  obtain ⟨wfs, wc⟩ := w
  cases hk
  cases o <;> first | exact hf _ _ | rfl

theorem sim_copy (pid chunk d : Nat) (conn : Conn) : ∀ fuel k ro wo,
    Sim pid (copyLoop calm chunk d fuel k ro wo) (copyProg chunk conn d fuel ro wo) conn ∧
    Keeps (copyLoop calm chunk d fuel k ro wo) conn
  | 0, k, ro, wo => ⟨fun _ _ => rfl, fun _ => rfl⟩
  | fuel + 1, k, ro, wo => by
    have hr : ∀ fs, (copyRead (calm (.copyRead k)) chunk ro).run ⟨fs, conn⟩ =
        match connRead fs conn chunk ro with
        | .ok b => (.ok (some b), ⟨fs, conn⟩)
        | .err => (.ok none, ⟨fs, conn⟩)
        | .panic => (.panic, ⟨fs, conn⟩) := fun fs => by
      simp only [copyRead, calm]
      cases connRead fs conn chunk ro <;> rfl
    constructor
    · intro fs L
      rw [copyLoop, copyProg, bind_def, hr]
      simp only [alone, exec]
      cases hc : connRead fs conn chunk ro with
      | ok b =>
        simp only [alone, exec]
        exact (sim_copy pid chunk d conn fuel (k + 1) (ro + chunk) (wo + chunk)).1 _ L
      | err => rfl
      | panic => rfl
    · intro fs
      rw [copyLoop, bind_def, hr]
      cases hc : connRead fs conn chunk ro with
      | ok b => exact (sim_copy pid chunk d conn fuel (k + 1) (ro + chunk) (wo + chunk)).2 _
      | err => rfl
      | panic => rfl

theorem sim_size (pid : Nat) (conn : Conn) (F : Nat → M Nat) (G : Nat → Prog (Out Nat))
    (h : ∀ n, Sim pid (F n) (G n) conn ∧ Keeps (F n) conn) :
    Sim pid (statSize >>= F) (if conn.isOpen then .op (.size conn.ino) G else .ret .panic) conn ∧
    Keeps (statSize >>= F) conn := by
  by_cases hc : conn.isOpen
  · rw [if_pos hc]
    constructor
    · intro fs L
      rw [bind_def]
      simp only [statSize, hc, if_true]
      exact (h _).1 fs L
    · intro fs
      rw [bind_def]
      simp only [statSize, hc, if_true]
      exact (h _).2 fs
  · rw [if_neg hc]
    constructor
    · intro fs L
      rw [bind_def]
      simp only [statSize, hc]
      rfl
    · intro fs
      rw [bind_def]
      simp only [statSize, hc]
      rfl

theorem sim_copyFrom (pid : Nat) (cfg : Cfg) (conn : Conn) (off d wo n : Nat) :
    Sim pid (copyFrom cfg calm off d wo n) (copyProg (makeChunkSize cfg (sub64 n off)) conn d
      (copyFuel (makeChunkSize cfg (sub64 n off)) n) off wo) conn ∧ Keeps (copyFrom cfg calm off d wo n) conn := by
  unfold copyFrom
  generalize sub64 n off = y
  exact sim_copy pid _ d conn _ 0 off wo

theorem sim_copyOld (pid : Nat) (cfg : Cfg) (c : Ctx) (d wo : Nat) :
    Sim pid (copyOld cfg calm c d wo) (copyOldProg cfg c d wo) c.conn ∧ Keeps (copyOld cfg calm c d wo) c.conn := by
  unfold copyOld copyOldProg
  cases c.reference with
  | none => exact ⟨fun _ _ => rfl, fun _ => rfl⟩
  | some r => exact sim_size pid c.conn _ _ fun n => sim_copyFrom pid cfg c.conn c.dataOffset d wo n

theorem sim_contents (pid d : Nat) (conn : Conn) : ∀ (xs : List Content) k wo,
    Sim pid (writeContents calm d k wo xs) (contentsProg d wo xs) conn ∧
    Keeps (writeContents calm d k wo xs) conn
  | [], k, wo => ⟨fun _ _ => rfl, fun _ => rfl⟩
  | x :: xs, k, wo =>
    ⟨fun fs L => (sim_contents pid d conn xs (k + 1) (wo + x.data.length)).1 _ L,
     fun fs => (sim_contents pid d conn xs (k + 1) (wo + x.data.length)).2 _⟩

theorem sim_destination (pid : Nat) (cfg : Cfg) (c : Ctx) (r : Reference) :
    Sim pid (writeDestination cfg calm c r) (destinationProg cfg c r) c.conn ∧
    Keeps (writeDestination cfg calm c r) c.conn := by
  have key : ∀ d, Sim pid (copyOld cfg calm c d (refData r).length >>= fun wo =>
        writeContents calm d 0 wo c.contentList >>= fun _ => (pure (refData r).length : M Nat))
      ((copyOldProg cfg c d (refData r).length).next (fun wo =>
        (contentsProg d wo c.contentList).next (fun _ => .ret (.ok (refData r).length)))) c.conn ∧
      Keeps (copyOld cfg calm c d (refData r).length >>= fun wo =>
        writeContents calm d 0 wo c.contentList >>= fun _ => (pure (refData r).length : M Nat)) c.conn := by
    intro d
    obtain ⟨h1, h2⟩ := sim_copyOld pid cfg c d (refData r).length
    refine ⟨h1.next h2 fun wo => ?_, h2.bind fun wo => ?_⟩
    · obtain ⟨h3, h4⟩ := sim_contents pid d c.conn c.contentList 0 wo
      exact h3.next h4 fun _ fs L => rfl
    · obtain ⟨h3, h4⟩ := sim_contents pid d c.conn c.contentList 0 wo
      exact h4.bind fun _ fs => rfl
  exact ⟨fun fs L => (key (fs.createIno (cfg.dst c.name))).1 _ L, fun fs => (key (fs.createIno (cfg.dst c.name))).2 _⟩

theorem backup_run (cfg : Cfg) (n : Name) (fs : FS) (conn : Conn) : ∃ wfs conn',
    (backup cfg calm n).run ⟨fs, conn⟩ = (if conn.isOpen then .ok () else .err, ⟨wfs, conn'⟩) ∧
    conn'.isOpen = conn.isOpen := by
  cases h : conn.isOpen
  · refine ⟨fs.create (cfg.bck n), conn, ?_, h⟩
    show ((backup cfg calm n).run ⟨fs, conn⟩) = (.err, ⟨fs.create (cfg.bck n), conn⟩)
    have : (copyBackup (calm .copyBck) (fs.createIno (cfg.bck n))).run ⟨fs.create (cfg.bck n), conn⟩ =
        (.err, ⟨fs.create (cfg.bck n), conn⟩) := by simp [copyBackup, h]
    unfold backup
    rw [bind_ok_eq (a := fs.createIno (cfg.bck n)) (w' := ⟨fs, conn⟩) rfl,
      bind_ok_eq (a := ()) (w' := ⟨fs.create (cfg.bck n), conn⟩) rfl, bind_def, this]
  · refine ⟨(fs.create (cfg.bck n)).write (fs.createIno (cfg.bck n)) 0
        (((fs.create (cfg.bck n)).ino conn.ino).drop conn.pos),
      { conn with pos := conn.pos + (((fs.create (cfg.bck n)).ino conn.ino).drop conn.pos).length }, ?_, h⟩
    show ((backup cfg calm n).run ⟨fs, conn⟩) = (.ok (), _)
    have : (copyBackup (calm .copyBck) (fs.createIno (cfg.bck n))).run ⟨fs.create (cfg.bck n), conn⟩ =
        (.ok (), ⟨(fs.create (cfg.bck n)).write (fs.createIno (cfg.bck n)) 0
        (((fs.create (cfg.bck n)).ino conn.ino).drop conn.pos),
        { conn with pos := conn.pos + (((fs.create (cfg.bck n)).ino conn.ino).drop conn.pos).length }⟩) := by
      simp [copyBackup, h, attempt, calm]
    unfold backup
    rw [bind_ok_eq (a := fs.createIno (cfg.bck n)) (w' := ⟨fs, conn⟩) rfl,
      bind_ok_eq (a := ()) (w' := ⟨fs.create (cfg.bck n), conn⟩) rfl, bind_def, this]
    rfl

theorem sim_backup (pid : Nat) (cfg : Cfg) (c : Ctx) :
    Sim pid (backup cfg calm c.name) (backupProg cfg c) c.conn := by
  intro fs L
  have e : (backup cfg calm c.name).run ⟨fs, c.conn⟩ =
      ((copyBackup .none (fs.createIno (cfg.bck c.name))) >>= fun _ => atomic .none id).run
        ⟨fs.create (cfg.bck c.name), c.conn⟩ := rfl
  rw [e, bind_def]
  simp only [backupProg, alone, exec, copyBackup]
  cases h : c.conn.isOpen <;> simp [attempt, alone, exec, atomic]

theorem sim_swap (pid : Nat) (cfg : Cfg) (c : Ctx) (conn : Conn) (hc : conn.isOpen = c.conn.isOpen) :
    Sim pid (swap cfg calm c.name) (swapProg cfg c) conn := by
  intro fs L
  unfold swap swapProg
  rw [bind_def]
  simp only [closeConn, hc]
  by_cases h : c.conn.isOpen
  · simp only [h, if_true, attempt, calm, Bool.true_eq_false, if_false, alone, exec]
    rw [bind_def]
    simp only [removeOp]
    by_cases h1 : (fs.dir (cfg.path c.name)).isSome
    · simp only [h1, if_true, atomic, attempt, alone, exec]
      rw [bind_def]
      simp only [renameOp]
      by_cases h2 : ((fs.remove (cfg.path c.name)).dir (cfg.dst c.name)).isSome
      · simp only [h2, if_true, atomic, attempt, alone, exec]
        rw [bind_def]
        by_cases h3 : (((fs.remove (cfg.path c.name)).rename (cfg.dst c.name) (cfg.path c.name)).dir (cfg.bck c.name)).isSome
        · simp only [h3, if_true, alone, exec]
          simp only [openOp]
          cases h4 : ((((fs.remove (cfg.path c.name)).rename (cfg.dst c.name) (cfg.path c.name)).remove (cfg.bck c.name)).dir
            (cfg.path c.name)) with
          | none => rfl
          | some i => rfl
        · simp only [h3]; rfl
      · simp only [h2]; rfl
    · simp only [h1]; rfl
  · simp only [h]; rfl

/-- What is done under the lock, as one computation. -/
def bodyM (cfg : Cfg) (c : Ctx) (r : Reference) : M (Conn × Nat) :=
  writeDestination cfg calm c r >>= fun off =>
  backup cfg calm c.name >>= fun _ =>
  swap cfg calm c.name >>= fun conn => pure (conn, off)

theorem sim_body (pid : Nat) (cfg : Cfg) (c : Ctx) (r : Reference) :
    Sim pid (bodyM cfg c r) (bodyProg cfg c r) c.conn := by
  obtain ⟨h1, h2⟩ := sim_destination pid cfg c r
  refine h1.next h2 fun off => ?_
  intro fs L
  rw [bind_def, Prog.next, alone_bind, sim_backup pid cfg c fs L]
  obtain ⟨wfs, conn', he, ho⟩ := backup_run cfg c.name fs c.conn
  rw [he]
  cases h : c.conn.isOpen
  · rfl
  · simp only [if_true]
    rw [bind_def, Prog.next, alone_bind, sim_swap pid cfg c conn' ho wfs L]
    obtain ⟨⟨o, w⟩, hx⟩ : ∃ y, (swap cfg calm c.name).run ⟨wfs, conn'⟩ = y := ⟨_, rfl⟩
    rw [hx]
    cases o <;> rfl

/-! ## What the operations leave alone -/

/-- Operations that do not concern locks. -/
def Op.plain : Op → Bool
  | .lockOpen _ => false
  | .flock _ => false
  | .unlock _ => false
  | _ => true

/-- Operations that remove no path. -/
def Op.adds : Op → Bool
  | .create _ => true
  | .write _ _ _ => true
  | .size _ => true
  | .read _ _ _ => true
  | .readRest _ _ => true
  | _ => false

/-- All operations of the program satisfy `P`. -/
def Prog.All {α : Type} (P : Op → Bool) : Prog α → Prop
  | .ret _ => True
  | .op o k => P o = true ∧ ∀ r, (k r).All P

theorem Prog.All.bind {α β : Type} {P : Op → Bool} {x : Prog α} (h : x.All P) {f : α → Prog β} (hf : ∀ a, (f a).All P) :
    (x.bind f).All P := by
  induction x with
  | ret a => exact hf a
  | op o k ih => exact ⟨h.1, fun r => ih r (h.2 r)⟩

theorem Prog.All.next {α β : Type} {P : Op → Bool} {x : Prog (Out α)} (h : x.All P) {f : α → Prog (Out β)}
    (hf : ∀ a, (f a).All P) : (x.next f).All P :=
  h.bind fun o => by cases o <;> first | exact hf _ | exact trivial

theorem Prog.All.mono {α : Type} {P Q : Op → Bool} (hPQ : ∀ o, P o = true → Q o = true) {x : Prog α} (h : x.All P) :
    x.All Q := by
  induction x with
  | ret a => trivial
  | op o k ih => exact ⟨hPQ _ h.1, fun r => ih r (h.2 r)⟩

theorem exec_plain (pid : Nat) (o : Op) (h : o.plain = true) (s : Shared) : (exec pid o s).2.locks = s.locks := by
  cases o <;> simp_all [Op.plain, exec] <;> split <;> rfl

theorem exec_adds (pid : Nat) (o : Op) (h : o.adds = true) (s : Shared) (p : Name) (hp : (s.fs.dir p).isSome) :
    ((exec pid o s).2.fs.dir p).isSome := by
  cases o with
  | create q =>
    simp only [exec, FS.create]
    split
    · exact hp
    · simp only [upd]
      split
      · rfl
      · exact hp
  | write => exact hp
  | size => exact hp
  | read => exact hp
  | readRest => exact hp
  | lockOpen => exact absurd h (by simp [Op.adds])
  | flock => exact absurd h (by simp [Op.adds])
  | unlock => exact absurd h (by simp [Op.adds])
  | remove => exact absurd h (by simp [Op.adds])
  | rename => exact absurd h (by simp [Op.adds])
  | openFile => exact absurd h (by simp [Op.adds])

theorem alone_adds {α : Type} (pid : Nat) (x : Prog α) (h : x.All Op.adds) (s : Shared) (p : Name)
    (hp : (s.fs.dir p).isSome) : ((alone pid x s).2.fs.dir p).isSome := by
  induction x generalizing s with
  | ret a => exact hp
  | op o k ih => exact ih _ (h.2 _) _ (exec_adds pid o h.1 s p hp)

theorem copyProg_adds (chunk : Nat) (conn : Conn) (d : Nat) : ∀ fuel ro wo, (copyProg chunk conn d fuel ro wo).All Op.adds
  | 0, _, _ => trivial
  | fuel + 1, ro, wo => ⟨rfl, fun r => by
      cases r with
      | ok b => exact ⟨rfl, fun _ => copyProg_adds chunk conn d fuel _ _⟩
      | err => trivial
      | panic => trivial⟩

theorem size_adds (b : Bool) (i : Nat) (G : Nat → Prog (Out Nat)) (h : ∀ n, (G n).All Op.adds) :
    (if b then Prog.op (.size i) G else .ret .panic : Prog (Out Nat)).All Op.adds := by
  cases b
  · trivial
  · exact ⟨rfl, h⟩

theorem copyOldProg_adds (cfg : Cfg) (c : Ctx) (d wo : Nat) : (copyOldProg cfg c d wo).All Op.adds := by
  unfold copyOldProg
  cases c.reference with
  | none => trivial
  | some r => exact size_adds _ _ _ fun n => by apply copyProg_adds

theorem contentsProg_adds (d : Nat) : ∀ (xs : List Content) wo, (contentsProg d wo xs).All Op.adds
  | [], _ => trivial
  | _ :: xs, _ => ⟨rfl, fun _ => contentsProg_adds d xs _⟩

/-- The rest of `destinationProg` after the file is created. -/
theorem destinationProg_adds (cfg : Cfg) (c : Ctx) (r : Reference) : (destinationProg cfg c r).All Op.adds :=
  ⟨rfl, fun d => ⟨rfl, fun _ => (copyOldProg_adds cfg c d _).next fun wo =>
    (contentsProg_adds d c.contentList wo).next fun _ => trivial⟩⟩

theorem backupProg_adds (cfg : Cfg) (c : Ctx) : (backupProg cfg c).All Op.adds := by
  refine ⟨rfl, fun d => ?_⟩
  by_cases h : c.conn.isOpen
  · simp only [h, if_true]
    exact ⟨rfl, fun _ => ⟨rfl, fun _ => trivial⟩⟩
  · simp only [h]
    trivial

theorem swapProg_plain (cfg : Cfg) (c : Ctx) : (swapProg cfg c).All Op.plain := by
  unfold swapProg
  by_cases h : c.conn.isOpen
  · simp only [h, if_true]
    refine ⟨rfl, fun b => ?_⟩
    cases b
    · trivial
    refine ⟨rfl, fun b => ?_⟩
    cases b
    · trivial
    refine ⟨rfl, fun b => ?_⟩
    cases b
    · trivial
    refine ⟨rfl, fun b => ?_⟩
    cases b <;> trivial
  · simp only [h]
    trivial

theorem adds_plain (o : Op) (h : o.adds = true) : o.plain = true := by
  cases o <;> simp_all [Op.adds, Op.plain]

theorem bodyProg_plain (cfg : Cfg) (c : Ctx) (r : Reference) : (bodyProg cfg c r).All Op.plain :=
  ((destinationProg_adds cfg c r).mono adds_plain).next fun _ =>
    ((backupProg_adds cfg c).mono adds_plain).next fun _ => (swapProg_plain cfg c).next fun _ => trivial

theorem destination_dst (pid : Nat) (cfg : Cfg) (c : Ctx) (r : Reference) (s : Shared) :
    ((alone pid (destinationProg cfg c r) s).2.fs.dir (cfg.dst c.name)).isSome := by
  have h := destinationProg_adds cfg c r
  unfold destinationProg at h ⊢
  refine alone_adds pid _ (h.2 _) _ _ ?_
  simp only [exec]
  rw [create_dir_self]
  rfl

theorem swap_src (pid : Nat) (cfg : Cfg) (c : Ctx) (s : Shared) (h1 : cfg.path c.name ≠ cfg.dst c.name)
    (h2 : cfg.path c.name ≠ cfg.bck c.name) (hs : (s.fs.dir (cfg.path c.name)).isSome)
    (hd : (s.fs.dir (cfg.dst c.name)).isSome) : ((alone pid (swapProg cfg c) s).2.fs.dir (cfg.path c.name)).isSome := by
  unfold swapProg
  by_cases h : c.conn.isOpen
  · simp only [h, if_true, alone, exec, hs]
    have e : (s.fs.remove (cfg.path c.name)).dir (cfg.dst c.name) = s.fs.dir (cfg.dst c.name) := by
      simp [FS.remove, upd, h1.symm]
    simp only [e, hd, if_true, alone, exec]
    have e2 : ((s.fs.remove (cfg.path c.name)).rename (cfg.dst c.name) (cfg.path c.name)).dir (cfg.path c.name) =
        s.fs.dir (cfg.dst c.name) := by
      simp [FS.rename, upd, h1, e]
    by_cases h3 : (((s.fs.remove (cfg.path c.name)).rename (cfg.dst c.name) (cfg.path c.name)).dir (cfg.bck c.name)).isSome
    · have e3 : (((s.fs.remove (cfg.path c.name)).rename (cfg.dst c.name) (cfg.path c.name)).remove (cfg.bck c.name)).dir
          (cfg.path c.name) = s.fs.dir (cfg.dst c.name) := by
        rw [← e2]
        simp [FS.remove, upd, h2]
      simp only [h3, if_true, alone, exec, e3]
      cases hd' : s.fs.dir (cfg.dst c.name) with
      | none => rw [hd'] at hd; exact absurd hd (by simp)
      | some i => simp only [alone]; rw [e3]; exact hd
    · simp only [h3, if_false, alone, Bool.false_eq_true]
      rw [e2]
      exact hd
  · simp only [h]
    exact hs

theorem body_src (pid : Nat) (cfg : Cfg) (c : Ctx) (r : Reference) (s : Shared) (h1 : cfg.path c.name ≠ cfg.dst c.name)
    (h2 : cfg.path c.name ≠ cfg.bck c.name) (hs : (s.fs.dir (cfg.path c.name)).isSome) :
    ((alone pid (bodyProg cfg c r) s).2.fs.dir (cfg.path c.name)).isSome := by
  unfold bodyProg
  rw [Prog.next, alone_bind]
  have a1 := alone_adds pid _ (destinationProg_adds cfg c r) s _ hs
  have a2 := destination_dst pid cfg c r s
  obtain ⟨⟨o, s1⟩, hx⟩ : ∃ y, alone pid (destinationProg cfg c r) s = y := ⟨_, rfl⟩
  rw [hx] at a1 a2 ⊢
  cases o with
  | ok off =>
    show ((alone pid ((backupProg cfg c).next _) s1).2.fs.dir (cfg.path c.name)).isSome
    rw [Prog.next, alone_bind]
    have b1 := alone_adds pid _ (backupProg_adds cfg c) s1 _ a1
    have b2 := alone_adds pid _ (backupProg_adds cfg c) s1 _ a2
    obtain ⟨⟨o, s2⟩, hx⟩ : ∃ y, alone pid (backupProg cfg c) s1 = y := ⟨_, rfl⟩
    rw [hx] at b1 b2 ⊢
    cases o with
    | ok u =>
      show ((alone pid ((swapProg cfg c).next _) s2).2.fs.dir (cfg.path c.name)).isSome
      rw [Prog.next, alone_bind]
      have c1 := swap_src pid cfg c s2 h1 h2 b1 b2
      obtain ⟨⟨o, s3⟩, hx⟩ : ∃ y, alone pid (swapProg cfg c) s2 = y := ⟨_, rfl⟩
      rw [hx] at c1 ⊢
      cases o <;> exact c1
    | err => exact b1
    | panic => exact b1
    | crash => exact b1
    | hang => exact b1
  | err => exact a1
  | panic => exact a1
  | crash => exact a1
  | hang => exact a1

theorem touch_exists (fs : FS) (p : Name) (h : (fs.dir p).isSome) : fs.touch p = fs := by
  unfold FS.touch
  cases hx : fs.dir p with
  | none => rw [hx] at h; exact absurd h (by simp)
  | some i => rfl

/-- A commit when the database file exists is what is done under the lock. -/
theorem update_body (cfg : Cfg) (c : Ctx) (r : Reference) (fs : FS) (h : (fs.dir (cfg.path c.name)).isSome) :
    (updateDatabaseOnFile cfg calm c r).run ⟨fs, c.conn⟩ = (bodyM cfg c r).run ⟨fs, c.conn⟩ := by
  have e : (updateDatabaseOnFile cfg calm c r).run ⟨fs, c.conn⟩ =
      (bodyM cfg c r).run ⟨fs.touch (cfg.path c.name), c.conn⟩ := rfl
  rw [e, touch_exists fs _ h]

/-! ## The invariant -/

/-- What happens after the commit of a client. -/
def andThen (cfg : Cfg) (k : Out (Conn × Nat) → Client) (o : Out (Conn × Nat)) : Prog Unit :=
  match o with
  | .hang => .ret ()
  | o => (k o).prog cfg

theorem prog_commit (cfg : Cfg) (c : Ctx) (r : Reference) (k : Out (Conn × Nat) → Client) :
    (Client.commit c r k).prog cfg = .op (.lockOpen (cfg.path c.name)) (fun (i : Nat) =>
      .op (.flock i) (fun (got : Bool) =>
        (if got then (bodyProg cfg c r).bind (unlockProg i) else .ret .err).bind (andThen cfg k))) := by
  have e : andThen cfg k = fun o =>
      match o with
      | .hang => .ret ()
      | o => (k o).prog cfg := by
    funext o
    cases o <;> rfl
  rw [e, Client.prog]
  rfl

/-- Nobody is in the critical section. -/
structure Idle (cfg : Cfg) (n : Name) (fs : FS) (cl : Nat → Client) (s : System) : Prop where
  fs : s.shared.fs = fs
  locks : ∀ i, s.shared.locks i = none
  threads : ∀ p, NotStarted cfg (cl p) (s.threads p)

/-- Process `p` is in the critical section: it holds the only lock, and doing the rest alone gives what the whole commit gives
from the state in which it got the lock. -/
structure Busy (cfg : Cfg) (n : Name) (fs : FS) (cl : Nat → Client) (s : System) (p i : Nat) (c : Ctx) (r : Reference)
    (k : Out (Conn × Nat) → Client) (q : Prog (Out (Conn × Nat))) : Prop where
  client : cl p = .commit c r k
  locks : ∀ j x, s.shared.locks j = some x ↔ j = i ∧ x = p
  thread : s.threads p = (q.bind (unlockProg i)).bind (andThen cfg k)
  plain : q.All Op.plain
  rest : alone p q s.shared = alone p (bodyProg cfg c r) ⟨fs, s.shared.locks⟩
  others : ∀ x, x ≠ p → NotStarted cfg (cl x) (s.threads x)
  under : FsGood fs → cfg.dst n ≠ cfg.bck n → ∃ D b, Under (cfg.path n) (cfg.dst n) (cfg.bck n) fs s.shared.fs q D b

/-- The state is explained by the commits done one after the other so far. -/
structure Explained (cfg : Cfg) (n : Name) (start : FS × (Nat → Client)) (s : System) (fs : FS) (cl : Nat → Client) : Prop where
  steps : AtomicSteps cfg start (fs, cl)
  src : (fs.dir (cfg.path n)).isSome
  on : ∀ p, (cl p).On n
  now : Idle cfg n fs cl s ∨ ∃ p i c r k q, Busy cfg n fs cl s p i c r k q

/-- What the next operation of a process that has not started can be. -/
theorem notStarted_cases (cfg : Cfg) (cl : Client) (t : Prog Unit) (h : NotStarted cfg cl t) :
    (cl = .done ∧ t = .ret ()) ∨
    (∃ c r k, cl = .commit c r k ∧ t = cl.prog cfg) ∨
    (∃ c r k i, cl = .commit c r k ∧ t = .op (.flock i) (fun (got : Bool) =>
        (if got then (bodyProg cfg c r).bind (unlockProg i) else .ret .err).bind (andThen cfg k))) := by
  cases cl with
  | done =>
    left
    rcases h with h | ⟨i, k, p, hk, ht⟩
    · exact ⟨rfl, h⟩
    · cases hk
  | commit c r k =>
    right
    rcases h with h | ⟨i, k', p, hk, ht⟩
    · exact .inl ⟨c, r, k, rfl, h⟩
    · refine .inr ⟨c, r, k, i, rfl, ?_⟩
      rw [prog_commit] at hk
      injection hk with ho hk
      injection ho with hp
      subst hp
      cases hk
      exact ht

theorem threads_upd {s : System} {p x : Nat} {t : Prog Unit} (h : x ≠ p) : upd s.threads p t x = s.threads x :=
  upd_ne _ _ h

theorem on_k {n : Name} {cl : Nat → Client} (h : ∀ p, (cl p).On n) {p : Nat} {c : Ctx} {r : Reference}
    {k : Out (Conn × Nat) → Client} (hc : cl p = .commit c r k) (o : Out (Conn × Nat)) :
    ∀ x, (upd cl p (k o) x).On n := by
  intro x
  by_cases hx : x = p
  · subst hx
    rw [upd_self]
    have := h x
    rw [hc] at this
    exact this.2 o
  · rw [upd_ne _ _ hx]
    exact h x

theorem on_name {n : Name} {cl : Nat → Client} (h : ∀ p, (cl p).On n) {p : Nat} {c : Ctx} {r : Reference}
    {k : Out (Conn × Nat) → Client} (hc : cl p = .commit c r k) : c.name = n := by
  have := h p
  rw [hc] at this
  exact this.1

/-- A process refused by the lock. -/
theorem notStarted_refused (cfg : Cfg) (cl : Nat → Client) (ts : Nat → Prog Unit) (p : Nat) (c : Ctx) (r : Reference)
    (k : Out (Conn × Nat) → Client) (x : Nat)
    (h : x ≠ p → NotStarted cfg (cl x) (ts x)) :
    NotStarted cfg (upd cl p (k .err) x) (upd ts p ((k .err).prog cfg) x) := by
  by_cases hx : x = p
  · subst hx
    rw [upd_self, upd_self]
    exact .inl rfl
  · rw [upd_ne _ _ hx, upd_ne _ _ hx]
    exact h hx

/-- Opening the database file for the lock while it exists. -/
theorem notStarted_opened (cfg : Cfg) (cl : Nat → Client) (ts : Nat → Prog Unit) (p : Nat) (c : Ctx) (r : Reference)
    (k : Out (Conn × Nat) → Client) (hc : cl p = .commit c r k) (i : Nat) (x : Nat)
    (h : x ≠ p → NotStarted cfg (cl x) (ts x)) :
    NotStarted cfg (cl x) (upd ts p (.op (.flock i) (fun (got : Bool) =>
        (if got then (bodyProg cfg c r).bind (unlockProg i) else .ret .err).bind (andThen cfg k))) x) := by
  by_cases hx : x = p
  · subst hx
    rw [upd_self, hc]
    exact .inr ⟨i, _, _, prog_commit cfg c r k, rfl⟩
  · rw [upd_ne _ _ hx]
    exact h hx

theorem explained_step {cfg : Cfg} {n : Name} (h1 : cfg.path n ≠ cfg.dst n) (h2 : cfg.path n ≠ cfg.bck n)
    {start : FS × (Nat → Client)} {s : System} {fs : FS} {cl : Nat → Client} (h : Explained cfg n start s fs cl) (p : Nat)
    (hu : Undisturbing (cfg.path n) s p) : ∃ fs' cl', Explained cfg n start (s.step p) fs' cl' := by
  obtain ⟨hsteps, hsrc, hon, hnow⟩ := h
  -- a process that has not started
  have fresh : NotStarted cfg (cl p) (s.threads p) →
      (s.threads p = .ret ()) ∨
      (∃ c r k, cl p = .commit c r k ∧ s.threads p = (Client.commit c r k).prog cfg ∧ LocksCurrent (cfg.path n) s) ∨
      (∃ c r k i, cl p = .commit c r k ∧ LocksCurrent (cfg.path n) s ∧ s.shared.fs.dir (cfg.path n) = some i ∧
        s.threads p = .op (.flock i) (fun (got : Bool) =>
        (if got then (bodyProg cfg c r).bind (unlockProg i) else .ret .err).bind (andThen cfg k))) := by
    intro hn
    rcases notStarted_cases _ _ _ hn with ⟨_, ht⟩ | ⟨c, r, k, hc, ht⟩ | ⟨c, r, k, i, hc, ht⟩
    · exact .inl ht
    · refine .inr (.inl ⟨c, r, k, hc, by rw [ht, hc], ?_⟩)
      rw [hc, prog_commit] at ht
      rw [Undisturbing, ht] at hu
      exact hu
    · refine .inr (.inr ⟨c, r, k, i, hc, ?_, ?_, ht⟩)
      · rw [Undisturbing, ht] at hu
        exact hu.1
      · rw [Undisturbing, ht] at hu
        exact hu.2
  rcases hnow with hi | ⟨p0, i0, c0, r0, k0, q, hb⟩
  · obtain ⟨hfs, hlocks, hthreads⟩ := hi
    rcases fresh (hthreads p) with ht | ⟨c, r, k, hc, ht, hl⟩ | ⟨c, r, k, i, hc, hl, hd, ht⟩
    · refine ⟨fs, cl, hsteps, hsrc, hon, .inl ?_⟩
      rw [System.step, ht]
      exact ⟨hfs, hlocks, hthreads⟩
    · refine ⟨fs, cl, hsteps, hsrc, hon, .inl ?_⟩
      have hname := on_name hon hc
      rw [System.step, ht, prog_commit]
      simp only [exec]
      have hsrc' : (s.shared.fs.dir (cfg.path c.name)).isSome := by rw [hfs, hname]; exact hsrc
      rw [touch_exists _ _ hsrc']
      exact ⟨hfs, hlocks, fun x => notStarted_opened cfg cl s.threads p c r k hc _ x fun _ => hthreads x⟩
    · refine ⟨fs, cl, hsteps, hsrc, hon, .inr ⟨p, i, c, r, k, bodyProg cfg c r, ?_⟩⟩
      rw [System.step, ht]
      simp only [exec, hlocks i]
      refine ⟨hc, ?_, ?_, bodyProg_plain cfg c r, ?_, ?_, fun hg _ => ⟨fun _ => False, false, ?_, ?_, ?_, ?_, ?_, ?_, ?_⟩⟩
      · intro j x
        by_cases hj : j = i
        · subst hj
          simp [upd, eq_comm]
        · simp [upd, hj, hlocks j]
      · simp only [upd_self, if_true]
      · rw [← hfs]
      · intro x hx
        dsimp only
        rw [upd_ne _ _ hx]
        exact hthreads x
      · rw [← on_name hon hc]
        exact bodyProg_fine cfg c r _
      · rw [hfs]
        exact hg
      · intro _ j hj
        exact hj.elim
      · intro _
        exact .inr (by rw [hfs])
      · intro e
        cases e
      · have hn := on_name hon hc
        have hsw := bodyProg_swaps cfg c r (by rw [hn]; exact Ne.symm h2)
        rw [hn] at hsw
        exact hsw
      · intro x _ e
        rw [hfs] at e
        rw [e] at x
        cases x
  · obtain ⟨hc0, hlocks, hthread, hplain, hrest, hothers, hunder⟩ := hb
    by_cases hp : p = p0
    · subst hp
      have hname := on_name hon hc0
      cases q with
      | op o kq =>
        refine ⟨fs, cl, hsteps, hsrc, hon, .inr ⟨p, i0, c0, r0, k0, kq (exec p o s.shared).1, ?_⟩⟩
        have hk := exec_plain p o hplain.1 s.shared
        rw [System.step, hthread]
        refine ⟨hc0, ?_, ?_, hplain.2 _, ?_, ?_, fun hg h3 => ?_⟩
        · simp only [Prog.bind]
          rw [hk]
          exact hlocks
        · simp only [Prog.bind, upd_self]
        · simp only [Prog.bind]
          rw [hk]
          exact hrest
        · intro x hx
          dsimp only [Prog.bind]
          rw [upd_ne _ _ hx]
          exact hothers x hx
        · obtain ⟨D, b, hD⟩ := hunder hg h3
          exact ⟨_, _, (under_step h1 h2 h3 p o kq s.shared D b hD).1⟩
      | ret o =>
        have hbody := sim_body p cfg c0 r0 fs s.shared.locks
        have hb2 := body_src p cfg c0 r0 ⟨fs, s.shared.locks⟩ (by rw [hname]; exact h1) (by rw [hname]; exact h2)
          (by rw [hname]; exact hsrc)
        rw [hname, ← hrest] at hb2
        rw [← hrest] at hbody
        simp only [alone] at hbody hb2
        rw [← update_body cfg c0 r0 fs (by rw [hname]; exact hsrc)] at hbody
        obtain ⟨⟨o', w⟩, hx⟩ : ∃ y, (updateDatabaseOnFile cfg calm c0 r0).run ⟨fs, c0.conn⟩ = y := ⟨_, rfl⟩
        rw [hx] at hbody
        have ho : o = o' := congrArg Prod.fst hbody
        have hw : s.shared.fs = w.fs := congrArg (fun y => y.2.fs) hbody
        subst ho
        have key : o ≠ .hang → s.threads p = .op (.unlock i0) (fun _ => (k0 o).prog cfg) → ∃ fs' cl',
            Explained cfg n start (s.step p) fs' cl' := by
          intro hh ht
          refine ⟨w.fs, upd cl p (k0 o), .tail _ _ _ hsteps (.commit fs cl p c0 r0 k0 o w hc0 hx hh), ?_,
            on_k hon hc0 o, .inl ?_⟩
          · rw [← hw]; exact hb2
          · rw [System.step, ht]
            simp only [exec]
            refine ⟨hw, ?_, ?_⟩
            · intro j
              by_cases hj : j = i0
              · subst hj; exact upd_self _ _ _
              · show upd s.shared.locks i0 none j = none
                rw [upd_ne _ _ hj]
                cases hl : s.shared.locks j with
                | none => rfl
                | some x => exact absurd ((hlocks j x).1 hl).1 hj
            · intro x
              by_cases hx' : x = p
              · subst hx'
                dsimp only
                rw [upd_self, upd_self]
                exact .inl rfl
              · dsimp only
                rw [upd_ne _ _ hx', upd_ne _ _ hx']
                exact hothers x hx'
        cases o with
        | hang =>
          refine ⟨fs, cl, hsteps, hsrc, hon, .inr ⟨p, i0, c0, r0, k0, .ret .hang, ?_⟩⟩
          have : s.step p = s := by
            rw [System.step, hthread]
            rfl
          rw [this]
          exact ⟨hc0, hlocks, hthread, hplain, hrest, hothers, hunder⟩
        | ok a => exact key (by simp) hthread
        | err => exact key (by simp) hthread
        | panic => exact key (by simp) hthread
        | crash => exact key (by simp) hthread
    · rcases fresh (hothers p hp) with ht | ⟨c, r, k, hc, ht, hl⟩ | ⟨c, r, k, i, hc, hl, hd, ht⟩
      · refine ⟨fs, cl, hsteps, hsrc, hon, .inr ⟨p0, i0, c0, r0, k0, q, ?_⟩⟩
        rw [System.step, ht]
        exact ⟨hc0, hlocks, hthread, hplain, hrest, hothers, hunder⟩
      · refine ⟨fs, cl, hsteps, hsrc, hon, .inr ⟨p0, i0, c0, r0, k0, q, ?_⟩⟩
        have hname := on_name hon hc
        have hcur := hl i0 p0 ((hlocks i0 p0).2 ⟨rfl, rfl⟩)
        rw [System.step, ht, prog_commit]
        simp only [exec]
        rw [touch_exists _ _ (by rw [hname, hcur]; rfl)]
        refine ⟨hc0, hlocks, ?_, hplain, hrest, ?_, hunder⟩
        · dsimp only
          rw [upd_ne _ _ (Ne.symm hp)]
          exact hthread
        · intro x hx
          exact notStarted_opened cfg cl s.threads p c r k hc _ x fun _ => hothers x hx
      · have hcur := hl i0 p0 ((hlocks i0 p0).2 ⟨rfl, rfl⟩)
        have hii : i = i0 := by rw [hd] at hcur; exact Option.some.inj hcur
        subst hii
        refine ⟨fs, upd cl p (k .err), .tail _ _ _ hsteps (.refused fs cl p c r k hc), hsrc, on_k hon hc _,
          .inr ⟨p0, i, c0, r0, k0, q, ?_⟩⟩
        rw [System.step, ht]
        simp only [exec, (hlocks i p0).2 ⟨rfl, rfl⟩]
        refine ⟨?_, hlocks, ?_, hplain, hrest, ?_, hunder⟩
        · rw [upd_ne _ _ (Ne.symm hp)]
          exact hc0
        · dsimp only
          rw [upd_ne _ _ (Ne.symm hp)]
          exact hthread
        · intro x hx
          exact notStarted_refused cfg cl s.threads p c r k x fun _ => hothers x hx

theorem explained_run {cfg : Cfg} {n : Name} (h1 : cfg.path n ≠ cfg.dst n) (h2 : cfg.path n ≠ cfg.bck n)
    {start : FS × (Nat → Client)} (schedule : List Nat) : ∀ {s : System} {fs : FS} {cl : Nat → Client},
    Explained cfg n start s fs cl → Undisturbed (cfg.path n) s schedule →
    ∃ fs' cl', Explained cfg n start (s.run schedule) fs' cl' := by
  induction schedule with
  | nil => intro s fs cl h _; exact ⟨fs, cl, h⟩
  | cons p ps ih =>
    intro s fs cl h hu
    obtain ⟨fs', cl', h'⟩ := explained_step h1 h2 h p hu.1
    exact ih h' hu.2

theorem explained_start {cfg : Cfg} {n : Name} {fs : FS} {cs : Nat → Client} (hsrc : (fs.dir (cfg.path n)).isSome)
    (hon : ∀ p, (cs p).On n) : Explained cfg n (fs, cs) (System.start cfg fs cs) fs cs :=
  ⟨.refl _, hsrc, hon, .inl ⟨rfl, fun _ => rfl, fun _ => .inl rfl⟩⟩

end DB
end Rodkina
