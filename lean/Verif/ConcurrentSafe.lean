import Verif.Concurrent
import Verif.DatabaseLemmas
/-!
# What a commit does to the files at each of its operations

A program that holds the lock only writes to the temporary and the backup file it has created, until it renames the temporary
file; afterwards it writes nothing.
-/

namespace Rodkina
namespace DB

open Ref

/-- For the proofs: the operation is one that the part of a commit under the lock
(libs/databases/infrastructure/files/application.go:513-575) may do; `D` are the files it has created, `b` says whether it has renamed. -/
def Op.Fine (src dst bck : Name) : Op → (Nat → Prop) → Bool → Prop
  | .write i _ _, D, b => D i ∧ b = false
  | .create p, _, b => (p = dst ∨ p = bck) ∧ b = false
  | .remove p, _, b => (p = src ∧ b = false) ∨ (p = bck ∧ b = true)
  | .rename p q, _, b => p = dst ∧ q = src ∧ b = false
  | .lockOpen _, _, _ => False
  | .flock _, _, _ => False
  | .unlock _, _, _ => False
  | _, _, _ => True

/-- For the proofs: the files created after the operation (os.Create, libs/databases/infrastructure/files/application.go:527 and 584). -/
def Op.made : (o : Op) → o.Resp → (Nat → Prop) → Nat → Prop
  | .create _, (r : Nat), D => fun j => D j ∨ j = r
  | .lockOpen _, _, D => D
  | .flock _, _, D => D
  | .unlock _, _, D => D
  | .write _ _ _, _, D => D
  | .size _, _, D => D
  | .read _ _ _, _, D => D
  | .readRest _ _, _, D => D
  | .remove _, _, D => D
  | .rename _ _, _, D => D
  | .openFile _, _, D => D

/-- For the proofs: whether the temporary file has been renamed after the operation
(os.Rename, libs/databases/infrastructure/files/application.go:558). -/
def Op.renamed : (o : Op) → o.Resp → Bool → Bool
  | .rename _ _, (r : Bool), b => b || r
  | .create _, _, b => b
  | .lockOpen _, _, b => b
  | .flock _, _, b => b
  | .unlock _, _, b => b
  | .write _ _ _, _, b => b
  | .size _, _, b => b
  | .read _ _ _, _, b => b
  | .readRest _ _, _, b => b
  | .remove _, _, b => b
  | .openFile _, _, b => b

/-- For the proofs: every operation of the program (libs/databases/infrastructure/files/application.go:513-575) is fine, and in the end `Q`. -/
def Prog.Fine {α : Type} (src dst bck : Name) (Q : α → (Nat → Prop) → Bool → Prop) : Prog α → (Nat → Prop) → Bool → Prop
  | .ret a, D, b => Q a D b
  | .op o k, D, b => o.Fine src dst bck D b ∧ ∀ r, (k r).Fine src dst bck Q (o.made r D) (o.renamed r b)

/-- For the proofs: the program renames right after it has removed the database file, and gives up if it cannot
(libs/databases/infrastructure/files/application.go:549-561). -/
def Prog.Swaps {α : Type} (src dst : Name) : Prog (Out α) → Prop
  | .ret _ => True
  | .op (.remove p) k => (p = src → ∃ k', k true = .op (.rename dst src) k' ∧ k' false = .ret .err) ∧
      ∀ r, (k r).Swaps src dst
  | .op _ k => ∀ r, (k r).Swaps src dst

theorem Prog.Swaps.cont {α : Type} {src dst : Name} {o : Op} {k : o.Resp → Prog (Out α)} (h : (Prog.op o k).Swaps src dst) (r : o.Resp) :
    (k r).Swaps src dst := by
  cases o with
  | remove p => exact h.2 r
  | _ => exact h r

theorem Prog.Swaps.next {α β : Type} {src dst : Name} {x : Prog (Out α)} {f : α → Prog (Out β)} (h : x.Swaps src dst)
    (hf : ∀ a, (f a).Swaps src dst) : (x.next f).Swaps src dst := by
  induction x with
  | ret o =>
    cases o with
    | ok a => exact hf a
    | _ => trivial
  | op o k ih =>
    have hk := fun r => ih r (h.cont r)
    cases o with
    | remove p =>
      refine ⟨fun e => ?_, hk⟩
      obtain ⟨k', h1, h2⟩ := h.1 e
      refine ⟨fun r => (k' r).next f, ?_, ?_⟩
      · show (k true).next f = _
        rw [h1]
        rfl
      · show (k' false).next f = _
        rw [h2]
        rfl
    | _ => exact hk

theorem Prog.Fine.mono {α : Type} {src dst bck : Name} {Q Q' : α → (Nat → Prop) → Bool → Prop} {x : Prog α}
    (hQ : ∀ a D b, Q a D b → Q' a D b) {D : Nat → Prop} {b : Bool} (h : x.Fine src dst bck Q D b) :
    x.Fine src dst bck Q' D b := by
  induction x generalizing D b with
  | ret a => exact hQ _ _ _ h
  | op o k ih => exact ⟨h.1, fun r => ih r (h.2 r)⟩

theorem Prog.Fine.bind {α β : Type} {src dst bck : Name} {Q : β → (Nat → Prop) → Bool → Prop} {x : Prog α} {f : α → Prog β}
    {D : Nat → Prop} {b : Bool} (h : x.Fine src dst bck (fun a D b => (f a).Fine src dst bck Q D b) D b) :
    (x.bind f).Fine src dst bck Q D b := by
  induction x generalizing D b with
  | ret a => exact h
  | op o k ih => exact ⟨h.1, fun r => ih r (h.2 r)⟩

/-- For the proofs: the end of a commit (libs/databases/infrastructure/files/application.go:503-576) that has renamed is not an endless loop. -/
def NoHang {α : Type} (o : Out α) (b : Bool) : Prop := b = true → o ≠ .hang

theorem Prog.Fine.next {α β : Type} {src dst bck : Name} {x : Prog (Out α)} {f : α → Prog (Out β)} {D : Nat → Prop} {b : Bool}
    (h : x.Fine src dst bck (fun o D b => NoHang o b ∧ ∀ a, (f a).Fine src dst bck (fun o _ b => NoHang o b) D b) D b) :
    (x.next f).Fine src dst bck (fun o _ b => NoHang o b) D b := by
  refine Prog.Fine.bind (h.mono ?_)
  rintro o D b ⟨h1, h2⟩
  cases o with
  | ok a => exact h2 a
  | err => intro _ h; cases h
  | panic => intro _ h; cases h
  | crash => intro _ h; cases h
  | hang => intro h _; exact h1 h rfl

section
variable {src dst bck : Name}

theorem copyProg_fine (chunk : Nat) (conn : Conn) (d : Nat) (D : Nat → Prop) (hd : D d) : ∀ fuel ro wo,
    (copyProg chunk conn d fuel ro wo).Fine src dst bck (fun _ D' b => D' = D ∧ b = false) D false
  | 0, _, _ => ⟨rfl, rfl⟩
  | fuel + 1, ro, wo => by
    refine ⟨trivial, fun r => ?_⟩
    cases r with
    | ok b => exact ⟨⟨hd, rfl⟩, fun _ => copyProg_fine chunk conn d D hd fuel _ _⟩
    | err => exact ⟨rfl, rfl⟩
    | panic => exact ⟨rfl, rfl⟩

theorem size_fine (b : Bool) (i : Nat) (G : Nat → Prog (Out Nat)) (D : Nat → Prop)
    (h : ∀ n, (G n).Fine src dst bck (fun _ D' b => D' = D ∧ b = false) D false) :
    (if b then Prog.op (.size i) G else .ret .panic).Fine src dst bck (fun _ D' b => D' = D ∧ b = false) D false := by
  cases b with
  | true => exact ⟨trivial, h⟩
  | false => exact ⟨rfl, rfl⟩

theorem copyOldProg_fine (cfg : Cfg) (c : Ctx) (d wo : Nat) (D : Nat → Prop) (hd : D d) :
    (copyOldProg cfg c d wo).Fine src dst bck (fun _ D' b => D' = D ∧ b = false) D false := by
  unfold copyOldProg
  cases c.reference with
  | none => exact ⟨rfl, rfl⟩
  | some r => exact size_fine _ _ _ D fun n => copyProg_fine _ _ d D hd _ _ _

theorem contentsProg_fine (d : Nat) (D : Nat → Prop) (hd : D d) : ∀ (xs : List Content) wo,
    (contentsProg d wo xs).Fine src dst bck (fun _ D' b => D' = D ∧ b = false) D false
  | [], _ => ⟨rfl, rfl⟩
  | _ :: xs, _ => ⟨⟨hd, rfl⟩, fun _ => contentsProg_fine d D hd xs _⟩

theorem destinationProg_fine (cfg : Cfg) (c : Ctx) (r : Reference) (D : Nat → Prop) :
    (destinationProg cfg c r).Fine src (cfg.dst c.name) bck (fun _ _ b => b = false) D false := by
  refine ⟨⟨.inl rfl, rfl⟩, fun (d : Nat) => ⟨⟨.inr rfl, rfl⟩, fun _ => ?_⟩⟩
  refine Prog.Fine.bind ((copyOldProg_fine cfg c d _ _ (.inr rfl)).mono ?_)
  rintro o _ _ ⟨rfl, rfl⟩
  cases o with
  | ok wo =>
    refine Prog.Fine.bind ((contentsProg_fine d _ (.inr rfl) _ _).mono ?_)
    rintro o _ _ ⟨rfl, rfl⟩
    cases o <;> exact rfl
  | _ => exact rfl

theorem backupProg_fine (cfg : Cfg) (c : Ctx) (D : Nat → Prop) :
    (backupProg cfg c).Fine src dst (cfg.bck c.name) (fun _ _ b => b = false) D false := by
  refine ⟨⟨.inr rfl, rfl⟩, fun (i : Nat) => ?_⟩
  dsimp only
  cases c.conn.isOpen with
  | true => exact ⟨trivial, fun _ => ⟨⟨.inr rfl, rfl⟩, fun _ => rfl⟩⟩
  | false => exact rfl

theorem swapProg_fine (cfg : Cfg) (c : Ctx) (D : Nat → Prop) :
    (swapProg cfg c).Fine (cfg.path c.name) (cfg.dst c.name) (cfg.bck c.name) (fun o _ b => NoHang o b) D false := by
  unfold swapProg
  cases c.conn.isOpen with
  | false => intro h; cases h
  | true =>
    refine ⟨.inl ⟨rfl, rfl⟩, fun (r : Bool) => ?_⟩
    cases r with
    | false => intro _ h; cases h
    | true =>
      refine ⟨⟨rfl, rfl, rfl⟩, fun (r : Bool) => ?_⟩
      cases r with
      | false => intro _ h; cases h
      | true =>
        refine ⟨.inr ⟨rfl, rfl⟩, fun (r : Bool) => ?_⟩
        cases r with
        | false => intro _ h; cases h
        | true =>
          refine ⟨trivial, fun (r : Option Nat) => ?_⟩
          cases r <;> (intro _ h; cases h)

/-- What is done under the lock is fine. -/
theorem bodyProg_fine (cfg : Cfg) (c : Ctx) (r : Reference) (D : Nat → Prop) :
    (bodyProg cfg c r).Fine (cfg.path c.name) (cfg.dst c.name) (cfg.bck c.name) (fun o _ b => NoHang o b) D false := by
  refine Prog.Fine.next ((destinationProg_fine cfg c r D).mono ?_)
  rintro o D b rfl
  refine ⟨fun h => (by cases h), fun off => Prog.Fine.next ((backupProg_fine cfg c D).mono ?_)⟩
  rintro o D b rfl
  refine ⟨fun h => (by cases h), fun _ => Prog.Fine.next ((swapProg_fine cfg c D).mono ?_)⟩
  intro o D b h
  exact ⟨h, fun a _ h => by cases h⟩

theorem copyProg_swaps (chunk : Nat) (conn : Conn) (d : Nat) : ∀ fuel ro wo, (copyProg chunk conn d fuel ro wo).Swaps src dst
  | 0, _, _ => trivial
  | fuel + 1, ro, wo => by
    intro r
    cases r with
    | ok b => exact fun _ => copyProg_swaps chunk conn d fuel _ _
    | err => trivial
    | panic => trivial

theorem size_swaps (b : Bool) (i : Nat) (G : Nat → Prog (Out Nat)) (h : ∀ n, (G n).Swaps src dst) :
    (if b then Prog.op (.size i) G else .ret .panic).Swaps src dst := by
  cases b with
  | true => exact h
  | false => trivial

theorem copyOldProg_swaps (cfg : Cfg) (c : Ctx) (d wo : Nat) : (copyOldProg cfg c d wo).Swaps src dst := by
  unfold copyOldProg
  cases c.reference with
  | none => trivial
  | some r => exact size_swaps _ _ _ fun n => copyProg_swaps _ _ d _ _ _

theorem contentsProg_swaps (d : Nat) : ∀ (xs : List Content) wo, (contentsProg d wo xs).Swaps src dst
  | [], _ => trivial
  | _ :: xs, _ => fun _ => contentsProg_swaps d xs _

theorem bodyProg_swaps (cfg : Cfg) (c : Ctx) (r : Reference) (h : cfg.bck c.name ≠ cfg.path c.name) :
    (bodyProg cfg c r).Swaps (cfg.path c.name) (cfg.dst c.name) := by
  refine Prog.Swaps.next ?_ fun off => Prog.Swaps.next ?_ fun _ => Prog.Swaps.next ?_ fun _ => trivial
  · exact fun d _ => Prog.Swaps.next (copyOldProg_swaps cfg c _ _) fun wo => Prog.Swaps.next (contentsProg_swaps _ _ _) fun _ => trivial
  · intro b
    dsimp only
    cases c.conn.isOpen with
    | true => exact fun _ _ => trivial
    | false => trivial
  · unfold swapProg
    cases c.conn.isOpen with
    | false => trivial
    | true =>
      refine ⟨fun _ => ⟨_, rfl, rfl⟩, fun (ok : Bool) => ?_⟩
      cases ok with
      | false => trivial
      | true =>
        intro (ok : Bool)
        cases ok with
        | false => trivial
        | true =>
          refine ⟨fun e => absurd e h, fun (ok : Bool) => ?_⟩
          cases ok with
          | false => trivial
          | true =>
            intro (i : Option Nat)
            cases i <;> trivial

end

/-- For the proofs: where a process is in its commit (libs/databases/infrastructure/files/application.go:513-575): the files are well formed; until it renames, the files it has created are the temporary and
the backup file, and the database file is as it was or missing; when the database file is missing, renaming is the next operation; after it has renamed, there is a database file. -/
structure Under (src dst bck : Name) (fs0 fs : FS) {α : Type} (q : Prog (Out α)) (D : Nat → Prop) (b : Bool) : Prop where
  fine : q.Fine src dst bck (fun o _ b => NoHang o b) D b
  good : FsGood fs
  made : b = false → ∀ j, D j → fs.dir dst = some j ∨ fs.dir bck = some j
  before : b = false → fs.dir src = none ∨ fs.file src = fs0.file src
  after : b = true → (fs.dir src).isSome
  swaps : q.Swaps src dst
  gone : (fs0.dir src).isSome → b = false → fs.dir src = none →
    q = .ret .err ∨ ∃ k : Bool → Prog (Out α), q = .op (.rename dst src) k ∧ k false = .ret .err

/-- For the proofs: a file that is neither the temporary nor the backup file (names: libs/databases/infrastructure/files/application.go:521-527 and 578-584). -/
def Settled (dst bck : Name) (fs : FS) (i : Nat) : Prop := i < fs.next ∧ fs.dir dst ≠ some i ∧ fs.dir bck ≠ some i

theorem settled_src {src dst bck : Name} (h1 : src ≠ dst) (h2 : src ≠ bck) {fs : FS} (g : FsGood fs) {i : Nat}
    (h : fs.dir src = some i) : Settled dst bck fs i :=
  ⟨g.1 _ _ h, fun e => h1 (g.2 _ _ _ h e), fun e => h2 (g.2 _ _ _ h e)⟩

/-- The file of the path is the same: it names the same inode, which has the same bytes. -/
theorem file_same {fs fs' : FS} {p : Name} (h : fs'.dir p = fs.dir p) (hi : ∀ i, fs.dir p = some i → fs'.ino i = fs.ino i) :
    fs'.file p = fs.file p := by
  unfold FS.file
  rw [h]
  cases e : fs.dir p with
  | none => rfl
  | some i => simp [hi i e]

theorem create_ino_other {fs : FS} {p : Name} {i : Nat} (hi : i < fs.next) (h : fs.dir p ≠ some i) :
    (fs.create p).ino i = fs.ino i := by
  unfold FS.create
  cases e : fs.dir p with
  | some j =>
    simp only
    rw [upd_ne]
    rintro rfl
    exact h e
  | none =>
    simp only
    rw [upd_ne]
    omega

theorem create_next (fs : FS) (p : Name) : fs.next ≤ (fs.create p).next := by
  unfold FS.create
  cases fs.dir p <;> simp

theorem create_settled {dst bck p : Name} (hp : p = dst ∨ p = bck) (hne : dst ≠ bck) {fs : FS} {i : Nat}
    (h : Settled dst bck fs i) : Settled dst bck (fs.create p) i ∧ (fs.create p).ino i = fs.ino i := by
  have hd : fs.dir p ≠ some i := by
    rcases hp with rfl | rfl
    · exact h.2.1
    · exact h.2.2
  have hfresh : (fs.create p).dir p ≠ some i := by
    rw [create_dir_self]
    unfold FS.createIno
    cases e : fs.dir p with
    | some j => intro e'; injection e' with e'; subst e'; exact hd e
    | none => intro e'; injection e' with e'; have := h.1; exact absurd e'.symm (Nat.ne_of_lt this)
  refine ⟨⟨Nat.lt_of_lt_of_le h.1 (create_next fs p), ?_, ?_⟩, create_ino_other h.1 hd⟩
  · by_cases e : dst = p
    · rw [e]; exact hfresh
    · rw [create_dir_ne fs e]; exact h.2.1
  · by_cases e : bck = p
    · rw [e]; exact hfresh
    · rw [create_dir_ne fs e]; exact h.2.2

/-- One operation of a commit: it leaves every settled file as it is, and the process is further in its commit. -/
theorem under_step {src dst bck : Name} (h1 : src ≠ dst) (h2 : src ≠ bck) (h3 : dst ≠ bck) {α : Type} {fs0 : FS} (pid : Nat)
    (o : Op) (k : o.Resp → Prog (Out α)) (s : Shared) (D : Nat → Prop) (b : Bool) (h : Under src dst bck fs0 s.fs (.op o k) D b) :
    Under src dst bck fs0 (exec pid o s).2.fs (k (exec pid o s).1) (o.made (exec pid o s).1 D) (o.renamed (exec pid o s).1 b) ∧
    ∀ i, Settled dst bck s.fs i → Settled dst bck (exec pid o s).2.fs i ∧ (exec pid o s).2.fs.ino i = s.fs.ino i := by
  obtain ⟨⟨hf, hk⟩, hg, hm, hb, ha, hsw, hgo⟩ := h
  have hk' := hk (exec pid o s).1
  have hsw' := hsw.cont (exec pid o s).1
  cases o with
  | lockOpen p => exact hf.elim
  | flock i => exact hf.elim
  | unlock i => exact hf.elim
  | size i =>
    exact ⟨⟨hk', hg, hm, hb, ha, hsw', fun h h' e => (hgo h h' e).elim (fun x => by cases x) fun ⟨k, x, _⟩ => by cases x⟩,
      fun i hi => ⟨hi, rfl⟩⟩
  | read c l off =>
    exact ⟨⟨hk', hg, hm, hb, ha, hsw', fun h h' e => (hgo h h' e).elim (fun x => by cases x) fun ⟨k, x, _⟩ => by cases x⟩,
      fun i hi => ⟨hi, rfl⟩⟩
  | readRest i pos =>
    exact ⟨⟨hk', hg, hm, hb, ha, hsw', fun h h' e => (hgo h h' e).elim (fun x => by cases x) fun ⟨k, x, _⟩ => by cases x⟩,
      fun i hi => ⟨hi, rfl⟩⟩
  | openFile p =>
    exact ⟨⟨hk', hg, hm, hb, ha, hsw', fun h h' e => (hgo h h' e).elim (fun x => by cases x) fun ⟨k, x, _⟩ => by cases x⟩,
      fun i hi => ⟨hi, rfl⟩⟩
  | write j off bs =>
    obtain ⟨hj, rfl⟩ := hf
    have hother : ∀ i, Settled dst bck s.fs i → (s.fs.write j off bs).ino i = s.fs.ino i := by
      intro i hi
      simp only [FS.write]
      rw [upd_ne]
      rintro rfl
      rcases hm rfl _ hj with e | e
      · exact hi.2.1 e
      · exact hi.2.2 e
    refine ⟨⟨hk', hg, hm, fun _ => ?_, fun e => (by cases e), hsw', fun h h' e => (hgo h h' e).elim (fun x => by cases x)
      fun ⟨k, x, _⟩ => by cases x⟩, fun i hi => ⟨hi, hother i hi⟩⟩
    refine (hb rfl).imp id fun e => ?_
    rw [← e]
    exact file_same rfl fun i hi => hother i (settled_src h1 h2 hg hi)
  | create p =>
    obtain ⟨hp, rfl⟩ := hf
    have hps : src ≠ p := by rcases hp with rfl | rfl <;> assumption
    refine ⟨⟨hk', create_good hg p, fun _ => ?_, fun _ => ?_, fun e => (by cases e), hsw', fun h h' e => ?_⟩,
      fun i hi => create_settled hp h3 hi⟩
    · intro j hj
      rcases hj with hj | rfl
      · have key : ∀ q, s.fs.dir q = some j → (s.fs.create p).dir q = some j := by
          intro q hq
          by_cases e : q = p
          · subst e
            rw [create_dir_self]
            unfold FS.createIno
            rw [hq]
            rfl
          · rw [create_dir_ne _ e]; exact hq
        exact (hm rfl j hj).imp (key _) (key _)
      · rcases hp with rfl | rfl
        · exact .inl (create_dir_self _ _)
        · exact .inr (create_dir_self _ _)
    · refine (hb rfl).imp (fun e => ?_) fun e => ?_
      · show (s.fs.create p).dir src = none
        rw [create_dir_ne _ hps]; exact e
      · rw [← e]
        exact file_same (create_dir_ne _ hps) fun i hi => (create_settled hp h3 (settled_src h1 h2 hg hi)).2
    · have e : (s.fs.create p).dir src = none := e
      rw [create_dir_ne _ hps] at e
      exact (hgo h h' e).elim (fun x => by cases x) fun ⟨k, x, _⟩ => by cases x
  | remove p =>
    have hg' : FsGood (exec pid (.remove p) s).2.fs := by
      simp only [exec]
      split
      · exact (remove_touches s.fs p (fun _ => True) (fun _ => False) trivial).good hg
      · exact hg
    have hset : ∀ i, Settled dst bck s.fs i → Settled dst bck (exec pid (.remove p) s).2.fs i ∧
        (exec pid (.remove p) s).2.fs.ino i = s.fs.ino i := by
      intro i hi
      simp only [exec]
      split
      · refine ⟨⟨hi.1, ?_, ?_⟩, rfl⟩
        · simp only [FS.remove, upd]; split
          · simp
          · exact hi.2.1
        · simp only [FS.remove, upd]; split
          · simp
          · exact hi.2.2
      · exact ⟨hi, rfl⟩
    refine ⟨⟨hk', hg', ?_, ?_, ?_, hsw', ?_⟩, hset⟩
    · rintro rfl j hj
      rcases hf with ⟨rfl, _⟩ | ⟨_, e⟩
      · have := hm rfl j hj
        simp only [exec]
        split
        · simp only [FS.remove]
          rw [upd_ne _ _ (Ne.symm h1), upd_ne _ _ (Ne.symm h2)]
          exact this
        · exact this
      · cases e
    · rintro rfl
      rcases hf with ⟨rfl, _⟩ | ⟨_, e⟩
      · simp only [exec]
        split
        · exact .inl (upd_self _ _ _)
        · exact hb rfl
      · cases e
    · rintro rfl
      rcases hf with ⟨_, e⟩ | ⟨rfl, _⟩
      · cases e
      · simp only [exec]
        split
        · simp only [FS.remove]
          rw [upd_ne _ _ h2]
          exact ha rfl
        · exact ha rfl
    · rintro h rfl e
      rcases hf with ⟨rfl, _⟩ | ⟨_, e⟩
      · cases hx : (s.fs.dir p).isSome with
        | true =>
          have e1 : (exec pid (.remove p) s).1 = true := by simp [exec, hx]
          rw [e1]
          obtain ⟨k', q1, q2⟩ := hsw.1 rfl
          exact .inr ⟨k', q1, q2⟩
        | false =>
          have e2 : s.fs.dir p = none := by
            cases hy : s.fs.dir p with
            | none => rfl
            | some i => rw [hy] at hx; cases hx
          exact (hgo h rfl e2).elim (fun x => by cases x) fun ⟨k, x, _⟩ => by cases x
      · cases e
  | rename p q =>
    obtain ⟨rfl, rfl, rfl⟩ := hf
    cases e : (s.fs.dir p).isSome with
    | false =>
      have e1 : (exec pid (.rename p q) s) = (false, s) := by simp [exec, e]
      rw [e1] at hk' ⊢
      refine ⟨⟨hk', hg, hm, hb, ha, hsw.cont false, fun h h' e => ?_⟩, fun i hi => ⟨hi, rfl⟩⟩
      rcases hgo h h' e with x | ⟨k', x, y⟩
      · cases x
      · cases x
        exact .inl y
    | true =>
      have e1 : (exec pid (.rename p q) s) = (true, { s with fs := s.fs.rename p q }) := by simp [exec, e]
      rw [e1] at hk' ⊢
      refine ⟨⟨hk', (rename_touches s.fs p q (fun _ => True) (fun _ => False) trivial trivial (Ne.symm h1) id).good hg,
        fun e => (by cases e), fun e => (by cases e), fun _ => ?_, hsw.cont true, fun _ e => (by cases e)⟩, fun i hi => ⟨⟨hi.1, ?_, ?_⟩, rfl⟩⟩
      · simp only [FS.rename]
        rw [upd_ne _ _ h1, upd_self]
        exact e
      · simp [FS.rename, upd]
      · simp only [FS.rename]
        rw [upd_ne _ _ (Ne.symm h3), upd_ne _ _ (Ne.symm h2)]
        exact hi.2.2

end DB
end Rodkina
