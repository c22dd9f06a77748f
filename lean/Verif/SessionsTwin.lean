import Verif.SessionsSpec
import Verif.ConcurrentLemmas
/-!
# Two runs that differ in the numbers of their inodes only
-/

namespace Rodkina
namespace DB

open Ref

set_option linter.unusedVariables false

/-- Which inode of the one run is which inode of the other. -/
abbrev Ren := Nat → Nat → Prop

/-- Programs that perform the same operations on paths in `P`, up to the inodes. -/
inductive Twin {α β : Type} (P : Name → Prop) (R : Ren → α → β → Prop) : Ren → Prog α → Prog β → Prop where
  | ret {F a b} (h : R F a b) : Twin P R F (.ret a) (.ret b)
  | lockOpen {F p} {k : Nat → Prog α} {k' : Nat → Prog β} (hp : P p)
      (h : ∀ F' : Ren, (∀ i j, F i j → F' i j) → ∀ i j, F' i j → Twin P R F' (k i) (k' j)) :
      Twin P R F (.op (.lockOpen p) k) (.op (.lockOpen p) k')
  | flock {F i j} {k : Bool → Prog α} {k' : Bool → Prog β} (hi : F i j) (h : ∀ b, Twin P R F (k b) (k' b)) :
      Twin P R F (.op (.flock i) k) (.op (.flock j) k')
  | unlock {F i j} {k : Unit → Prog α} {k' : Unit → Prog β} (hi : F i j) (h : Twin P R F (k ()) (k' ())) :
      Twin P R F (.op (.unlock i) k) (.op (.unlock j) k')
  | create {F p} {k : Nat → Prog α} {k' : Nat → Prog β} (hp : P p)
      (h : ∀ F' : Ren, (∀ i j, F i j → F' i j) → ∀ i j, F' i j → Twin P R F' (k i) (k' j)) :
      Twin P R F (.op (.create p) k) (.op (.create p) k')
  | write {F i j off bs} {k : Unit → Prog α} {k' : Unit → Prog β} (hi : F i j) (h : Twin P R F (k ()) (k' ())) :
      Twin P R F (.op (.write i off bs) k) (.op (.write j off bs) k')
  | size {F i j} {k : Nat → Prog α} {k' : Nat → Prog β} (hi : F i j) (h : ∀ n, Twin P R F (k n) (k' n)) :
      Twin P R F (.op (.size i) k) (.op (.size j) k')
  | read {F i j pos o len off} {k : Res Bytes → Prog α} {k' : Res Bytes → Prog β} (hi : F i j)
      (h : ∀ r, Twin P R F (k r) (k' r)) :
      Twin P R F (.op (.read ⟨i, pos, o⟩ len off) k) (.op (.read ⟨j, pos, o⟩ len off) k')
  | readRest {F i j pos} {k : Bytes → Prog α} {k' : Bytes → Prog β} (hi : F i j) (h : ∀ r, Twin P R F (k r) (k' r)) :
      Twin P R F (.op (.readRest i pos) k) (.op (.readRest j pos) k')
  | remove {F p} {k : Bool → Prog α} {k' : Bool → Prog β} (hp : P p) (h : ∀ b, Twin P R F (k b) (k' b)) :
      Twin P R F (.op (.remove p) k) (.op (.remove p) k')
  | rename {F p q} {k : Bool → Prog α} {k' : Bool → Prog β} (hp : P p) (hq : P q) (h : ∀ b, Twin P R F (k b) (k' b)) :
      Twin P R F (.op (.rename p q) k) (.op (.rename p q) k')
  | openNone {F p} {k : Option Nat → Prog α} {k' : Option Nat → Prog β} (hp : P p)
      (h : Twin P R F (k none) (k' none)) (h' : ∀ i j, F i j → Twin P R F (k (some i)) (k' (some j))) :
      Twin P R F (.op (.openFile p) k) (.op (.openFile p) k')

theorem Twin.bind {α β γ δ : Type} {P : Name → Prop} {R : Ren → α → β → Prop} {T : Ren → γ → δ → Prop} {F : Ren}
    {x : Prog α} {y : Prog β} (h : Twin P R F x y) {f : α → Prog γ} {g : β → Prog δ}
    (hf : ∀ F' : Ren, (∀ i j, F i j → F' i j) → ∀ a b, R F' a b → Twin P T F' (f a) (g b)) :
    Twin P T F (x.bind f) (y.bind g) := by
  induction h with
  | ret h => exact hf _ (fun _ _ h => h) _ _ h
  | lockOpen hp h ih =>
    exact .lockOpen hp fun F' hF i j hij => ih F' hF i j hij fun F'' hF' a b hab =>
      hf F'' (fun _ _ h => hF' _ _ (hF _ _ h)) a b hab
  | flock hi h ih => exact .flock hi fun b => ih b hf
  | unlock hi h ih => exact .unlock hi (ih hf)
  | create hp h ih =>
    exact .create hp fun F' hF i j hij => ih F' hF i j hij fun F'' hF' a b hab =>
      hf F'' (fun _ _ h => hF' _ _ (hF _ _ h)) a b hab
  | write hi h ih => exact .write hi (ih hf)
  | size hi h ih => exact .size hi fun n => ih n hf
  | read hi h ih => exact .read hi fun n => ih n hf
  | readRest hi h ih => exact .readRest hi fun n => ih n hf
  | remove hp h ih => exact .remove hp fun n => ih n hf
  | rename hp hq h ih => exact .rename hp hq fun n => ih n hf
  | openNone hp h h' ih ih' => exact .openNone hp (ih hf) fun i j hij => ih' i j hij hf

/-- Outcomes that agree up to `R`. -/
inductive OutRel {α β : Type} (R : Ren → α → β → Prop) (F : Ren) : Out α → Out β → Prop where
  | ok {a b} (h : R F a b) : OutRel R F (.ok a) (.ok b)
  | err : OutRel R F .err .err
  | panic : OutRel R F .panic .panic
  | crash : OutRel R F .crash .crash
  | hang : OutRel R F .hang .hang

theorem Twin.next {α β γ δ : Type} {P : Name → Prop} {R : Ren → α → β → Prop} {T : Ren → γ → δ → Prop} {F : Ren}
    {x : Prog (Out α)} {y : Prog (Out β)} (h : Twin P (OutRel R) F x y) {f : α → Prog (Out γ)} {g : β → Prog (Out δ)}
    (hf : ∀ F' : Ren, (∀ i j, F i j → F' i j) → ∀ a b, R F' a b → Twin P (OutRel T) F' (f a) (g b)) :
    Twin P (OutRel T) F (x.next f) (y.next g) := by
  refine h.bind fun F' hF a b hab => ?_
  cases hab with
  | ok h => exact hf F' hF _ _ h
  | err => exact .ret .err
  | panic => exact .ret .panic
  | crash => exact .ret .crash
  | hang => exact .ret .hang

/-- The same value. -/
abbrev Same {α : Type} : Ren → α → α → Prop := fun _ a b => a = b

/-- The same context on another inode. -/
def Ctx.on (c : Ctx) (j : Nat) : Ctx := { c with conn := { c.conn with ino := j } }

theorem twin_copy {P : Name → Prop} {F : Ren} {chunk i j d d' pos : Nat} {o : Bool} (hi : F i j) (hd : F d d') :
    ∀ fuel ro wo, Twin P (OutRel Same) F (copyProg chunk ⟨i, pos, o⟩ d fuel ro wo) (copyProg chunk ⟨j, pos, o⟩ d' fuel ro wo)
  | 0, _, _ => .ret .hang
  | fuel + 1, ro, wo => .read hi fun r => by
      cases r with
      | ok b => exact .write hd (twin_copy hi hd fuel _ _)
      | err => exact .ret (.ok rfl)
      | panic => exact .ret .panic

theorem twin_ite {α β : Type} {P : Name → Prop} {R : Ren → α → β → Prop} {F : Ren} (b : Bool) {x y : Prog α} {x' y' : Prog β}
    (h : b = true → Twin P R F x x') (h' : b = false → Twin P R F y y') :
    Twin P R F (if b then x else y) (if b then x' else y') := by
  cases b
  · exact h' rfl
  · exact h rfl

theorem twin_size {P : Name → Prop} {F : Ren} {i j : Nat} (hi : F i j) (b : Bool) {G G' : Nat → Prog (Out Nat)}
    (h : ∀ n, Twin P (OutRel Same) F (G n) (G' n)) :
    Twin P (OutRel Same) F (if b then Prog.op (.size i) G else .ret .panic) (if b then Prog.op (.size j) G' else .ret .panic) := by
  cases b
  · exact .ret .panic
  · exact .size hi h

theorem twin_copyOld {P : Name → Prop} {F : Ren} (cfg : Cfg) (c : Ctx) {j d d' : Nat} (wo : Nat) (hi : F c.conn.ino j)
    (hd : F d d') : Twin P (OutRel Same) F (copyOldProg cfg c d wo) (copyOldProg cfg (c.on j) d' wo) := by
  obtain ⟨n, ⟨i, pos, o⟩, r, off, l⟩ := c
  unfold copyOldProg
  simp only [Ctx.on]
  cases r with
  | none => exact .ret (.ok rfl)
  | some r => exact twin_size hi o fun n => by apply twin_copy hi hd

theorem twin_contents {P : Name → Prop} {F : Ren} {d d' : Nat} (hd : F d d') : ∀ (xs : List Content) wo,
    Twin P (OutRel Same) F (contentsProg d wo xs) (contentsProg d' wo xs)
  | [], _ => .ret (.ok rfl)
  | _ :: xs, _ => .write hd (twin_contents hd xs _)

theorem twin_destination {P : Name → Prop} {F : Ren} (cfg : Cfg) (c : Ctx) {j : Nat} (r : Reference) (hi : F c.conn.ino j)
    (hp : P (cfg.dst c.name)) : Twin P (OutRel Same) F (destinationProg cfg c r) (destinationProg cfg (c.on j) r) :=
  .create hp fun F' hF d d' hd => .write hd <|
    (twin_copyOld cfg c _ (hF _ _ hi) hd).next fun F'' hF' wo wo' hw => by
      cases hw
      exact (twin_contents (hF' _ _ hd) c.contentList wo).next fun _ _ _ _ _ => .ret (.ok rfl)

theorem twin_backup {P : Name → Prop} {F : Ren} (cfg : Cfg) (c : Ctx) {j : Nat} (hi : F c.conn.ino j)
    (hp : P (cfg.bck c.name)) : Twin P (OutRel Same) F (backupProg cfg c) (backupProg cfg (c.on j)) := by
  refine .create hp fun F' hF d d' hd => ?_
  simp only [Ctx.on]
  refine twin_ite _ (fun _ => ?_) (fun _ => .ret .err)
  · exact .readRest (hF _ _ hi) fun bs => .write hd (.ret (.ok rfl))

/-- The same handle up to the inode. -/
def ConnRel (F : Ren) (c d : Conn) : Prop := F c.ino d.ino ∧ c.pos = d.pos ∧ c.isOpen = d.isOpen

theorem twin_swap {P : Name → Prop} {F : Ren} (cfg : Cfg) (c : Ctx) {j : Nat} (h1 : P (cfg.path c.name))
    (h2 : P (cfg.dst c.name)) (h3 : P (cfg.bck c.name)) :
    Twin P (OutRel ConnRel) F (swapProg cfg c) (swapProg cfg (c.on j)) := by
  unfold swapProg
  simp only [Ctx.on]
  refine twin_ite _ (fun _ => ?_) (fun _ => .ret .err)
  refine .remove h1 fun b => ?_
  cases b
  · exact .ret .err
  refine .rename h2 h1 fun b => ?_
  cases b
  · exact .ret .err
  refine .remove h3 fun b => ?_
  cases b
  · exact .ret .err
  exact .openNone h1 (.ret .err) fun i j hij => .ret (.ok ⟨hij, rfl, rfl⟩)

/-- The same handle up to the inode, and the same offset. -/
def BodyRel (F : Ren) (x y : Conn × Nat) : Prop := ConnRel F x.1 y.1 ∧ x.2 = y.2

theorem twin_body {P : Name → Prop} {F : Ren} (cfg : Cfg) (c : Ctx) {j : Nat} (r : Reference) (hi : F c.conn.ino j)
    (h1 : P (cfg.path c.name)) (h2 : P (cfg.dst c.name)) (h3 : P (cfg.bck c.name)) :
    Twin P (OutRel BodyRel) F (bodyProg cfg c r) (bodyProg cfg (c.on j) r) :=
  (twin_destination cfg c r hi h2).next fun F' hF off off' ho =>
    (twin_backup cfg c (hF _ _ hi) h3).next fun F'' hF' _ _ _ =>
      (twin_swap cfg c h1 h2 h3).next fun F3 hF3 x y hxy => .ret (.ok ⟨hxy, ho⟩)

theorem twin_unlock {P : Name → Prop} {F : Ren} {i j : Nat} (hi : F i j) {o o' : Out (Conn × Nat)}
    (h : OutRel BodyRel F o o') : Twin P (OutRel BodyRel) F (unlockProg i o) (unlockProg j o') := by
  cases h with
  | ok h => exact .unlock hi (.ret (.ok h))
  | err => exact .unlock hi (.ret .err)
  | panic => exact .unlock hi (.ret .panic)
  | crash => exact .unlock hi (.ret .crash)
  | hang => exact .ret .hang

/-- The same context up to the inode of its handle. -/
def CtxRel (F : Ren) (c d : Ctx) : Prop := ∃ j, F c.conn.ino j ∧ d = c.on j

/-- What `lockedProg` returns, up to inodes; the context keeps its name. -/
def LockedRel (n : Name) (F : Ren) : Option (Ctx × Bool) → Option (Ctx × Bool) → Prop
  | some (c, b), some (d, b') => CtxRel F c d ∧ b = b' ∧ c.name = n
  | none, none => True
  | _, _ => False

theorem twin_locked {P : Name → Prop} {F : Ren} (cfg : Cfg) (c : Ctx) {j : Nat} (r : Reference) (hi : F c.conn.ino j)
    (h1 : P (cfg.path c.name)) (h2 : P (cfg.dst c.name)) (h3 : P (cfg.bck c.name)) :
    Twin P (LockedRel c.name) F (lockedProg cfg c r) (lockedProg cfg (c.on j) r) := by
  refine .lockOpen h1 fun F' hF l l' hl => .flock hl fun b => ?_
  cases b
  · exact .ret ⟨⟨j, hF _ _ hi, rfl⟩, rfl, rfl⟩
  · refine Twin.bind (R := OutRel BodyRel) ?_ fun F2 hF2 o o' ho => ?_
    · exact (twin_body cfg c r (hF _ _ hi) h1 h2 h3).bind fun F3 hF3 o o' ho => twin_unlock (hF3 _ _ hl) ho
    · cases ho with
      | ok h =>
        obtain ⟨⟨a1, a2, a3⟩, a4⟩ := h
        rename_i x y
        obtain ⟨⟨xi, xp, xo⟩, xn⟩ := x
        obtain ⟨⟨yi, yp, yo⟩, yn⟩ := y
        simp only at a1 a2 a3 a4
        subst a2 a3 a4
        exact .ret ⟨⟨yi, a1, rfl⟩, rfl, rfl⟩
      | err => exact .ret ⟨⟨j, hF2 _ _ (hF _ _ hi), rfl⟩, rfl, rfl⟩
      | panic => exact .ret trivial
      | crash => exact .ret trivial
      | hang => exact .ret trivial

theorem twin_readLoop {P : Name → Prop} {F : Ren} {i j : Nat} (hi : F i j) (chunk last : Nat) : ∀ n off,
    Twin P Same F (readLoopProg i chunk last n off) (readLoopProg j chunk last n off)
  | 0, _ => .ret rfl
  | n + 1, off => .read hi fun r => by
      cases r with
      | ok b =>
        refine (twin_readLoop hi chunk last n _).bind fun F' _ a b hab => ?_
        cases hab
        cases a <;> exact .ret rfl
      | err => exact .ret rfl
      | panic => exact .ret rfl

theorem twin_retrieve {P : Name → Prop} {F : Ren} {i j : Nat} (cfg : Cfg) (hi : F i j) :
    Twin P Same F (retrieveProg cfg i) (retrieveProg cfg j) := by
  refine .read hi fun r => ?_
  cases r with
  | err => exact .ret rfl
  | panic => exact .ret rfl
  | ok l =>
    simp only
    split
    · exact .ret rfl
    split
    · split <;> exact .ret rfl
    refine (twin_readLoop hi _ _ _ _).bind fun F' _ a b hab => ?_
    cases hab
    cases a <;> exact .ret rfl

/-- The same contexts up to inodes, all of names in `N`. -/
def AppRel (N : Name → Prop) (F : Ren) (a b : App) : Prop :=
  List.Forall₂ (fun e e' => e.1 = e'.1 ∧ N e.2.name ∧ CtxRel F e.2 e'.2) a b

theorem CtxRel.mono {F F' : Ren} (hF : ∀ i j, F i j → F' i j) {c d : Ctx} (h : CtxRel F c d) : CtxRel F' c d := by
  obtain ⟨j, h1, h2⟩ := h
  exact ⟨j, hF _ _ h1, h2⟩

theorem AppRel.mono {N : Name → Prop} {F F' : Ren} (hF : ∀ i j, F i j → F' i j) {a b : App} (h : AppRel N F a b) :
    AppRel N F' a b := by
  unfold AppRel at h ⊢
  exact h.imp fun _ _ ⟨h1, h2, h3⟩ => ⟨h1, h2, h3.mono hF⟩

theorem AppRel.get {N : Name → Prop} {F : Ren} {a b : App} (h : AppRel N F a b) (id : Nat) :
    (a.get id = none ∧ b.get id = none) ∨
    ∃ c j, a.get id = some c ∧ b.get id = some (c.on j) ∧ N c.name ∧ F c.conn.ino j := by
  unfold AppRel at h
  induction h with
  | nil => exact .inl ⟨rfl, rfl⟩
  | cons hx hr ih =>
    rename_i x y a b
    obtain ⟨i, c⟩ := x
    obtain ⟨i', d⟩ := y
    obtain ⟨h1, h2, j, h3, h4⟩ := hx
    simp only at h1 h2 h3 h4
    subst h1 h4
    by_cases he : i = id
    · refine .inr ⟨c, j, ?_, ?_, h2, h3⟩ <;> simp [App.get, he]
    · have e1 : App.get ((i, c) :: a) id = App.get a id := by simp [App.get, he]
      have e2 : App.get ((i, c.on j) :: b) id = App.get b id := by simp [App.get, he]
      rw [e1, e2]
      exact ih

theorem AppRel.filter {N : Name → Prop} {F : Ren} {a b : App} (h : AppRel N F a b) (id : Nat) :
    AppRel N F (a.filter (fun e => !(e.1 == id))) (b.filter (fun e => !(e.1 == id))) := by
  unfold AppRel at h ⊢
  induction h with
  | nil => exact .nil
  | cons hx hr ih =>
    simp only [List.filter_cons, hx.1]
    split
    · exact .cons hx ih
    · exact ih

theorem AppRel.set {N : Name → Prop} {F : Ren} {a b : App} (h : AppRel N F a b) (id : Nat) {c d : Ctx} (hn : N c.name)
    (hc : CtxRel F c d) : AppRel N F (a.set id c) (b.set id d) := .cons ⟨rfl, hn, hc⟩ (h.filter id)

theorem AppRel.any {N : Name → Prop} {F : Ren} {a b : App} (h : AppRel N F a b) (n : Name) :
    a.any (fun e => e.2.name == n) = b.any (fun e => e.2.name == n) := by
  unfold AppRel at h
  induction h with
  | nil => rfl
  | cons hx hr ih =>
    obtain ⟨_, _, j, _, h4⟩ := hx
    simp only [List.any_cons, ih, h4]
    rfl

theorem AppRel.length {N : Name → Prop} {F : Ren} {a b : App} (h : AppRel N F a b) : a.length = b.length :=
  List.Forall₂.length_eq h

theorem twin_session {α : Type} {N : Name → Prop} (cfg : Cfg) (x : Session α) : ∀ {F : Ren} {a b : App},
    x.Uses N → AppRel N F a b → Twin (cfg.Owns N) Same F (x.prog cfg a) (x.prog cfg b) := by
  have own : ∀ n, N n → cfg.Owns N (cfg.path n) ∧ cfg.Owns N (cfg.dst n) ∧ cfg.Owns N (cfg.bck n) := fun n h =>
    ⟨⟨n, h, .inl rfl⟩, ⟨n, h, .inr (.inl rfl)⟩, ⟨n, h, .inr (.inr rfl)⟩⟩
  induction x with
  | done a => intro F a b hu h; exact .ret rfl
  | exists' n k ih =>
    intro F a b hu h
    exact .openNone (own n hu.1).1 (ih _ (hu.2 _) h) fun i j hij => ih _ (hu.2 _) h
  | new n k ih =>
    intro F a b hu h
    refine .openNone (own n hu.1).1 ?_ fun i j hij => ih _ (hu.2 _) h
    exact .create (own n hu.1).1 fun F' hF _ _ _ => ih _ (hu.2 _) (h.mono hF)
  | delete n k ih =>
    intro F a b hu h
    refine .openNone (own n hu.1).1 (ih _ (hu.2 _) h) fun i j hij => ?_
    exact .remove (own n hu.1).1 fun ok => ih _ (hu.2 _) h
  | open' n k ih =>
    intro F a b hu h
    simp only [Session.prog, h.any n, h.length]
    refine twin_ite _ (fun _ => ih _ (hu.2 _) h) fun _ => ?_
    refine .openNone (own n hu.1).1 (ih _ (hu.2 _) h) fun i j hij => ?_
    refine (twin_retrieve cfg hij).bind fun F' hF r r' hr => ?_
    cases hr
    cases r with
    | err => exact ih _ (hu.2 _) (h.mono hF)
    | panic => exact .ret rfl
    | ok r =>
      refine .openNone (own n hu.1).1 (ih _ (hu.2 _) (h.mono hF)) fun i j hij => ?_
      exact ih _ (hu.2 _) ((h.mono hF).set _ hu.1 ⟨j, hij, rfl⟩)
  | keys id k ih =>
    intro F a b hu h
    have e : contentKeys a id = contentKeys b id := by
      unfold contentKeys
      rcases h.get id with ⟨h1, h2⟩ | ⟨c, j, h1, h2, _⟩ <;> rw [h1, h2]
      rfl
    simp only [Session.prog, e]
    exact ih _ (hu _) h
  | commits id k ih =>
    intro F a b hu h
    have e : DB.commits a id = DB.commits b id := by
      unfold DB.commits
      rcases h.get id with ⟨h1, h2⟩ | ⟨c, j, h1, h2, _⟩ <;> rw [h1, h2]
      rfl
    simp only [Session.prog, e]
    exact ih _ (hu _) h
  | read id p k ih =>
    intro F a b hu h
    simp only [Session.prog]
    rcases h.get id with ⟨h1, h2⟩ | ⟨c, j, h1, h2, h3, h4⟩
    · rw [h1, h2]; exact ih _ (hu _) h
    · rw [h1, h2]
      obtain ⟨n, ⟨i, pos, o⟩, r, off, l⟩ := c
      refine .read h4 fun r => ?_
      cases r with
      | ok b => exact ih _ (hu _) h
      | err => exact ih _ (hu _) h
      | panic => exact .ret rfl
  | write id hh data kind k ih =>
    intro F a b hu h
    simp only [Session.prog, DB.write]
    rcases h.get id with ⟨h1, h2⟩ | ⟨c, j, h1, h2, h3, h4⟩
    · rw [h1, h2]; exact ih _ (hu _) h
    · rw [h1, h2]
      cases contentNow hh data kind with
      | ok x => exact ih _ (hu _) (h.set id h3 ⟨j, h4, rfl⟩)
      | err => exact ih _ (hu _) h
      | panic => exact .ret rfl
  | cancel id k ih =>
    intro F a b hu h
    simp only [Session.prog, DB.cancel]
    rcases h.get id with ⟨h1, h2⟩ | ⟨c, j, h1, h2, h3, h4⟩
    · rw [h1, h2]; exact ih _ (hu _) h
    · rw [h1, h2]
      exact ih _ (hu _) (h.set id h3 ⟨j, h4, rfl⟩)
  | commit id now k ih =>
    intro F a b hu h
    simp only [Session.prog]
    rcases h.get id with ⟨h1, h2⟩ | ⟨c, j, h1, h2, h3, h4⟩
    · rw [h1, h2]; exact ih _ (hu _) h
    · rw [h1, h2]
      simp only
      rw [show updateReference cfg (c.on j) now = updateReference cfg c now from rfl]
      cases updateReference cfg c now with
      | err => exact ih _ (hu _) h
      | panic => exact .ret rfl
      | ok r =>
        refine (twin_locked cfg c r h4 (own _ h3).1 (own _ h3).2.1 (own _ h3).2.2).bind fun F' hF o o' ho => ?_
        match o, o', ho with
        | none, none, _ => exact .ret rfl
        | some (c1, b1), some (d1, b2), ⟨x1, x2, x3⟩ =>
          cases x2
          exact ih _ (hu _) ((h.mono hF).set id (x3 ▸ h3) x1)
  | close id k ih =>
    intro F a b hu h
    simp only [Session.prog, DB.close]
    rcases h.get id with ⟨h1, h2⟩ | ⟨c, j, h1, h2, h3, h4⟩
    · rw [h1, h2]; exact ih _ (hu _) h
    · rw [h1, h2]
      simp only [show (c.on j).conn.isOpen = c.conn.isOpen from rfl]
      cases c.conn.isOpen
      · exact ih _ (hu _) h
      · exact ih _ (hu _) (h.filter id)

end DB
end Rodkina
