import Verif.SessionsSpec
import Verif.ConcurrentLemmas
import Verif.DatabaseLemmas2
/-!
# A process alone: operation by operation it does what its calls do
-/

namespace Rodkina
namespace DB

open Ref

set_option linter.unusedVariables false

/-! ## Opening -/

theorem connRead_small (fs : FS) (i len off : Nat) (hl : len < 2 ^ 63) (ho : off < 2 ^ 63) :
    connRead fs ⟨i, 0, true⟩ len off = readAt (fs.ino i) len off := by
  unfold connRead
  rw [if_neg (by omega), if_neg (by simp), if_neg (by omega)]

theorem readAt_end {c : Bytes} {len off : Nat} {b : Bytes} (ho : off ≤ c.length) (h : readAt c len off = .ok b) :
    off + b.length ≤ c.length := by
  unfold readAt at h
  split at h
  · cases h; simpa using ho
  · split at h
    · cases h; simp only [List.length_take, List.length_drop]; omega
    · cases h

theorem readLoop_alone (pid : Nat) (s : Shared) (i chunk last : Nat) (hc : chunk < 2 ^ 63) (hl : last < 2 ^ 63)
    (hi : (s.fs.ino i).length < 2 ^ 63) : ∀ n off, off ≤ (s.fs.ino i).length →
    alone pid (readLoopProg i chunk last n off) s = (readLoop (s.fs.ino i) chunk last n off, s)
  | 0, _, _ => rfl
  | n + 1, off, ho => by
    simp only [readLoopProg, alone, exec, readLoop]
    rw [connRead_small _ _ _ _ (by split <;> assumption) (by omega)]
    cases h : readAt (s.fs.ino i) (if n = 0 then last else chunk) off with
    | err => rfl
    | panic => rfl
    | ok b =>
      simp only [alone_bind]
      rw [readLoop_alone pid s i chunk last hc hl hi n _ (readAt_end ho h)]
      simp only [Res.bind_ok]
      cases readLoop (s.fs.ino i) chunk last n (off + b.length) <;> rfl

theorem chunk_le (cfg : Cfg) (n : Nat) : makeChunkSize cfg n ≤ n := by
  unfold makeChunkSize
  split <;> omega

theorem retrieve_alone (pid : Nat) (cfg : Cfg) (s : Shared) (i : Nat) (hi : (s.fs.ino i).length < 2 ^ 63) :
    alone pid (retrieveProg cfg i) s = (retrieveReference cfg (s.fs.ino i), s) := by
  unfold retrieveProg retrieveReference
  simp only [alone, exec]
  rw [connRead_small _ _ _ _ (by omega) (by omega)]
  cases h : readAt (s.fs.ino i) 8 0 with
  | err => rfl
  | panic => rfl
  | ok l =>
    simp only
    have hc := chunk_le cfg (leNat l)
    generalize makeChunkSize cfg (leNat l) = chunk at *
    have h8 : 8 ≤ (s.fs.ino i).length := by
      have := readAt_end (by omega) h
      unfold readAt at h
      rw [if_neg (by omega)] at h
      split at h
      · omega
      · cases h
    split
    · rfl
    split
    · split <;> rfl
    rw [alone_bind, readLoop_alone pid s i chunk _ (by omega) (by omega) hi _ _ h8]
    simp only
    cases readLoop (s.fs.ino i) chunk (leNat l - chunk * (leNat l / chunk + 1 - 1)) (leNat l / chunk + 1) 8 with
    | err => rfl
    | panic => rfl
    | ok b =>
      simp only [Res.bind_ok, alone]

/-! ## Committing -/

/-- All values a program can end with satisfy `Q`. -/
def Prog.Rets {α : Type} (Q : α → Prop) : Prog α → Prop
  | .ret a => Q a
  | .op _ k => ∀ r, (k r).Rets Q

theorem Prog.Rets.bind {α β : Type} {Q : α → Prop} {T : β → Prop} {x : Prog α} (h : x.Rets Q) {f : α → Prog β}
    (hf : ∀ a, Q a → (f a).Rets T) : (x.bind f).Rets T := by
  induction x with
  | ret a => exact hf a h
  | op o k ih => exact fun r => ih r (h r)

theorem alone_rets {α : Type} (pid : Nat) {Q : α → Prop} {x : Prog α} (h : x.Rets Q) (s : Shared) : Q (alone pid x s).1 := by
  induction x generalizing s with
  | ret a => exact h
  | op o k ih => exact ih _ (h _) _

/-- Not an error. -/
def NoErr {α : Type} (o : Out α) : Prop := o ≠ .err

theorem Prog.Rets.next {α β : Type} {x : Prog (Out α)} (h : x.Rets NoErr) {f : α → Prog (Out β)}
    (hf : ∀ a, (f a).Rets NoErr) : (x.next f).Rets NoErr := by
  refine h.bind fun o ho => ?_
  cases o with
  | ok a => exact hf a
  | err => exact absurd rfl ho
  | panic => exact fun h => by cases h
  | crash => exact fun h => by cases h
  | hang => exact fun h => by cases h

theorem copyProg_noErr (chunk : Nat) (conn : Conn) (d : Nat) : ∀ fuel ro wo, (copyProg chunk conn d fuel ro wo).Rets NoErr
  | 0, _, _ => fun h => by cases h
  | fuel + 1, ro, wo => fun r => by
      cases r with
      | ok b => exact fun _ => copyProg_noErr chunk conn d fuel _ _
      | err => exact fun h => by cases h
      | panic => exact fun h => by cases h

theorem size_noErr (b : Bool) (i : Nat) (G : Nat → Prog (Out Nat)) (h : ∀ n, (G n).Rets NoErr) :
    (if b then Prog.op (.size i) G else .ret .panic : Prog (Out Nat)).Rets NoErr := by
  cases b
  · exact fun h => by cases h
  · exact h

theorem copyOldProg_noErr (cfg : Cfg) (c : Ctx) (d wo : Nat) : (copyOldProg cfg c d wo).Rets NoErr := by
  unfold copyOldProg
  cases c.reference with
  | none => exact fun h => by cases h
  | some r => exact size_noErr _ _ _ fun n => by apply copyProg_noErr

theorem contentsProg_noErr (d : Nat) : ∀ (xs : List Content) wo, (contentsProg d wo xs).Rets NoErr
  | [], _ => fun h => by cases h
  | _ :: xs, _ => fun _ => contentsProg_noErr d xs _

theorem destinationProg_noErr (cfg : Cfg) (c : Ctx) (r : Reference) : (destinationProg cfg c r).Rets NoErr :=
  fun d => fun _ => (copyOldProg_noErr cfg c d _).next fun wo =>
    (contentsProg_noErr d c.contentList wo).next fun _ => fun h => by cases h

theorem backup_closed (cfg : Cfg) (n : Name) (fs : FS) (conn : Conn) (h : conn.isOpen = false) :
    (backup cfg calm n).run ⟨fs, conn⟩ = (.err, ⟨fs.create (cfg.bck n), conn⟩) := by
  have : (copyBackup (calm .copyBck) (fs.createIno (cfg.bck n))).run ⟨fs.create (cfg.bck n), conn⟩ =
      (.err, ⟨fs.create (cfg.bck n), conn⟩) := by simp [copyBackup, h]
  unfold backup
  rw [bind_ok_eq (a := fs.createIno (cfg.bck n)) (w' := ⟨fs, conn⟩) rfl,
    bind_ok_eq (a := ()) (w' := ⟨fs.create (cfg.bck n), conn⟩) rfl, bind_def, this]

theorem backup_bck (pid : Nat) (cfg : Cfg) (c : Ctx) (s : Shared) :
    ((alone pid (backupProg cfg c) s).2.fs.dir (cfg.bck c.name)).isSome := by
  have h := backupProg_adds cfg c
  unfold backupProg at h ⊢
  refine alone_adds pid _ (h.2 _) _ _ ?_
  simp only [exec]
  rw [create_dir_self]
  rfl

/-- A commit whose paths are different files fails only when its handle was closed before, and then leaves it. -/
theorem body_err (cfg : Cfg) (c : Ctx) (r : Reference) (fs : FS) (hd : cfg.Distinct c.name)
    (hs : (fs.dir (cfg.path c.name)).isSome) {w : World} (h : (bodyM cfg c r).run ⟨fs, c.conn⟩ = (.err, w)) :
    c.conn.isOpen = false ∧ w.conn = c.conn := by
  unfold bodyM at h
  rw [bind_def] at h
  obtain ⟨s1, k1⟩ := sim_destination 0 cfg c r
  have a0 := alone_rets 0 (destinationProg_noErr cfg c r) ⟨fs, fun _ => none⟩
  have a1 := alone_adds 0 _ (destinationProg_adds cfg c r) ⟨fs, fun _ => none⟩ _ hs
  have a2 := destination_dst 0 cfg c r ⟨fs, fun _ => none⟩
  rw [s1 fs (fun _ => none)] at a0 a1 a2
  have k1 := k1 fs
  obtain ⟨⟨o, ⟨fs1, conn1⟩⟩, hx⟩ : ∃ y, (writeDestination cfg calm c r).run ⟨fs, c.conn⟩ = y := ⟨_, rfl⟩
  rw [hx] at a0 a1 a2 k1 h
  simp only at k1
  subst k1
  cases o with
  | err => exact absurd rfl a0
  | panic => cases h
  | crash => cases h
  | hang => cases h
  | ok off =>
    simp only at h
    rw [bind_def] at h
    cases ho : c.conn.isOpen with
    | false =>
      rw [backup_closed cfg c.name fs1 c.conn ho] at h
      cases h
      exact ⟨rfl, rfl⟩
    | true =>
      exfalso
      have b1 := alone_adds 0 _ (backupProg_adds cfg c) ⟨fs1, fun _ => none⟩ _ a1
      have b2 := alone_adds 0 _ (backupProg_adds cfg c) ⟨fs1, fun _ => none⟩ _ a2
      have b3 := backup_bck 0 cfg c ⟨fs1, fun _ => none⟩
      rw [sim_backup 0 cfg c fs1 (fun _ => none)] at b1 b2 b3
      obtain ⟨fs2, conn2, he, ho2⟩ := backup_run cfg c.name fs1 c.conn
      rw [he] at b1 b2 b3 h
      rw [ho] at h ho2
      simp only [if_true] at h
      rw [bind_def] at h
      obtain ⟨i, hi⟩ := Option.isSome_iff_exists.mp b2
      rw [swap_calm cfg c.name ⟨fs2, conn2⟩ hd ho2 i (by intro e; simp only at e b1; rw [e] at b1; cases b1) hi
        (by intro e; simp only at e b3; rw [e] at b3; cases b3)] at h
      cases h

/-- What `Commit` makes of the result of `updateDatabaseOnFile`. -/
def lockedOf (c : Ctx) (r : Reference) : Out (Conn × Nat) → Option (Ctx × Bool)
  | .ok (conn, off) => some ({ c with conn := conn, reference := some r, dataOffset := off }, true)
  | .err => some (c, false)
  | _ => none

theorem locked_alone (pid : Nat) (cfg : Cfg) (c : Ctx) (r : Reference) (fs : FS) (hd : cfg.Distinct c.name) :
    ∃ L, alone pid (lockedProg cfg c r) ⟨fs, fun _ => none⟩ =
      (lockedOf c r ((updateDatabaseOnFile cfg calm c r).run ⟨fs, c.conn⟩).1,
        ⟨((updateDatabaseOnFile cfg calm c r).run ⟨fs, c.conn⟩).2.fs, L⟩) ∧
      (lockedOf c r ((updateDatabaseOnFile cfg calm c r).run ⟨fs, c.conn⟩).1 ≠ none → L = fun _ => none) ∧
      (((updateDatabaseOnFile cfg calm c r).run ⟨fs, c.conn⟩).1 = .err →
        ((updateDatabaseOnFile cfg calm c r).run ⟨fs, c.conn⟩).2.conn = c.conn) := by
  have e : (updateDatabaseOnFile cfg calm c r).run ⟨fs, c.conn⟩ =
      (bodyM cfg c r).run ⟨fs.touch (cfg.path c.name), c.conn⟩ := rfl
  rw [e]
  have hs : ((fs.touch (cfg.path c.name)).dir (cfg.path c.name)).isSome := by
    unfold FS.touch
    cases h : fs.dir (cfg.path c.name) with
    | none => simp only; rw [create_dir_self]; rfl
    | some i => simp [h]
  have hb := fun w => body_err cfg c r (fs.touch (cfg.path c.name)) hd hs (w := w)
  unfold lockedProg
  simp only [alone, exec, if_true]
  generalize fs.touch (cfg.path c.name) = fs1 at *
  generalize (fs1.dir (cfg.path c.name)).getD 0 = l
  rw [alone_bind, alone_bind, sim_body pid cfg c r fs1]
  obtain ⟨⟨o, ⟨fs2, conn2⟩⟩, hx⟩ : ∃ y, (bodyM cfg c r).run ⟨fs1, c.conn⟩ = y := ⟨_, rfl⟩
  rw [hx] at hb ⊢
  have hu : upd (upd (fun _ => none) l (some pid)) l none = fun _ => (none : Option Nat) := by
    funext x
    by_cases ex : x = l
    · subst ex; rw [upd_self]
    · rw [upd_ne _ _ ex, upd_ne _ _ ex]
  cases o with
  | ok x =>
    refine ⟨fun _ => none, ?_, fun _ => rfl, fun h => by cases h⟩
    simp only [unlockProg, alone, exec, hu, lockedOf]
  | err =>
    obtain ⟨h1, h2⟩ := hb _ rfl
    refine ⟨fun _ => none, ?_, fun _ => rfl, fun _ => h2⟩
    simp only [unlockProg, alone, exec, hu, lockedOf]
    have : { c.conn with isOpen := false } = c.conn := by rw [← h1]
    rw [this]
  | panic =>
    refine ⟨fun _ => none, ?_, fun _ => rfl, fun h => by cases h⟩
    simp only [unlockProg, alone, exec, hu, lockedOf]
  | crash =>
    refine ⟨fun _ => none, ?_, fun _ => rfl, fun h => by cases h⟩
    simp only [unlockProg, alone, exec, hu, lockedOf]
  | hang =>
    refine ⟨upd (fun _ => none) l (some pid), ?_, fun h => absurd rfl h, fun h => by cases h⟩
    simp only [unlockProg, alone, lockedOf]

/-! ## A whole session -/

/-- All open databases are databases of `N`. -/
def App.In (N : Name → Prop) (a : App) : Prop := ∀ e ∈ a, N e.2.name

theorem App.In.get {N : Name → Prop} {a : App} (h : a.In N) {id : Nat} {c : Ctx} (hc : a.get id = some c) : N c.name := by
  unfold App.get at hc
  cases hf : a.find? (fun e => e.1 == id) with
  | none => rw [hf] at hc; cases hc
  | some e =>
    rw [hf] at hc
    cases hc
    exact h e (List.mem_of_find?_eq_some hf)

theorem App.In.filter {N : Name → Prop} {a : App} (h : a.In N) (p : Nat × Ctx → Bool) : App.In N (a.filter p) :=
  fun e he => h e (List.mem_of_mem_filter he)

theorem App.In.set {N : Name → Prop} {a : App} (h : a.In N) (id : Nat) {c : Ctx} (hc : N c.name) : (a.set id c).In N := by
  intro e he
  rcases List.mem_cons.mp he with he | he
  · subst he; exact hc
  · exact h.filter _ e he

theorem session_alone {α : Type} {N : Name → Prop} (pid : Nat) (cfg : Cfg) (hd : ∀ n, N n → cfg.Distinct n) (x : Session α) :
    ∀ (fs : FS) (a : App), x.Uses N → a.In N → x.Small cfg fs a →
    (alone pid (x.prog cfg a) ⟨fs, fun _ => none⟩).1 = (x.seq cfg fs a).1 ∧
    (alone pid (x.prog cfg a) ⟨fs, fun _ => none⟩).2.fs = (x.seq cfg fs a).2 := by
  induction x with
  | done a => intro fs a hu hn hs; exact ⟨rfl, rfl⟩
  | exists' n k ih =>
    intro fs a hu hn hs
    exact ih _ fs a (hu.2 _) hn hs
  | new n k ih =>
    intro fs a hu hn hs
    simp only [Session.prog, Session.seq, Session.Small, alone, exec, DB.new'] at hs ⊢
    by_cases h : (fs.dir (cfg.path n)).isSome
    · simp only [h, if_true] at hs ⊢
      exact ih _ _ a (hu.2 _) hn hs
    · simp only [h] at hs ⊢
      exact ih _ _ a (hu.2 _) hn hs
  | delete n k ih =>
    intro fs a hu hn hs
    simp only [Session.prog, Session.seq, Session.Small, alone, exec, DB.delete'] at hs ⊢
    by_cases h : (fs.dir (cfg.path n)).isSome
    · simp only [h, if_true, alone, exec] at hs ⊢
      exact ih _ _ a (hu.2 _) hn hs
    · simp only [h] at hs ⊢
      exact ih _ _ a (hu.2 _) hn hs
  | open' n k ih =>
    intro fs a hu hn hs
    rw [Session.Small] at hs
    obtain ⟨hl, hs⟩ := hs
    simp only [Session.prog, Session.seq, DB.open'] at hs ⊢
    cases ha : a.any (fun e => e.2.name == n) with
    | true =>
      simp only [ha, if_true] at hs ⊢
      exact ih _ _ a (hu.2 _) hn hs
    | false =>
      simp only [ha, Bool.false_eq_true, if_false, alone, exec, retrieveAt, FS.file] at hs hl ⊢
      cases h : fs.dir (cfg.path n) with
      | none =>
        simp only [h, Option.map_none] at hs
        exact ih _ _ a (hu.2 _) hn hs
      | some i =>
        simp only [h, Option.map_some] at hs hl ⊢
        rw [alone_bind, retrieve_alone pid cfg ⟨fs, fun _ => none⟩ i (hl _ rfl)]
        simp only
        cases hr : retrieveReference cfg (fs.ino i) with
        | err =>
          simp only [hr] at hs
          exact ih _ _ a (hu.2 _) hn hs
        | panic => exact ⟨rfl, rfl⟩
        | ok r =>
          simp only [hr] at hs
          simp only [alone, exec, h]
          exact ih _ _ _ (hu.2 _) (hn.set _ hu.1) hs
  | keys id k ih => intro fs a hu hn hs; exact ih _ fs a (hu _) hn hs
  | commits id k ih => intro fs a hu hn hs; exact ih _ fs a (hu _) hn hs
  | read id p k ih =>
    intro fs a hu hn hs
    simp only [Session.prog, Session.seq, Session.Small, DB.read] at hs ⊢
    cases hg : a.get id with
    | none =>
      simp only [hg] at hs
      exact ih _ _ a (hu _) hn hs
    | some c =>
      simp only [hg] at hs
      simp only [alone, exec]
      cases hc : connRead fs c.conn p.length ((c.dataOffset + p.from') % 2 ^ 64) with
      | ok b => simp only [hc] at hs; exact ih _ _ a (hu _) hn hs
      | err => simp only [hc] at hs; exact ih _ _ a (hu _) hn hs
      | panic => exact ⟨rfl, rfl⟩
  | write id h data kind k ih =>
    intro fs a hu hn hs
    simp only [Session.prog, Session.seq, Session.Small] at hs ⊢
    cases hw : DB.write a id h data kind with
    | err => simp only [hw] at hs; exact ih _ _ a (hu _) hn hs
    | panic => exact ⟨rfl, rfl⟩
    | ok a' =>
      simp only [hw] at hs
      refine ih _ _ a' (hu _) ?_ hs
      unfold DB.write at hw
      cases hg : a.get id with
      | none => rw [hg] at hw; cases hw
      | some c =>
        rw [hg] at hw
        simp only at hw
        cases hx : contentNow h data kind with
        | err => rw [hx] at hw; cases hw
        | panic => rw [hx] at hw; cases hw
        | ok x =>
          rw [hx] at hw
          cases hw
          exact hn.set _ (show N c.name from hn.get hg)
  | cancel id k ih =>
    intro fs a hu hn hs
    simp only [Session.prog, Session.seq, Session.Small] at hs ⊢
    cases hw : DB.cancel a id with
    | err => simp only [hw] at hs; exact ih _ _ a (hu _) hn hs
    | panic => exact ⟨rfl, rfl⟩
    | ok a' =>
      simp only [hw] at hs
      refine ih _ _ a' (hu _) ?_ hs
      unfold DB.cancel at hw
      cases hg : a.get id with
      | none => rw [hg] at hw; cases hw
      | some c =>
        rw [hg] at hw
        cases hw
        exact hn.set _ (show N c.name from hn.get hg)
  | commit id now k ih =>
    intro fs a hu hn hs
    simp only [Session.prog, Session.seq, Session.Small, DB.commit] at hs ⊢
    cases hg : a.get id with
    | none => simp only [hg] at hs; exact ih _ _ a (hu _) hn hs
    | some c =>
      simp only [hg] at hs ⊢
      cases hr : updateReference cfg c now with
      | err => simp only [hr] at hs; exact ih _ _ a (hu _) hn hs
      | panic => exact ⟨rfl, rfl⟩
      | ok r =>
        simp only [hr] at hs ⊢
        obtain ⟨L, h1, h2, h3⟩ := locked_alone pid cfg c r fs (hd _ (hn.get hg))
        rw [alone_bind, h1]
        obtain ⟨⟨o, ⟨fs2, conn2⟩⟩, hx⟩ : ∃ y, (updateDatabaseOnFile cfg calm c r).run ⟨fs, c.conn⟩ = y := ⟨_, rfl⟩
        rw [hx] at hs h2 h3 ⊢
        cases o with
        | ok x =>
          obtain ⟨conn, off⟩ := x
          have hL : L = fun _ => none := h2 (by simp [lockedOf])
          subst hL
          exact ih _ _ _ (hu _) (hn.set _ (show N c.name from hn.get hg)) hs
        | err =>
          have hL : L = fun _ => none := h2 (by simp [lockedOf])
          subst hL
          have hc : conn2 = c.conn := h3 rfl
          subst hc
          exact ih _ _ _ (hu _) (hn.set _ (show N c.name from hn.get hg)) hs
        | panic => exact ⟨rfl, rfl⟩
        | crash => exact ⟨rfl, rfl⟩
        | hang => exact ⟨rfl, rfl⟩
  | close id k ih =>
    intro fs a hu hn hs
    simp only [Session.prog, Session.seq, Session.Small] at hs ⊢
    cases hw : DB.close a id with
    | err => simp only [hw] at hs; exact ih _ _ a (hu _) hn hs
    | panic => exact ⟨rfl, rfl⟩
    | ok a' =>
      simp only [hw] at hs
      refine ih _ _ a' (hu _) ?_ hs
      unfold DB.close at hw
      cases hg : a.get id with
      | none => rw [hg] at hw; cases hw
      | some c =>
        rw [hg] at hw
        simp only at hw
        split at hw
        · cases hw; exact hn.filter _
        · cases hw

end DB
end Rodkina
