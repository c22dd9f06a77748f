import Verif.Descriptors
import Verif.DatabaseLemmas4
/-!
# Lemmas on the descriptors
-/

namespace Rodkina
namespace Fd

open DB Ref

/-- The table is as before, with at most `k` more descriptors open in between. -/
structure Quiet (k : Nat) (t t' : Tab) : Prop where
  live : t'.live = t.live
  next : t.next ≤ t'.next
  peak : t'.peak ≤ max t.peak (t.live.length + k)

/-- No number given out is used again. -/
def Fresh (t : Tab) : Prop := ∀ d ∈ t.live, d < t.next

/-- The computation comes back to its caller. -/
def Returns {α : Type} : Out α → Prop
  | .ok _ => True
  | .err => True
  | .panic => True
  | .crash => False
  | .hang => False

theorem Quiet.refl (k : Nat) (t : Tab) : Quiet k t t := ⟨rfl, Nat.le_refl _, Nat.le_max_left _ _⟩

theorem Quiet.mono {k m : Nat} {t t' : Tab} (h : Quiet k t t') (hk : k ≤ m) : Quiet m t t' :=
  ⟨h.live, h.next, Nat.le_trans h.peak (by omega)⟩

theorem Quiet.trans {k : Nat} {a b c : Tab} (h1 : Quiet k a b) (h2 : Quiet k b c) : Quiet k a c := by
  refine ⟨h2.live.trans h1.live, Nat.le_trans h1.next h2.next, ?_⟩
  have := h1.peak; have := h2.peak; rw [h1.live] at this
  omega

theorem Quiet.fresh {k : Nat} {t t' : Tab} (h : Quiet k t t') (hf : Fresh t) : Fresh t' := by
  intro d hd
  rw [h.live] at hd
  exact Nat.lt_of_lt_of_le (hf d hd) h.next

theorem filter_fresh {l : List Nat} {d : Nat} (h : ∀ e ∈ l, e < d) : l.filter (fun e => !(e == d)) = l := by
  rw [List.filter_eq_self]
  intro e he
  have := h e he
  simp; omega

theorem opened_fresh {t : Tab} (h : Fresh t) : Fresh t.opened := by
  intro d hd
  rcases List.mem_cons.1 hd with rfl | hd
  · exact Nat.lt_succ_self _
  · exact Nat.lt_succ_of_lt (h d hd)

theorem closed_fresh {t : Tab} (h : Fresh t) (d : Nat) : Fresh (t.closed d) :=
  fun e he => h e (List.mem_filter.1 he).1

/-- Something was opened, the rest was quiet, and it is closed again. -/
theorem closed_quiet {k : Nat} {t t' : Tab} (hf : Fresh t) (h : Quiet k t.opened t') : Quiet (k + 1) t (t'.closed t.next) := by
  refine ⟨?_, ?_, ?_⟩
  · show t'.live.filter _ = _
    rw [h.live]
    show (t.next :: t.live).filter _ = _
    rw [List.filter_cons_of_neg (by simp), filter_fresh hf]
  · exact Nat.le_of_succ_le h.next
  · have := h.peak
    show t'.peak ≤ _
    simp only [Tab.opened, List.length_cons] at this
    omega

theorem dbind_def {α β : Type} (x : DM α) (f : α → DM β) (w : World) (t : Tab) : (x >>= f).run w t =
    match x.run w t with
    | (.ok a, w', t') => (f a).run w' t'
    | (.err, w', t') => (.err, w', t')
    | (.panic, w', t') => (.panic, w', t')
    | (.crash, w', t') => (.crash, w', t')
    | (.hang, w', t') => (.hang, w', t') := rfl

theorem dbind_ok {α β : Type} {x : DM α} {f : α → DM β} {w w' : World} {t t' : Tab} {a : α} (h : x.run w t = (.ok a, w', t')) :
    (x >>= f).run w t = (f a).run w' t' := by rw [dbind_def, h]

theorem dbind_stop {α β : Type} {x : DM α} {f : α → DM β} {w w' : World} {t t' : Tab} {out : Out α} (h : x.run w t = (out, w', t'))
    (hs : out.stop) : (x >>= f).run w t = (out.cast, w', t') := by
  rw [dbind_def, h]
  cases out <;> first | rfl | exact absurd hs (by simp [Out.stop])

theorem lift_run {α : Type} {x : M α} {w w' : World} {out : Out α} (h : x.run w = (out, w')) (t : Tab) :
    (lift x).run w t = (out, w', t) := by simp [lift, h]

theorem opening_ok {α : Type} {x : M α} {w w' : World} {a : α} (h : x.run w = (.ok a, w')) (t : Tab) :
    (opening x).run w t = (.ok (a, t.next), w', t.opened) := by simp [opening, h]

theorem opening_stop {α : Type} {x : M α} {w w' : World} {out : Out α} (h : x.run w = (out, w')) (hs : out.stop) (t : Tab) :
    (opening x).run w t = (out.cast, w', t) := by
  simp only [opening, h]
  cases out <;> first | rfl | exact absurd hs (by simp [Out.stop])

theorem cast_stop {α β : Type} {out : Out α} (h : out.stop) : (out.cast : Out β).stop := by
  cases out <;> first | trivial | exact absurd h (by simp [Out.stop])

theorem cast_cast {α β γ : Type} {out : Out α} (h : out.stop) : ((out.cast : Out β).cast : Out γ) = out.cast := by
  cases out <;> rfl

theorem stop_or_ok {α : Type} (out : Out α) : out.stop ∨ ∃ a, out = .ok a := by
  cases out <;> first | exact .inr ⟨_, rfl⟩ | exact .inl trivial

theorem deferClose_run {α : Type} {d : Nat} {x : DM α} {w w' : World} {t t' : Tab} {out : Out α} (h : x.run w t = (out, w', t')) :
    ∃ t'', (deferClose d x).run w t = (out, w', t'') ∧ (Returns out → t'' = t'.closed d) := by
  simp only [deferClose, h]
  cases out
  all_goals first | exact ⟨_, rfl, fun _ => rfl⟩ | exact ⟨_, rfl, fun h => h.elim⟩

theorem inoOf_ok (p : Name) (w : World) : (inoOf p).run w = (.ok (w.fs.createIno p), w) := rfl

/-- The destination is closed again. -/
theorem writeDestination_tab (cfg : Cfg) (o : Pt → Fault) (c : Ctx) (r : Reference) (w w' : World) (t : Tab) (hf : Fresh t)
    (out : Out Nat) (h : (DB.writeDestination cfg o c r).run w = (out, w')) :
    ∃ t', (writeDestination cfg o c r).run w t = (out, w', t') ∧ (Returns out → Quiet 1 t t') := by
  unfold DB.writeDestination at h
  rw [bind_ok_eq (inoOf_ok _ _)] at h
  unfold writeDestination
  rw [dbind_ok (lift_run (inoOf_ok _ _) t)]
  rcases hc : (createOp (o .createDst) (cfg.dst c.name)).run w with ⟨o1, w1⟩
  rcases stop_or_ok o1 with hs | ⟨_, rfl⟩
  · rw [bind_stop hc hs] at h
    rw [dbind_stop (opening_stop hc hs t) (cast_stop hs), cast_cast hs]
    injection h with h1 h2
    subst h1; subst h2
    exact ⟨t, rfl, fun _ => Quiet.refl _ _⟩
  · rw [bind_ok_eq hc] at h
    rw [dbind_ok (opening_ok hc t)]
    obtain ⟨t'', e, ht⟩ := deferClose_run (d := t.next) (lift_run h t.opened)
    exact ⟨t'', e, fun hr => by rw [ht hr]; exact closed_quiet hf (Quiet.refl 0 _)⟩

/-- The copy to the backup failed: its descriptor stays. -/
structure Leaks (t t' : Tab) : Prop where
  live : t'.live = t.next :: t.live
  next : t.next < t'.next
  peak : t'.peak ≤ max t.peak (t.live.length + 1)

theorem backup_tab (cfg : Cfg) (o : Pt → Fault) (n : Name) (w w' : World) (t : Tab) (hf : Fresh t) (out : Out Unit)
    (h : (DB.backup cfg o n).run w = (out, w')) :
    ∃ t', (backup cfg o n).run w t = (out, w', t') ∧
      (Returns out → (o .createBck = .none ∧ (o .copyBck ≠ .none ∨ w.conn.isOpen = false) → out = .err ∧ Leaks t t') ∧
        (¬ (o .createBck = .none ∧ (o .copyBck ≠ .none ∨ w.conn.isOpen = false)) → Quiet 1 t t')) := by
  unfold DB.backup at h
  rw [bind_ok_eq (inoOf_ok _ _)] at h
  unfold backup
  rw [dbind_ok (lift_run (inoOf_ok _ _) t)]
  have hcr : (createOp (o .createBck) (cfg.bck n)).run w =
      match o .createBck with
      | .none => (.ok (), { w with fs := w.fs.create (cfg.bck n) })
      | .fail _ => (.err, w)
      | .crash _ => (.crash, w) := by
    unfold createOp atomic attempt; cases o .createBck <;> rfl
  cases hb : o .createBck with
  | fail k =>
    rw [hb] at hcr h
    rw [bind_stop hcr trivial] at h
    rw [dbind_stop (opening_stop hcr trivial t) trivial]
    injection h with h1 h2
    subst h1; subst h2
    exact ⟨t, rfl, fun _ => ⟨fun h => by simp at h, fun _ => Quiet.refl _ _⟩⟩
  | crash k =>
    rw [hb] at hcr h
    rw [bind_stop hcr trivial] at h
    rw [dbind_stop (opening_stop hcr trivial t) trivial]
    injection h with h1 h2
    subst h1; subst h2
    exact ⟨t, rfl, fun h => h.elim⟩
  | none =>
    rw [hb] at hcr h
    rw [bind_ok_eq hcr] at h
    rw [dbind_ok (opening_ok hcr t)]
    dsimp only
    generalize hw1 : ({ w with fs := w.fs.create (cfg.bck n) } : World) = w1 at *
    have hconn : w1.conn = w.conn := by rw [← hw1]
    rcases hcp : (copyBackup (o .copyBck) (w.fs.createIno (cfg.bck n))).run w1 with ⟨o2, w2⟩
    by_cases hgood : o .copyBck = .none ∧ w.conn.isOpen = true
    · have : o2 = .ok () := by
        unfold copyBackup at hcp
        rw [hgood.1] at hcp
        simp only [hconn, hgood.2] at hcp
        simp only [attempt] at hcp
        exact (congrArg Prod.fst hcp).symm
      subst this
      rw [bind_ok_eq hcp] at h
      rw [dbind_ok (lift_run hcp _), dbind_ok (x := closing t.next) (a := ()) (w' := w2) (t' := t.opened.closed t.next) rfl]
      refine ⟨t.opened.closed t.next, lift_run h _, fun _ => ⟨fun hx => ?_, fun _ => closed_quiet hf (Quiet.refl 0 _)⟩⟩
      rcases hx.2 with hx | hx
      · exact absurd hgood.1 hx
      · rw [hgood.2] at hx; cases hx
    · have hbad : o .copyBck ≠ .none ∨ w.conn.isOpen = false := by
        by_cases h1 : o .copyBck = .none
        · right
          cases h2 : w.conn.isOpen with
          | false => rfl
          | true => exact absurd ⟨h1, h2⟩ hgood
        · exact .inl h1
      have hst : o2 = .err ∨ o2 = .crash := by
        unfold copyBackup at hcp
        cases h2 : w.conn.isOpen with
        | false =>
          simp only [hconn, h2] at hcp
          exact .inl (congrArg Prod.fst hcp).symm
        | true =>
          rw [h2] at hbad
          simp only [hconn, h2] at hcp
          cases hf : o .copyBck with
          | none => rcases hbad with hb | hb <;> simp_all
          | fail k => rw [hf] at hcp; exact .inl (congrArg Prod.fst hcp).symm
          | crash k => rw [hf] at hcp; exact .inr (congrArg Prod.fst hcp).symm
      have hs : o2.stop := by rcases hst with rfl | rfl <;> trivial
      rw [bind_stop hcp hs] at h
      rw [dbind_stop (lift_run hcp _) hs]
      injection h with h1 h2
      subst h1; subst h2
      refine ⟨_, rfl, fun hret => ⟨fun _ => ⟨?_, rfl, Nat.lt_succ_self _, Nat.le_refl _⟩, fun hx => absurd ⟨rfl, hbad⟩ hx⟩⟩
      rcases hst with rfl | rfl
      · rfl
      · exact hret.elim

/-- What replacing the file does to the table: a value comes with a new descriptor instead of the old one; otherwise the old one is gone
if the handle was closed. -/
theorem swap_tab (cfg : Cfg) (o : Pt → Fault) (n : Name) (fd : Nat) (w w' : World) (t : Tab) (out : Out Conn)
    (hopen : w.conn.isOpen = true) (h : (DB.swap cfg o n).run w = (out, w')) :
    (∃ conn, out = .ok conn ∧ conn.isOpen = true ∧ (swap cfg o n fd).run w t = (.ok (conn, (t.closed fd).next), w', (t.closed fd).opened)) ∨
    (out.stop ∧ (swap cfg o n fd).run w t = (out.cast, w', t.closed fd) ∧ (Returns out → w'.conn.isOpen = false)) := by
  unfold DB.swap at h
  unfold swap
  rcases h0 : (DB.closeConn (o .closeConn)).run w with ⟨o0, w0⟩
  have e0 : (closeConn (o .closeConn) fd).run w t = (o0, w0, t.closed fd) := by simp [closeConn, h0, hopen]
  have hc0 : w0.conn.isOpen = false := by
    unfold DB.closeConn at h0
    simp only [hopen] at h0
    unfold attempt at h0
    cases hf : o .closeConn <;> rw [hf] at h0 <;> (have := congrArg Prod.snd h0; simp at this; rw [← this])
  rcases stop_or_ok o0 with hs | ⟨_, rfl⟩
  · rw [bind_stop h0 hs] at h
    rw [dbind_stop e0 hs]
    injection h with h1 h2
    subst h1; subst h2
    exact .inr ⟨cast_stop hs, by rw [cast_cast hs], fun _ => hc0⟩
  rw [bind_ok_eq h0] at h
  rw [dbind_ok e0]
  have hrem : ∀ (f : Fault) (p : Name) (w : World), ((removeOp f p).run w).2.conn = w.conn := by
    intro f p w
    unfold removeOp atomic attempt
    dsimp only
    split
    · cases f <;> rfl
    · rfl
  have hren : ∀ (f : Fault) (p q : Name) (w : World), ((renameOp f p q).run w).2.conn = w.conn := by
    intro f p q w
    unfold renameOp atomic attempt
    dsimp only
    split
    · cases f <;> rfl
    · rfl
  rcases h1 : (removeOp (o .removeSrc) (cfg.path n)).run w0 with ⟨o1, w1⟩
  have hc1 : w1.conn.isOpen = false := by have := hrem (o .removeSrc) (cfg.path n) w0; rw [h1] at this; simp at this; rw [this]; exact hc0
  rcases stop_or_ok o1 with hs | ⟨_, rfl⟩
  · rw [bind_stop h1 hs] at h
    rw [dbind_stop (lift_run h1 _) hs]
    injection h with h1 h2
    subst h1; subst h2
    exact .inr ⟨cast_stop hs, by rw [cast_cast hs], fun _ => hc1⟩
  rw [bind_ok_eq h1] at h
  rw [dbind_ok (lift_run h1 _)]
  rcases h2 : (renameOp (o .rename) (cfg.dst n) (cfg.path n)).run w1 with ⟨o2, w2⟩
  have hc2 : w2.conn.isOpen = false := by
    have := hren (o .rename) (cfg.dst n) (cfg.path n) w1; rw [h2] at this; simp at this; rw [this]; exact hc1
  rcases stop_or_ok o2 with hs | ⟨_, rfl⟩
  · rw [bind_stop h2 hs] at h
    rw [dbind_stop (lift_run h2 _) hs]
    injection h with h1 h2
    subst h1; subst h2
    exact .inr ⟨cast_stop hs, by rw [cast_cast hs], fun _ => hc2⟩
  rw [bind_ok_eq h2] at h
  rw [dbind_ok (lift_run h2 _)]
  rcases h3 : (removeOp (o .removeBck) (cfg.bck n)).run w2 with ⟨o3, w3⟩
  have hc3 : w3.conn.isOpen = false := by have := hrem (o .removeBck) (cfg.bck n) w2; rw [h3] at this; simp at this; rw [this]; exact hc2
  rcases stop_or_ok o3 with hs | ⟨_, rfl⟩
  · rw [bind_stop h3 hs] at h
    rw [dbind_stop (lift_run h3 _) hs]
    injection h with h1 h2
    subst h1; subst h2
    exact .inr ⟨cast_stop hs, by rw [cast_cast hs], fun _ => hc3⟩
  rw [bind_ok_eq h3] at h
  rw [dbind_ok (lift_run h3 _)]
  have ho : w' = w3 ∧ (out.stop ∨ ∃ i, out = .ok ⟨i, 0, true⟩) := by
    unfold openOp at h
    dsimp only at h
    cases hd : w3.fs.dir (cfg.path n) with
    | none => rw [hd] at h; injection h with h1 h2; exact ⟨h2.symm, .inl (by rw [← h1]; trivial)⟩
    | some i =>
      rw [hd] at h
      cases hf : o .reopen with
      | none => rw [hf] at h; injection h with h1 h2; exact ⟨h2.symm, .inr ⟨i, h1.symm⟩⟩
      | fail k => rw [hf] at h; injection h with h1 h2; exact ⟨h2.symm, .inl (by rw [← h1]; trivial)⟩
      | crash k => rw [hf] at h; injection h with h1 h2; exact ⟨h2.symm, .inl (by rw [← h1]; trivial)⟩
  obtain ⟨rfl, hs | ⟨i, rfl⟩⟩ := ho
  · exact .inr ⟨hs, opening_stop h hs _, fun _ => hc3⟩
  · exact .inl ⟨_, rfl, rfl, opening_ok h _⟩

/-! ### The steps whose errors are swallowed -/

theorem bind_noErr {α β : Type} {x : M α} {f : α → M β} (hx : ∀ w, (x.run w).1 ≠ .err) (hf : ∀ a w, ((f a).run w).1 ≠ .err) (w : World) :
    ((x >>= f).run w).1 ≠ .err := by
  rw [bind_def]
  have := hx w
  rcases h : x.run w with ⟨out, w'⟩
  rw [h] at this
  cases out
  case ok a => exact hf a w'
  case err => exact absurd rfl this
  all_goals simp

theorem swallow_noErr (x : M Unit) (w : World) : ((swallow x).run w).1 ≠ .err := by
  unfold swallow
  dsimp only
  split <;> simp

theorem writeContents_noErr (o : Pt → Fault) (i : Nat) : ∀ (xs : List Content) (k wo : Nat) (w : World),
    ((writeContents o i k wo xs).run w).1 ≠ .err
  | [], _, _, _ => by intro h; cases h
  | x :: xs, k, wo, w => by
    unfold writeContents
    refine bind_noErr (swallow_noErr _) ?_ w
    intro go w
    cases go
    · intro h; cases h
    · exact writeContents_noErr o i xs _ _ w

theorem copyLoop_noErr (o : Pt → Fault) (chunk i : Nat) : ∀ (fuel k ro wo : Nat) (w : World),
    ((copyLoop o chunk i fuel k ro wo).run w).1 ≠ .err
  | 0, _, _, _, _ => by intro h; cases h
  | fuel + 1, k, ro, wo, w => by
    unfold copyLoop
    refine bind_noErr ?_ ?_ w
    · intro w
      unfold DB.copyRead
      dsimp only
      cases o (.copyRead k) with
      | none => dsimp only; split <;> simp
      | fail j => simp
      | crash j => simp
    · intro r w
      unfold copyStep
      cases r with
      | none => intro h; cases h
      | some b =>
        refine bind_noErr (swallow_noErr _) ?_ w
        intro go w
        cases go
        · intro h; cases h
        · exact copyLoop_noErr o chunk i fuel _ _ _ w

theorem copyFrom_noErr (cfg : Cfg) (o : Pt → Fault) (d i wo size : Nat) (w : World) : ((copyFrom cfg o d i wo size).run w).1 ≠ .err := by
  rw [copyFrom]
  exact copyLoop_noErr o _ i _ 0 d wo w

theorem copyOld_noErr (cfg : Cfg) (o : Pt → Fault) (c : Ctx) (i wo : Nat) (w : World) : ((copyOld cfg o c i wo).run w).1 ≠ .err := by
  unfold copyOld
  cases c.reference with
  | none => simp [pure]
  | some r =>
    refine bind_noErr (x := statSize) (f := copyFrom cfg o c.dataOffset i wo) ?_ ?_ w
    · intro w; unfold statSize; dsimp only; split <;> simp
    · intro size w
      apply copyFrom_noErr

/-- Writing the destination only gives an error when it cannot be created or the reference cannot be written. -/
theorem writeDestination_noErr (cfg : Cfg) (o : Pt → Fault) (c : Ctx) (r : Reference) (w : World) (h1 : o .createDst = .none)
    (h2 : o .writeRef = .none) : ((DB.writeDestination cfg o c r).run w).1 ≠ .err := by
  unfold DB.writeDestination
  refine bind_noErr (by intro w h; cases h) ?_ w
  intro i w
  refine bind_noErr (by rw [h1]; intro w h; cases h) ?_ w
  intro _ w
  refine bind_noErr (by rw [h2]; intro w h; cases h) ?_ w
  intro _ w
  refine bind_noErr (copyOld_noErr cfg o c i _) ?_ w
  intro wo w
  exact bind_noErr (writeContents_noErr o i _ _ _) (by intro a w h; cases h) w

theorem writeDestination_early (cfg : Cfg) (o : Pt → Fault) (c : Ctx) (r : Reference) (w w' : World) (out : Out Nat)
    (h : (DB.writeDestination cfg o c r).run w = (out, w')) (hok : ¬ out.stop) : o .createDst = .none ∧ o .writeRef = .none := by
  unfold DB.writeDestination at h
  rw [bind_ok_eq (inoOf_ok _ _)] at h
  constructor
  · cases hf : o .createDst with
    | none => rfl
    | fail k => rw [hf] at h; rw [bind_stop (x := createOp (.fail k) _) (out := .err) (w' := w) rfl trivial] at h; injection h with h1 h2; subst h1; exact absurd trivial hok
    | crash k => rw [hf] at h; rw [bind_stop (x := createOp (.crash k) _) (out := .crash) (w' := w) rfl trivial] at h; injection h with h1 h2; subst h1; exact absurd trivial hok
  · rw [bind_def] at h
    rcases hc : (createOp (o .createDst) (cfg.dst c.name)).run w with ⟨o1, w1⟩
    rw [hc] at h
    cases o1 with
    | ok a =>
      dsimp only at h
      cases hf : o .writeRef with
      | none => rfl
      | fail k => rw [hf] at h; rw [bind_stop (x := writeOp (.fail k) _ _ _) (out := .err) (w' := _) rfl trivial] at h; injection h with h1 h2; subst h1; exact absurd trivial hok
      | crash k => rw [hf] at h; rw [bind_stop (x := writeOp (.crash k) _ _ _) (out := .crash) (w' := _) rfl trivial] at h; injection h with h1 h2; subst h1; exact absurd trivial hok
    | err => injection h with h1 h2; subst h1; exact absurd trivial hok
    | panic => injection h with h1 h2; subst h1; exact absurd trivial hok
    | crash => injection h with h1 h2; subst h1; exact absurd trivial hok
    | hang => injection h with h1 h2; subst h1; exact absurd trivial hok

/-! ### The whole update -/

/-- The copy to the backup is what failed. -/
def CopyFails (o : Pt → Fault) (conn : Conn) : Prop :=
  o .tryLock = .none ∧ o .createDst = .none ∧ o .writeRef = .none ∧ o .createBck = .none ∧ (o .copyBck ≠ .none ∨ conn.isOpen = false)

/-- The descriptors before and after an update that came back. -/
structure After (t t' : Tab) (l : List Nat) : Prop where
  live : t'.live = l
  next : t.next ≤ t'.next
  peak : t'.peak ≤ max t.peak (t.live.length + 2)

theorem filter_length_le (l : List Nat) (d : Nat) : (l.filter (fun e => !(e == d))).length ≤ l.length := List.length_filter_le _ _

theorem update_tab (cfg : Cfg) (o : Pt → Fault) (c : Ctx) (fd : Nat) (r : Reference) (w w' : World) (t : Tab) (hf : Fresh t)
    (hfd : w.conn.isOpen = true → fd ∈ t.live) (out : Out (Conn × Nat)) (h : (DB.updateDatabaseOnFile cfg o c r).run w = (out, w')) :
    (∃ p d t', out = .ok p ∧ (updateDatabaseOnFile cfg o c fd r).run w t = (.ok (p, d), w', t') ∧ w.conn.isOpen = true ∧ p.1.isOpen = true ∧
      t.next ≤ d ∧ d < t'.next ∧ After t t' (d :: t.live.filter (fun e => !(e == fd)))) ∨
    (∃ t', out.stop ∧ (updateDatabaseOnFile cfg o c fd r).run w t = (out.cast, w', t') ∧ (Returns out →
      (out = .err ∧ CopyFails o w.conn ∧ w'.conn.isOpen = w.conn.isOpen ∧ ∃ d, t.next ≤ d ∧ d < t'.next ∧ After t t' (d :: t.live)) ∨
      (¬ (out = .err ∧ CopyFails o w.conn) ∧ w'.conn.isOpen = w.conn.isOpen ∧ After t t' t.live) ∨
      (¬ (out = .err ∧ CopyFails o w.conn) ∧ w.conn.isOpen = true ∧ w'.conn.isOpen = false ∧
        After t t' (t.live.filter (fun e => !(e == fd)))))) := by
  unfold DB.updateDatabaseOnFile at h
  unfold updateDatabaseOnFile
  cases htl : o .tryLock with
  | fail k =>
    rw [htl] at h
    rw [bind_stop (x := atomic (.fail k) _) (out := .err) (w' := w) rfl trivial] at h
    rw [dbind_stop (opening_stop (x := atomic (.fail k) _) (out := .err) (w' := w) rfl trivial t) trivial]
    injection h with h1 h2
    subst h1; subst h2
    exact .inr ⟨t, trivial, rfl, fun _ => .inr (.inl ⟨fun hc => (by have := hc.2.1; rw [htl] at this; cases this), rfl, rfl, Nat.le_refl _, Nat.le_max_left _ _⟩)⟩
  | crash k =>
    rw [htl] at h
    rw [bind_stop (x := atomic (.crash k) _) (out := .crash) (w' := w) rfl trivial] at h
    rw [dbind_stop (opening_stop (x := atomic (.crash k) _) (out := .crash) (w' := w) rfl trivial t) trivial]
    injection h with h1 h2
    subst h1; subst h2
    exact .inr ⟨t, trivial, rfl, fun hr => hr.elim⟩
  | none =>
  rw [htl] at h
  rw [bind_ok_eq (atomic_none _ _)] at h
  rw [dbind_ok (opening_ok (atomic_none _ _) t)]
  generalize hw0 : ({ w with fs := w.fs.touch (cfg.path c.name) } : World) = w0 at *
  have hconn0 : w0.conn = w.conn := by rw [← hw0]
  -- the body
  have key : (∃ p d t', out = .ok p ∧ (do
        let off ← writeDestination cfg o c r
        backup cfg o c.name
        let conn ← swap cfg o c.name fd
        pure ((conn.1, off), conn.2) : DM ((Conn × Nat) × Nat)).run w0 t.opened = (.ok (p, d), w', t') ∧ w.conn.isOpen = true ∧ p.1.isOpen = true ∧
      t.opened.next ≤ d ∧ d < t'.next ∧ t'.live = d :: t.opened.live.filter (fun e => !(e == fd)) ∧
        t'.peak ≤ max t.peak (t.live.length + 2)) ∨
    (∃ t', out.stop ∧ (do
        let off ← writeDestination cfg o c r
        backup cfg o c.name
        let conn ← swap cfg o c.name fd
        pure ((conn.1, off), conn.2) : DM ((Conn × Nat) × Nat)).run w0 t.opened = (out.cast, w', t') ∧ (Returns out →
      t.opened.next ≤ t'.next ∧ t'.peak ≤ max t.peak (t.live.length + 2) ∧
      ((out = .err ∧ CopyFails o w.conn ∧ w'.conn.isOpen = w.conn.isOpen ∧ ∃ d, t.opened.next ≤ d ∧ d < t'.next ∧ t'.live = d :: t.opened.live) ∨
      (¬ (out = .err ∧ CopyFails o w.conn) ∧ w'.conn.isOpen = w.conn.isOpen ∧ t'.live = t.opened.live) ∨
      (¬ (out = .err ∧ CopyFails o w.conn) ∧ w.conn.isOpen = true ∧ w'.conn.isOpen = false ∧
        t'.live = t.opened.live.filter (fun e => !(e == fd)))))) := by
    have hf1 : Fresh t.opened := opened_fresh hf
    have hlen : t.opened.live.length = t.live.length + 1 := rfl
    have hpk : t.opened.peak ≤ max t.peak (t.live.length + 2) := by simp only [Tab.opened]; omega
    rcases hwd : (DB.writeDestination cfg o c r).run w0 with ⟨o1, w1⟩
    obtain ⟨t1, e1, q1⟩ := writeDestination_tab cfg o c r w0 w1 t.opened hf1 o1 hwd
    have hc1 : w1.conn = w.conn := by
      have := (writeDestination_rel cfg o c r w0).2
      rw [hwd, hconn0] at this; exact this
    rcases stop_or_ok o1 with hs | ⟨off, rfl⟩
    · rw [bind_stop hwd hs] at h
      injection h with h1 h2
      subst h1; subst h2
      refine .inr ⟨t1, cast_stop hs, by rw [dbind_stop e1 hs, cast_cast hs], fun hr => ?_⟩
      have hr' : Returns o1 := by cases o1 <;> first | exact hr | trivial
      have q := q1 hr'
      refine ⟨q.next, Nat.le_trans q.peak (by omega), .inr (.inl ⟨?_, by rw [hc1], q.live⟩)⟩
      rintro ⟨he, hcf⟩
      have hne := writeDestination_noErr cfg o c r w0 hcf.2.1 hcf.2.2.1
      rw [hwd] at hne
      cases o1 <;> first | exact hne rfl | cases he; done | exact hs
    rw [bind_ok_eq hwd] at h
    have q1 := q1 trivial
    have hearly := writeDestination_early cfg o c r w0 w1 _ hwd (fun h => h)
    rcases hbk : (DB.backup cfg o c.name).run w1 with ⟨o2, w2⟩
    obtain ⟨t2, e2, q2⟩ := backup_tab cfg o c.name w1 w2 t1 (q1.fresh hf1) o2 hbk
    have hc2 : w2.conn.isOpen = w.conn.isOpen := by
      have := (backup_rel cfg o c.name w1).2.2
      rw [hbk, hc1] at this; exact this
    rw [hc1] at q2
    have hl1 : t1.live.length = t.live.length + 1 := by rw [q1.live]; rfl
    have hp1 := q1.peak
    rcases stop_or_ok o2 with hs | ⟨_, rfl⟩
    · rw [bind_stop hbk hs] at h
      injection h with h1 h2
      subst h1; subst h2
      refine .inr ⟨t2, cast_stop hs, by rw [dbind_ok e1, dbind_stop e2 hs, cast_cast hs], fun hr => ?_⟩
      have hr' : Returns o2 := by cases o2 <;> first | exact hr | trivial
      obtain ⟨ql, qq⟩ := q2 hr'
      by_cases hbad : o .createBck = .none ∧ (o .copyBck ≠ .none ∨ w.conn.isOpen = false)
      · obtain ⟨he, hl⟩ := ql hbad
        have := hl.peak
        refine ⟨Nat.le_of_lt (Nat.lt_of_le_of_lt q1.next hl.next), by omega, .inl ⟨by rw [he]; rfl, ⟨htl, hearly.1, hearly.2, hbad.1, hbad.2⟩, hc2, t1.next, q1.next, hl.next, by rw [hl.live, q1.live]⟩⟩
      · have q := qq hbad
        have := q.peak
        exact ⟨Nat.le_trans q1.next q.next, by omega, .inr (.inl ⟨fun hx => hbad ⟨hx.2.2.2.2.1, hx.2.2.2.2.2⟩, hc2, q.live.trans q1.live⟩)⟩
    rw [bind_ok_eq hbk] at h
    obtain ⟨ql, qq⟩ := q2 trivial
    have hgood : ¬ (o .createBck = .none ∧ (o .copyBck ≠ .none ∨ w.conn.isOpen = false)) := fun hx => by have := (ql hx).1; cases this
    have q := qq hgood
    have hp2 := q.peak
    have hncf : ∀ X : Prop, ¬ (X ∧ CopyFails o w.conn) := fun X hx => hgood ⟨hx.2.2.2.2.1, hx.2.2.2.2.2⟩
    have hopen : w.conn.isOpen = true := by
      cases hw : w.conn.isOpen with
      | true => rfl
      | false =>
        have : o .createBck ≠ .none := fun hx => hgood ⟨hx, .inr hw⟩
        unfold DB.backup at hbk
        rw [bind_ok_eq (inoOf_ok _ _)] at hbk
        cases hb : o .createBck with
        | none => exact absurd hb this
        | fail k => rw [hb, bind_stop (x := createOp (.fail k) _) (out := .err) (w' := w1) rfl trivial] at hbk; cases hbk
        | crash k => rw [hb, bind_stop (x := createOp (.crash k) _) (out := .crash) (w' := w1) rfl trivial] at hbk; cases hbk
    have hll : t2.live = t.opened.live := q.live.trans q1.live
    have hln : t.opened.next ≤ t2.next := Nat.le_trans q1.next q.next
    have hfl := filter_length_le t2.live fd
    have hl2 : t2.live.length = t.live.length + 1 := by rw [hll]; rfl
    rcases hsw : (DB.swap cfg o c.name).run w2 with ⟨o3, w3⟩
    rcases swap_tab cfg o c.name fd w2 w3 t2 o3 (by rw [hc2]; exact hopen) hsw with ⟨conn, rfl, hco, e3⟩ | ⟨hs, e3, hcl⟩
    · rw [bind_ok_eq hsw] at h
      injection h with h1 h2
      subst h1; subst h2
      refine .inl ⟨_, _, _, rfl, by rw [dbind_ok e1, dbind_ok e2, dbind_ok e3]; rfl, hopen, hco, hln, Nat.lt_succ_self _, ?_, ?_⟩
      · show t2.next :: t2.live.filter _ = _
        rw [hll]
      · show max t2.peak ((t2.live.filter _).length + 1) ≤ _
        omega
    · rw [bind_stop hsw hs] at h
      injection h with h1 h2
      subst h1; subst h2
      refine .inr ⟨_, cast_stop hs, by rw [dbind_ok e1, dbind_ok e2, dbind_stop e3 (cast_stop hs), cast_cast hs], fun hr => ?_⟩
      have hr' : Returns o3 := by cases o3 <;> first | exact hr | trivial
      refine ⟨hln, ?_, .inr (.inr ⟨hncf _, hopen, hcl hr', ?_⟩)⟩
      · show t2.peak ≤ _; omega
      · show t2.live.filter _ = _; rw [hll]
  have hne : w.conn.isOpen = true → fd ≠ t.next := fun hx he => by have := hf fd (hfd hx); omega
  have hmem : ∀ (e : Nat), e ∈ t.live → e ≠ t.next := fun e he hx => by have := hf e he; omega
  have f1 : (t.next :: t.live).filter (fun e => !(e == t.next)) = t.live := by
    rw [List.filter_cons_of_neg (by simp), filter_fresh hf]
  have f2 : ((t.next :: t.live).filter (fun e => !(e == fd))).filter (fun e => !(e == t.next)) = t.live.filter (fun e => !(e == fd)) := by
    rw [List.filter_filter]
    simp only [List.filter_cons, beq_self_eq_true, Bool.not_true, Bool.false_and, Bool.false_eq_true, if_false]
    apply List.filter_congr
    intro e he
    have := hmem e he
    simp [this]
  rcases key with ⟨p, d, t', rfl, e, hop, hpo, hd, hd', hl, hpk⟩ | ⟨t', hs, e, hR⟩
  · obtain ⟨t'', e', ht⟩ := deferClose_run (d := t.next) e
    have ht := ht trivial
    subst ht
    refine .inl ⟨p, d, _, rfl, e', hop, hpo, Nat.le_of_succ_le hd, hd', ?_, ?_, hpk⟩
    · show t'.live.filter _ = _
      rw [hl, List.filter_cons_of_pos (by have : t.next + 1 ≤ d := hd; simp; omega)]
      exact congrArg _ f2
    · show t.next ≤ t'.next
      have : t.next + 1 ≤ d := hd
      omega
  · obtain ⟨t'', e', ht⟩ := deferClose_run (d := t.next) e
    refine .inr ⟨t'', hs, e', fun hr => ?_⟩
    have ht := ht (by cases out <;> first | exact hr | trivial)
    subst ht
    obtain ⟨hn, hp, hh⟩ := hR hr
    have hn : t.next ≤ t'.next := Nat.le_of_succ_le hn
    rcases hh with ⟨h1, h2, h3, d, hd, hd', hl⟩ | ⟨h1, h2, hl⟩ | ⟨h1, h2, h3, hl⟩
    · refine .inl ⟨h1, h2, h3, d, Nat.le_of_succ_le hd, hd', ?_, hn, hp⟩
      show t'.live.filter _ = _
      rw [hl, List.filter_cons_of_pos (by have : t.next + 1 ≤ d := hd; simp; omega)]
      exact congrArg _ f1
    · refine .inr (.inl ⟨h1, h2, ?_, hn, hp⟩)
      show t'.live.filter _ = _
      rw [hl]; exact f1
    · refine .inr (.inr ⟨h1, h2, h3, ?_, hn, hp⟩)
      show t'.live.filter _ = _
      rw [hl]; exact f2

end Fd
end Rodkina
