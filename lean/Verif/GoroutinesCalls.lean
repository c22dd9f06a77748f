import Verif.GoroutinesLemmas
/-!
# Goroutines: every call made alone does what the sequential model says
-/

namespace Rodkina
namespace DB
namespace Go

open Ref

set_option linter.unusedVariables false

/-- A call and what follows it. -/
structure Head (α : Type) where
  β : Type
  prog : Prog (Option β)
  k : β → Session α

/-- The first call of a program. -/
def head {α : Type} (cfg : Cfg) : Session α → Option (Head α)
  | .done _ => none
  | .exists' n k => some ⟨_, existsProg cfg n, k⟩
  | .new n k => some ⟨_, newProg cfg n, k⟩
  | .delete n k => some ⟨_, deleteProg cfg n, k⟩
  | .open' n k => some ⟨_, openProg cfg n, k⟩
  | .keys id k => some ⟨_, keysProg id, k⟩
  | .commits id k => some ⟨_, commitsProg id, k⟩
  | .read id p k => some ⟨_, readProg id p, k⟩
  | .write id h data kind k => some ⟨_, writeProg id h data kind, k⟩
  | .cancel id k => some ⟨_, cancelProg id, k⟩
  | .commit id now k => some ⟨_, commitProg cfg id now, k⟩
  | .close id k => some ⟨_, closeProg id, k⟩

theorem go_head {α : Type} {cfg : Cfg} {s : Session α} {H : Head α} (h : head cfg s = some H) (b : Bool) :
    s.go b cfg = (call b H.prog).andThen (fun r => (H.k r).go b cfg) := by
  cases s <;> cases h <;> rfl

theorem head_none {α : Type} {cfg : Cfg} {s : Session α} (h : head cfg s = none) : ∃ v, s = .done v := by
  cases s with
  | done v => exact ⟨v, rfl⟩
  | _ => cases h

theorem eta_idle {m : Mem} (h : m.writer = none) : (⟨m.heap, m.next, m.table, none, m.mutex, m.shared⟩ : Mem) = m := by
  rw [← h]

/-- What the sequential model says about a call, for a program of accesses. -/
def Does {α : Type} (g : Nat) (H : Head α) (m : Mem) : Out (Session α × FS × App) → Prop
  | .ok (s, fs, a) => ∃ r m', alone g H.prog m = some (some r, m') ∧ s = H.k r ∧ Shows m' fs a ∧ m'.mutex = m.mutex
  | .hang => ∃ m', alone g H.prog m = some (none, m')
  | .panic => alone g H.prog m = none
  | _ => False

theorem reference_alone (g : Nat) (id : Nat) {m : Mem} {fs : FS} {a : App} (h : Shows m fs a) :
    alone g (referenceProg id) m = some (match a.get id with
      | none => .err
      | some c => match c.reference with
        | none => .err
        | some r => .ok r, m) := by
  rw [← h.get]
  simp only [referenceProg, alone, exec, h.ok.idle, Option.isSome_none, Bool.false_eq_true, if_false]
  cases (m.table.find? (fun e => e.1 == id)).map (·.2) with
  | none => rfl
  | some p =>
    simp only [alone, exec, Option.map_some]
    cases (m.heap p).reference <;> rfl

theorem commit_alone {α : Type} (g : Nat) (cfg : Cfg) (id : Nat) (now : Int) (k : Bool → Session α) {m : Mem} {fs : FS} {a : App}
    (h : Shows m fs a) (hd : ∀ e ∈ a, cfg.Distinct e.2.name) :
    Does g ⟨Bool, commitProg cfg id now, k⟩ m ((Session.commit id now k).call cfg fs a) := by
  have hget := h.get id
  simp only [Session.call, DB.commit]
  cases hp : (m.table.find? (fun e => e.1 == id)).map (·.2) with
  | none =>
    rw [hp] at hget
    rw [← hget]
    refine ⟨false, m, ?_, rfl, h, rfl⟩
    simp only [commitProg, alone, exec, h.ok.idle, Option.isSome_none, Bool.false_eq_true, if_false, hp]
  | some p =>
    obtain ⟨c, hc⟩ : ∃ c, m.heap p = c := ⟨_, rfl⟩
    rw [hp, Option.map_some, hc] at hget
    rw [← hget]
    simp only
    cases hr : updateReference cfg c now with
    | err =>
      refine ⟨false, m, ?_, rfl, h, rfl⟩
      simp only [commitProg, alone, exec, h.ok.idle, Option.isSome_none, Bool.false_eq_true, if_false, hp, hc, hr]
    | panic =>
      show alone g _ m = none
      simp only [commitProg, alone, exec, h.ok.idle, Option.isSome_none, Bool.false_eq_true, if_false, hp, hc, hr]
      rfl
    | ok r =>
      have hcd : cfg.Distinct c.name := by
        have : App.In (cfg.Distinct ·) a := hd
        exact this.get hget.symm
      obtain ⟨fs1, hfs1⟩ : ∃ x, fs.touch (cfg.path c.name) = x := ⟨_, rfl⟩
      have e : (updateDatabaseOnFile cfg calm c r).run ⟨fs, c.conn⟩ = (bodyM cfg c r).run ⟨fs1, c.conn⟩ := by rw [← hfs1]; rfl
      have hs : (fs1.dir (cfg.path c.name)).isSome := by
        rw [← hfs1]
        unfold FS.touch
        cases h : fs.dir (cfg.path c.name) with
        | none => simp only; rw [create_dir_self]; rfl
        | some i => simp [h]
      have hb := fun w => body_err cfg c r fs1 hcd hs (w := w)
      obtain ⟨l, hl⟩ : ∃ x, (fs1.dir (cfg.path c.name)).getD 0 = x := ⟨_, rfl⟩
      have hu : upd (upd (fun _ => none) l (some g)) l none = fun _ => (none : Option Nat) := by
        funext x
        by_cases ex : x = l
        · subst ex; rw [upd_self]
        · rw [upd_ne _ _ ex, upd_ne _ _ ex]
      obtain ⟨hh, hheap, hbody⟩ := body_alone g cfg p c r
        { m with shared := ⟨fs1, upd (fun _ => none) l (some g)⟩ } hc
      have hsim := sim_body g cfg c r fs1 (upd (fun _ => none) l (some g))
      simp only
      rw [e]
      obtain ⟨⟨o, ⟨fs2, conn2⟩⟩, hx⟩ : ∃ y, (bodyM cfg c r).run ⟨fs1, c.conn⟩ = y := ⟨_, rfl⟩
      rw [hx] at hb hsim ⊢
      simp only at hbody
      rw [hsim] at hbody
      have key : alone g (commitProg cfg id now) m =
          alone g (((bodyProg cfg p c r).bind (fun o => files (unlockProg l o))).bind
            (commitRest id r)) { m with shared := ⟨fs1, upd (fun _ => none) l (some g)⟩ } := by
        simp only [commitProg, alone, exec, h.ok.idle, Option.isSome_none, Bool.false_eq_true, if_false, hp, hc, hr, h.shared, DB.exec, hfs1,
          hl, if_true]
      rw [alone_bind, alone_bind, hbody] at key
      simp only [Option.bind_some] at key
      cases o with
      | ok x =>
        obtain ⟨conn, off⟩ := x
        refine ⟨true, _, ?_, rfl, h.change hp { c with conn := conn, reference := some r, dataOffset := off } fs2 m.mutex, rfl⟩
        show alone g (commitProg cfg id now) m = _
        rw [key, alone_files]
        simp only [commitRest, unlockProg, DB.alone, DB.exec, Option.bind_some, alone, exec, h.ok.idle, Option.isSome_none, Bool.false_eq_true, if_false,
          hp, hu]
        congr 3
        rcases hheap with rfl | rfl
        · rw [hc]
        · rw [upd_self]
          funext x
          by_cases ex : x = p
          · subst ex; rw [upd_self, upd_self]; rfl
          · rw [upd_ne _ _ ex, upd_ne _ _ ex, upd_ne _ _ ex]
      | err =>
        obtain ⟨h1, h2⟩ := hb _ rfl
        simp only at h2
        subst h2
        refine ⟨false, _, ?_, rfl, h.change hp c fs2 m.mutex, rfl⟩
        show alone g (commitProg cfg id now) m = _
        rw [key, alone_files]
        simp only [commitRest, unlockProg, DB.alone, DB.exec, Option.bind_some, alone, exec, hu]
        congr 3
        have hcl : closed c = c := by
          unfold closed
          rw [← h1]
        rcases hheap with rfl | rfl
        · funext x
          by_cases ex : x = p
          · subst ex; rw [upd_self, hc]
          · rw [upd_ne _ _ ex]
        · rw [hcl]
      | panic =>
        show alone g (commitProg cfg id now) m = _
        rw [key, alone_files]
        rfl
      | crash =>
        show alone g (commitProg cfg id now) m = _
        rw [key, alone_files]
        rfl
      | hang =>
        rw [alone_files] at key
        exact ⟨_, key⟩

theorem head_alone {α : Type} (g : Nat) (cfg : Cfg) (s : Session α) {H : Head α} (hH : head cfg s = some H) {m : Mem} {fs : FS} {a : App}
    (h : Shows m fs a) (hd : ∀ id now k, s = .commit id now k → ∀ e ∈ a, cfg.Distinct e.2.name) (hs : s.NextSmall cfg fs) :
    Does g H m (s.call cfg fs a) := by
  have hm := h.ok
  cases s with
  | done v => cases hH
  | exists' n k =>
    cases hH
    refine ⟨_, m, rfl, ?_, h, rfl⟩
    simp only [DB.exec, h.fs]
    rfl
  | new n k =>
    cases hH
    simp only [Session.call, DB.new']
    by_cases hn : (fs.dir (cfg.path n)).isSome
    · simp only [hn, if_true]
      refine ⟨false, m, ?_, rfl, h, rfl⟩
      simp only [newProg, alone, exec, DB.exec, h.shared, hn, if_true]
      rw [← h.shared]
    · simp only [hn]
      refine ⟨true, { m with shared := ⟨fs.create (cfg.path n), fun _ => none⟩ }, ?_, rfl,
        ⟨⟨hm.pointers, hm.keys, hm.below, hm.idle, rfl⟩, rfl, h.app⟩, rfl⟩
      simp only [newProg, alone, exec, DB.exec, h.shared, hn]
      rfl
  | delete n k =>
    cases hH
    simp only [Session.call, DB.delete']
    by_cases hn : (fs.dir (cfg.path n)).isSome
    · simp only [hn, if_true]
      refine ⟨true, { m with shared := ⟨fs.remove (cfg.path n), fun _ => none⟩ }, ?_, rfl,
        ⟨⟨hm.pointers, hm.keys, hm.below, hm.idle, rfl⟩, rfl, h.app⟩, rfl⟩
      simp only [deleteProg, alone, exec, DB.exec, h.shared, hn, if_true]
    · simp only [hn]
      refine ⟨false, m, ?_, rfl, h, rfl⟩
      simp only [deleteProg, alone, exec, DB.exec, h.shared, hn]
      rw [← h.shared]
      rfl
  | open' n k =>
    cases hH
    have hany : (m.table.map (fun e => (m.heap e.2).name)).any (· == n) = a.any (fun e => e.2.name == n) := by
      rw [← h.app.any_eq]
      unfold Mem.app
      rw [List.any_map, List.any_map]
      rfl
    simp only [Session.call, DB.open']
    cases ha : a.any (fun e => e.2.name == n) with
    | true =>
      simp only [if_true]
      refine ⟨none, m, ?_, rfl, h, rfl⟩
      simp only [openProg, alone, exec, hm.idle, Option.isSome_none, Bool.false_eq_true, if_false, hany, ha, if_true]
    | false =>
      simp only [Bool.false_eq_true, if_false, retrieveAt, FS.file]
      have hsh : { m with shared := ⟨fs, fun _ => none⟩ } = m := by rw [← h.shared]
      cases hi : fs.dir (cfg.path n) with
      | none =>
        refine ⟨none, m, ?_, rfl, h, rfl⟩
        simp only [openProg, alone, exec, hm.idle, Option.isSome_none, Bool.false_eq_true, if_false, hany, ha, DB.exec, h.shared, hi]
        rw [← h.shared, eta_idle hm.idle]
      | some i =>
        have hlen : (fs.ino i).length < 2 ^ 63 := hs _ (by unfold FS.file; rw [hi]; rfl)
        have hr := retrieve_alone g cfg m.shared i (by rw [h.shared]; exact hlen)
        rw [h.shared] at hr
        have key : alone g (openProg cfg n) m = alone g ((files (retrieveProg cfg i)).bind (openRest cfg n)) m := by
          simp only [openProg, alone, exec, hm.idle, Option.isSome_none, Bool.false_eq_true, if_false, hany, ha, DB.exec, h.shared, hi]
          rw [← h.shared, eta_idle hm.idle]
        rw [alone_bind, alone_files, h.shared, hr] at key
        simp only [Option.bind_some, hsh] at key
        simp only [Option.map_some]
        cases hx : retrieveReference cfg (fs.ino i) with
        | err =>
          rw [hx] at key
          exact ⟨none, m, key, rfl, h, rfl⟩
        | panic =>
          rw [hx] at key
          exact key
        | ok r =>
          rw [hx] at key
          have hl : m.table.length = a.length := by rw [← h.app.length_eq]; simp [Mem.app]
          refine ⟨some a.length, _, ?_, rfl, h.insert ⟨n, ⟨i, 0, true⟩, r.1, r.2, []⟩ m.mutex, rfl⟩
          show alone g (openProg cfg n) m = _
          rw [key]
          simp only [openRest, alone, exec, DB.exec, h.shared, hi, hm.idle, Option.isSome_none, Bool.false_eq_true, if_false, hl]
  | keys id k =>
    cases hH
    simp only [Session.call, contentKeys]
    have := reference_alone g id h
    refine ⟨_, m, ?_, rfl, h, rfl⟩
    simp only [keysProg]
    rw [alone_bind, this]
    cases a.get id with
    | none => rfl
    | some c =>
      simp only [Option.bind_some]
      cases c.reference <;> rfl
  | commits id k =>
    cases hH
    simp only [Session.call, DB.commits]
    have := reference_alone g id h
    refine ⟨_, m, ?_, rfl, h, rfl⟩
    simp only [commitsProg]
    rw [alone_bind, this]
    cases a.get id with
    | none => rfl
    | some c =>
      simp only [Option.bind_some]
      cases c.reference <;> rfl
  | read id q k =>
    cases hH
    simp only [Session.call, DB.read]
    rw [← h.get]
    cases hp : (m.table.find? (fun e => e.1 == id)).map (·.2) with
    | none =>
      refine ⟨none, m, ?_, rfl, h, rfl⟩
      simp only [readProg, alone, exec, hm.idle, Option.isSome_none, Bool.false_eq_true, if_false, hp]
    | some p =>
      have key : ∀ x, connRead fs (m.heap p).conn q.length (((m.heap p).dataOffset + q.from') % 2 ^ 64) = x →
          alone g (readProg id q) m = alone g (readRest x) m := by
        intro x hx
        simp only [readProg, alone, exec, hm.idle, Option.isSome_none, Bool.false_eq_true, if_false, hp, DB.exec, h.fs, hx]
        rw [eta_idle hm.idle]
      simp only [Option.map_some]
      cases hx : connRead fs (m.heap p).conn q.length (((m.heap p).dataOffset + q.from') % 2 ^ 64) with
      | ok b => exact ⟨some b, m, key _ hx, rfl, h, rfl⟩
      | err => exact ⟨none, m, key _ hx, rfl, h, rfl⟩
      | panic => exact key _ hx
  | write id hash data kind k =>
    cases hH
    simp only [Session.call, DB.write]
    rw [← h.get]
    cases hp : (m.table.find? (fun e => e.1 == id)).map (·.2) with
    | none =>
      refine ⟨false, m, ?_, rfl, h, rfl⟩
      simp only [writeProg, alone, exec, hm.idle, Option.isSome_none, Bool.false_eq_true, if_false, hp]
    | some p =>
      simp only [Option.map_some]
      cases hx : contentNow hash data kind with
      | err =>
        refine ⟨false, m, ?_, rfl, h, rfl⟩
        simp only [writeProg, alone, exec, hm.idle, Option.isSome_none, Bool.false_eq_true, if_false, hp, hx]
      | panic =>
        show alone g (writeProg id hash data kind) m = none
        simp only [writeProg, alone, exec, hm.idle, Option.isSome_none, Bool.false_eq_true, if_false, hp, hx]
        rfl
      | ok x =>
        refine ⟨true, _, ?_, rfl, h.store hp { m.heap p with contentList := (m.heap p).contentList ++ [x] } m.mutex, rfl⟩
        simp only [writeProg, alone, exec, hm.idle, Option.isSome_none, Bool.false_eq_true, if_false, hp, hx]
  | cancel id k =>
    cases hH
    simp only [Session.call, DB.cancel]
    rw [← h.get]
    cases hp : (m.table.find? (fun e => e.1 == id)).map (·.2) with
    | none =>
      refine ⟨false, m, ?_, rfl, h, rfl⟩
      simp only [cancelProg, alone, exec, hm.idle, Option.isSome_none, Bool.false_eq_true, if_false, hp]
    | some p =>
      refine ⟨true, _, ?_, rfl, h.store hp { m.heap p with contentList := [] } m.mutex, rfl⟩
      simp only [cancelProg, alone, exec, hm.idle, Option.isSome_none, Bool.false_eq_true, if_false, hp]
  | commit id now k => cases hH; exact commit_alone g cfg id now k h (hd _ _ _ rfl)
  | close id k =>
    cases hH
    simp only [Session.call, DB.close]
    rw [← h.get]
    cases hp : (m.table.find? (fun e => e.1 == id)).map (·.2) with
    | none =>
      refine ⟨false, m, ?_, rfl, h, rfl⟩
      simp only [closeProg, alone, exec, hm.idle, Option.isSome_none, Bool.false_eq_true, if_false, hp]
    | some p =>
      simp only [Option.map_some]
      by_cases ho : (m.heap p).conn.isOpen
      · simp only [ho, if_true]
        refine ⟨true, _, ?_, rfl, h.delete hp { m.heap p with conn := { (m.heap p).conn with isOpen := false } } m.mutex, rfl⟩
        simp only [closeProg, alone, exec, hm.idle, Option.isSome_none, Bool.false_eq_true, if_false, hp, ho, if_true]
      · simp only [ho]
        refine ⟨false, m, ?_, rfl, h, rfl⟩
        simp only [closeProg, alone, exec, hm.idle, Option.isSome_none, Bool.false_eq_true, if_false, hp, ho]
        simp only [Bool.not_eq_true] at ho
        have e : upd m.heap p { m.heap p with conn := { (m.heap p).conn with isOpen := false } } = m.heap := by
          funext x
          by_cases ex : x = p
          · subst ex
            rw [upd_self, ← ho]
          · rw [upd_ne _ _ ex]
        simp only at e
        rw [e]
        simp [alone, eta_idle hm.idle]

/-! ## Whole programs made alone -/

theorem session_calls {α : Type} (cfg : Cfg) {P : Session α → Prop} (hd : ∀ v, P (.done v))
    (hc : ∀ x H, head cfg x = some H → (∀ r, P (H.k r)) → P x) : ∀ x, P x := by
  intro x
  induction x with
  | done v => exact hd v
  | _ => rename_i ih; exact hc _ _ rfl ih

theorem call_uses {α : Type} {cfg : Cfg} {N : Name → Prop} {x : Session α} {fs : FS} {a : App} (hx : x.Uses N) (ha : a.In N)
    {y : Session α} {fs' : FS} {a' : App} (h : x.call cfg fs a = .ok (y, fs', a')) : y.Uses N ∧ a'.In N := by
  cases x with
  | done v => cases h; exact ⟨hx, ha⟩
  | exists' n k => cases h; exact ⟨hx.2 _, ha⟩
  | new n k =>
    simp only [Session.call] at h
    split at h <;> cases h
    · exact ⟨hx.2 _, ha⟩
    · exact ⟨hx.2 _, ha⟩
  | delete n k =>
    simp only [Session.call] at h
    split at h <;> cases h
    · exact ⟨hx.2 _, ha⟩
    · exact ⟨hx.2 _, ha⟩
  | open' n k =>
    simp only [Session.call] at h
    split at h <;> cases h
    · rename_i e
      unfold DB.open' at e
      split at e
      · cases e
      · obtain ⟨r, _, e⟩ := Res.bind_eq_ok.mp e
        cases e
        exact ⟨hx.2 _, ha.set _ hx.1⟩
    · exact ⟨hx.2 _, ha⟩
  | keys id k => cases h; exact ⟨hx _, ha⟩
  | commits id k => cases h; exact ⟨hx _, ha⟩
  | read id p k =>
    simp only [Session.call] at h
    split at h <;> cases h
    · exact ⟨hx _, ha⟩
    · exact ⟨hx _, ha⟩
  | write id hh data kind k =>
    simp only [Session.call] at h
    split at h <;> cases h
    · rename_i e
      unfold DB.write at e
      cases hg : a.get id with
      | none => rw [hg] at e; cases e
      | some c =>
        rw [hg] at e
        obtain ⟨z, _, e⟩ := Res.bind_eq_ok.mp e
        cases e
        exact ⟨hx _, ha.set _ (show N c.name from ha.get hg)⟩
    · exact ⟨hx _, ha⟩
  | cancel id k =>
    simp only [Session.call] at h
    split at h <;> cases h
    · rename_i e
      unfold DB.cancel at e
      cases hg : a.get id with
      | none => rw [hg] at e; cases e
      | some c =>
        rw [hg] at e
        cases e
        exact ⟨hx _, ha.set _ (show N c.name from ha.get hg)⟩
    · exact ⟨hx _, ha⟩
  | commit id now k =>
    have key : (DB.commit cfg calm now fs a id).app.In N := by
      unfold DB.commit
      cases hg : a.get id with
      | none => exact ha
      | some c =>
        have hn := ha.get hg
        simp only
        cases updateReference cfg c now with
        | err => exact ha
        | panic => exact ha
        | ok r =>
          simp only
          obtain ⟨⟨o, w⟩, hy⟩ : ∃ y, (updateDatabaseOnFile cfg calm c r).run ⟨fs, c.conn⟩ = y := ⟨_, rfl⟩
          rw [hy]
          cases o <;> exact ha.set _ hn
    simp only [Session.call] at h
    split at h <;> cases h
    · exact ⟨hx _, key⟩
    · exact ⟨hx _, key⟩
  | close id k =>
    simp only [Session.call] at h
    split at h <;> cases h
    · rename_i e
      unfold DB.close at e
      cases hg : a.get id with
      | none => rw [hg] at e; cases e
      | some c =>
        rw [hg] at e
        simp only at e
        split at e <;> cases e
        exact ⟨hx _, ha.filter _⟩
    · exact ⟨hx _, ha⟩

/-- The calls of a program one after the other. -/
theorem seq_call {α : Type} (cfg : Cfg) (x : Session α) (fs : FS) (a : App) :
    match x.call cfg fs a with
    | .ok (y, fs', a') => x.seq cfg fs a = y.seq cfg fs' a'
    | _ => (x.seq cfg fs a).1 = none := by
  cases x with
  | done v => rfl
  | exists' n k => rfl
  | keys id k => rfl
  | commits id k => rfl
  | commit id now k =>
    simp only [Session.call, Session.seq]
    cases (DB.commit cfg calm now fs a id).out <;> rfl
  | new n k => simp only [Session.call, Session.seq]; cases DB.new' cfg fs n <;> rfl
  | delete n k => simp only [Session.call, Session.seq]; cases DB.delete' cfg fs n <;> rfl
  | open' n k => simp only [Session.call, Session.seq]; cases DB.open' cfg fs a n <;> rfl
  | read id q k => simp only [Session.call, Session.seq]; cases DB.read fs a id q <;> rfl
  | write id h data kind k => simp only [Session.call, Session.seq]; cases DB.write a id h data kind <;> rfl
  | cancel id k => simp only [Session.call, Session.seq]; cases DB.cancel a id <;> rfl
  | close id k => simp only [Session.call, Session.seq]; cases DB.close a id <;> rfl

theorem small_call {α : Type} (cfg : Cfg) (x : Session α) (fs : FS) (a : App) (h : x.Small cfg fs a) :
    x.NextSmall cfg fs ∧ ∀ y fs' a', x.call cfg fs a = .ok (y, fs', a') → y.Small cfg fs' a' := by
  cases x with
  | done v => exact ⟨trivial, fun y fs' a' e => by cases e; trivial⟩
  | exists' n k => exact ⟨trivial, fun y fs' a' e => by cases e; exact h⟩
  | keys id k => exact ⟨trivial, fun y fs' a' e => by cases e; exact h⟩
  | commits id k => exact ⟨trivial, fun y fs' a' e => by cases e; exact h⟩
  | open' n k =>
    simp only [Session.Small] at h
    refine ⟨h.1, fun y fs' a' e => ?_⟩
    have h := h.2
    simp only [Session.call] at e
    split at e <;> rename_i e1 <;> cases e <;> simp only [e1] at h <;> exact h
  | _ =>
    refine ⟨trivial, fun y fs' a' e => ?_⟩
    simp only [Session.call] at e
    simp only [Session.Small] at h
    split at e <;> rename_i e1 <;> cases e <;> simp only [e1] at h <;> exact h

theorem go_alone {α : Type} (g : Nat) (cfg : Cfg) {N : Name → Prop} (hd : ∀ n, N n → cfg.Distinct n) (x : Session α) :
    ∀ (m : Mem) (fs : FS) (a : App), Shows m fs a → x.Uses N → a.In N → x.Small cfg fs a →
    match (x.seq cfg fs a).1 with
    | some v => ∃ m' a', alone g (x.go false cfg) m = some (some v, m') ∧ Shows m' (x.seq cfg fs a).2 a'
    | none => alone g (x.go false cfg) m = none ∨ ∃ m', alone g (x.go false cfg) m = some (none, m') := by
  refine session_calls (P := fun x => ∀ (m : Mem) (fs : FS) (a : App), Shows m fs a → x.Uses N → a.In N → x.Small cfg fs a →
    match (x.seq cfg fs a).1 with
    | some v => ∃ m' a', alone g (x.go false cfg) m = some (some v, m') ∧ Shows m' (x.seq cfg fs a).2 a'
    | none => alone g (x.go false cfg) m = none ∨ ∃ m', alone g (x.go false cfg) m = some (none, m')) cfg ?_ ?_ x
  · intro v m fs a h _ _ _
    exact ⟨m, a, rfl, h⟩
  · intro x H hH ih m fs a h hu ha hs
    have h1 := head_alone g cfg x hH h (fun _ _ _ _ e he => hd _ (ha e he)) (small_call cfg x fs a hs).1
    have h2 := seq_call cfg x fs a
    have h3 := (small_call cfg x fs a hs).2
    have h4 := fun y fs' a' => call_uses hu ha (y := y) (fs' := fs') (a' := a') (cfg := cfg) (fs := fs)
    rw [go_head hH]
    simp only [call, Bool.false_eq_true, if_false, Prog.andThen]
    rw [alone_bind]
    generalize x.call cfg fs a = o at h1 h2 h3 h4
    cases o with
    | ok y =>
      obtain ⟨y, fs', a'⟩ := y
      obtain ⟨r, m', q1, q2, q3, _⟩ := h1
      simp only at h2
      rw [h2, q1, q2]
      obtain ⟨u1, u2⟩ := h4 _ _ _ rfl
      exact ih r m' fs' a' q3 (q2 ▸ u1) u2 (q2 ▸ h3 _ _ _ rfl)
    | hang =>
      obtain ⟨m', q1⟩ := h1
      simp only at h2
      rw [h2, q1]
      exact .inr ⟨m', rfl⟩
    | panic =>
      have q1 : alone g H.prog m = none := h1
      simp only at h2
      rw [h2, q1]
      exact .inl rfl
    | err => cases h1
    | crash => cases h1

/-! ## Programs that only ask -/

/-- The access changes nothing. -/
def Acc.quiet : Acc → Bool
  | .look _ => true
  | .range => true
  | .len => true
  | .fields _ => true
  | .stop => true
  | .file (.openFile _) => true
  | .file (.read _ _ _) => true
  | _ => false

/-- No access of the program changes anything. -/
def Prog.Quiet {α : Type} : Prog α → Prop
  | .ret _ => True
  | .op o k => o.quiet = true ∧ ∀ r, (k r).Quiet

theorem Prog.Quiet.bind {α β : Type} {x : Prog α} (h : x.Quiet) {f : α → Prog β} (hf : ∀ a, (f a).Quiet) : (x.bind f).Quiet := by
  induction x with
  | ret a => exact hf a
  | op o k ih => exact ⟨h.1, fun r => ih r (h.2 r)⟩

theorem reads_quiet {α : Type} (cfg : Cfg) (x : Session α) (h : x.Reads) : (x.go false cfg).Quiet := by
  have stop_quiet : ∀ {β : Type}, (stop : Prog β).Quiet := fun {β} => ⟨rfl, fun (e : Empty) => e.elim⟩
  have hthen : ∀ {β : Type} {y : Prog (Option β)} {k : β → Session α}, y.Quiet → (∀ r, ((k r).go false cfg).Quiet) →
      (y.andThen (fun r => (k r).go false cfg)).Quiet := by
    intro β y k hy hk
    refine hy.bind fun r => ?_
    cases r with
    | none => trivial
    | some r => exact hk r
  have href : ∀ id, (referenceProg id).Quiet := by
    intro id
    refine And.intro rfl fun p => ?_
    cases p with
    | none => trivial
    | some p =>
      refine And.intro rfl fun c => ?_
      obtain ⟨n, conn, r, off, l⟩ := c
      cases r <;> trivial
  induction x with
  | done v => trivial
  | exists' n k ih => exact hthen (y := existsProg cfg n) (And.intro rfl fun _ => trivial) fun r => ih r (h r)
  | keys id k ih =>
    refine hthen (y := keysProg id) ((href id).bind fun r => ?_) fun r => ih r (h r)
    cases r <;> trivial
  | commits id k ih =>
    refine hthen (y := commitsProg id) ((href id).bind fun r => ?_) fun r => ih r (h r)
    cases r <;> trivial
  | read id q k ih =>
    refine hthen (y := readProg id q) (And.intro rfl fun p => ?_) fun r => ih r (h r)
    cases p with
    | none => trivial
    | some p =>
      refine And.intro rfl fun c => And.intro rfl fun r => ?_
      cases r with
      | ok b => trivial
      | err => trivial
      | panic => exact stop_quiet
  | _ => exact h.elim

/-- A program that only asks, alone. -/
theorem reads_alone {α : Type} (g : Nat) (cfg : Cfg) (x : Session α) (hx : x.Reads) (m : Mem) (fs : FS) (a : App) (h : Shows m fs a) :
    match (x.seq cfg fs a).1 with
    | some v => ∃ m', alone g (x.go false cfg) m = some (some v, m')
    | none => alone g (x.go false cfg) m = none ∨ ∃ m', alone g (x.go false cfg) m = some (none, m') := by
  have step : ∀ (m : Mem), Shows m fs a → ∀ (y : Session α) (H : Head α), head cfg y = some H → y.NextSmall cfg fs → (∀ id now k, y ≠ .commit id now k) →
      (∀ z fs' a', y.call cfg fs a = .ok (z, fs', a') → fs' = fs ∧ a' = a ∧ ∀ m', Shows m' fs a →
        match (z.seq cfg fs a).1 with
        | some v => ∃ m'', alone g (z.go false cfg) m' = some (some v, m'')
        | none => alone g (z.go false cfg) m' = none ∨ ∃ m'', alone g (z.go false cfg) m' = some (none, m'')) →
      match (y.seq cfg fs a).1 with
      | some v => ∃ m', alone g (y.go false cfg) m = some (some v, m')
      | none => alone g (y.go false cfg) m = none ∨ ∃ m', alone g (y.go false cfg) m = some (none, m') := by
    intro m h y H hH hs hc hnext
    have h1 := head_alone g cfg y hH h (fun id now k e => absurd e (hc id now k)) hs
    have h2 := seq_call cfg y fs a
    rw [go_head hH]
    simp only [call, Bool.false_eq_true, if_false, Prog.andThen]
    rw [alone_bind]
    generalize y.call cfg fs a = o at h1 h2 hnext
    cases o with
    | ok z =>
      obtain ⟨z, fs', a'⟩ := z
      obtain ⟨r, m', q1, q2, q3, _⟩ := h1
      obtain ⟨rfl, rfl, h3⟩ := hnext _ _ _ rfl
      simp only at h2
      rw [h2, q1]
      subst q2
      exact h3 m' q3
    | hang =>
      obtain ⟨m', q1⟩ := h1
      simp only at h2
      rw [h2, q1]
      exact .inr ⟨m', rfl⟩
    | panic =>
      have q1 : alone g H.prog m = none := h1
      simp only at h2
      rw [h2, q1]
      exact .inl rfl
    | err => cases h1
    | crash => cases h1
  induction x generalizing m with
  | done v => exact ⟨m, rfl⟩
  | exists' n k ih =>
    exact step m h _ _ rfl trivial (fun _ _ _ e => by cases e) fun z fs' a' e => by
      cases e
      exact ⟨rfl, rfl, fun m' hm' => ih _ (hx _) m' hm'⟩
  | keys id k ih =>
    exact step m h _ _ rfl trivial (fun _ _ _ e => by cases e) fun z fs' a' e => by
      cases e
      exact ⟨rfl, rfl, fun m' hm' => ih _ (hx _) m' hm'⟩
  | commits id k ih =>
    exact step m h _ _ rfl trivial (fun _ _ _ e => by cases e) fun z fs' a' e => by
      cases e
      exact ⟨rfl, rfl, fun m' hm' => ih _ (hx _) m' hm'⟩
  | read id q k ih =>
    exact step m h _ _ rfl trivial (fun _ _ _ e => by cases e) fun z fs' a' e => by
      simp only [Session.call] at e
      split at e <;> cases e
      · exact ⟨rfl, rfl, fun m' hm' => ih _ (hx _) m' hm'⟩
      · exact ⟨rfl, rfl, fun m' hm' => ih _ (hx _) m' hm'⟩
  | _ => exact hx.elim

theorem exec_quiet {g : Nat} {o : Acc} (h : o.quiet = true) {m : Mem} {y : o.Resp × Mem} (hy : exec g o m = some y) :
    y.2 = m ∧ o.ready m = true := by
  cases o with
  | look id =>
    simp only [exec] at hy
    split at hy <;> cases hy
    exact ⟨rfl, rfl⟩
  | range =>
    simp only [exec] at hy
    split at hy <;> cases hy
    exact ⟨rfl, rfl⟩
  | len =>
    simp only [exec] at hy
    split at hy <;> cases hy
    exact ⟨rfl, rfl⟩
  | fields p => cases hy; exact ⟨rfl, rfl⟩
  | stop => cases hy
  | file o =>
    cases o with
    | openFile p => cases hy; exact ⟨rfl, rfl⟩
    | read c l p => cases hy; exact ⟨rfl, rfl⟩
    | _ => cases h
  | _ => cases h

theorem quiet_run {α : Type} (m : Mem) (R : Nat → Option (Option α × Mem)) (L : List Nat) :
    ∀ s : System α, s.mem = m → (∀ g, (s.threads g).Quiet ∧ alone g (s.threads g) m = R g) →
    match s.run L with
    | none => ∃ g, R g = none
    | some s' => s'.mem = m ∧ ∀ g, (s'.threads g).Quiet ∧ alone g (s'.threads g) m = R g := by
  induction L with
  | nil => intro s h1 h2; exact ⟨h1, h2⟩
  | cons g L ih =>
    intro s h1 h2
    obtain ⟨hq, ha⟩ := h2 g
    simp only [System.run]
    cases hx : s.threads g with
    | ret v =>
      have : s.step g = some s := by simp only [System.step, hx]
      rw [this]
      exact ih s h1 h2
    | op o k =>
      rw [hx] at hq ha
      have hr : o.ready m = true := by
        cases o with
        | lock => cases hq.1
        | _ => rfl
      simp only [alone] at ha
      cases he : exec g o m with
      | none =>
        rw [he] at ha
        have : s.step g = none := by simp only [System.step, hx, hr, if_true, h1, he]
        rw [this]
        exact ⟨g, ha.symm⟩
      | some y =>
        obtain ⟨r, m'⟩ := y
        rw [he] at ha
        obtain ⟨e, _⟩ := exec_quiet hq.1 he
        simp only at e
        subst e
        have : s.step g = some ⟨m', upd s.threads g (k r)⟩ := by simp only [System.step, hx, hr, if_true, h1, he]
        rw [this]
        refine ih _ rfl fun q => ?_
        by_cases e : q = g
        · subst e
          simp only [upd_self]
          exact ⟨hq.2 r, ha⟩
        · simp only [upd_ne _ _ e]
          exact h2 q

end Go
end DB
end Rodkina
