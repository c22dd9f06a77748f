import Verif.GoroutinesCalls
/-!
# Goroutines that take turns
-/

namespace Rodkina
namespace DB
namespace Go

open Ref

set_option linter.unusedVariables false

/-! ## Calls neither lock nor unlock the mutex -/

/-- The access concerns the mutex. -/
def Acc.plain : Acc → Bool
  | .lock => false
  | .unlock => false
  | _ => true

/-- No access of the program concerns the mutex. -/
def Prog.Plain {α : Type} : Prog α → Prop
  | .ret _ => True
  | .op o k => o.plain = true ∧ ∀ r, (k r).Plain

theorem Prog.Plain.bind {α β : Type} {x : Prog α} (h : x.Plain) {f : α → Prog β} (hf : ∀ a, (f a).Plain) : (x.bind f).Plain := by
  induction x with
  | ret a => exact hf a
  | op o k ih => exact ⟨h.1, fun r => ih r (h.2 r)⟩

theorem files_plain {α : Type} (x : DB.Prog α) : (files x).Plain := by
  induction x with
  | ret a => trivial
  | op o k ih => exact ⟨rfl, fun r => ih r⟩

theorem stop_plain {α : Type} : (stop : Prog α).Plain := ⟨rfl, fun (e : Empty) => e.elim⟩

theorem Prog.Plain.next {α β : Type} {x : Prog (Out α)} (h : x.Plain) {f : α → Prog (Out β)} (hf : ∀ a, (f a).Plain) :
    (x.next f).Plain := by
  refine h.bind fun o => ?_
  cases o with
  | ok a => exact hf a
  | _ => trivial

theorem reference_plain (id : Nat) : (referenceProg id).Plain := by
  refine And.intro rfl fun p => ?_
  cases p with
  | none => trivial
  | some p =>
    refine And.intro rfl fun c => ?_
    obtain ⟨n, conn, r, off, l⟩ := c
    cases r <;> trivial

theorem ite_plain {α : Type} (b : Bool) {x y : Prog α} (hx : x.Plain) (hy : y.Plain) : (if b then x else y).Plain := by
  cases b
  · exact hy
  · exact hx

theorem body_plain (cfg : Cfg) (p : Nat) (c : Ctx) (r : Reference) : (bodyProg cfg p c r).Plain := by
  refine (files_plain _).next fun off => (files_plain _).next fun _ => And.intro rfl fun (ok : Bool) => ?_
  exact ite_plain ok ((files_plain _).next fun conn => trivial) trivial

theorem commit_plain (cfg : Cfg) (id : Nat) (now : Int) : (commitProg cfg id now).Plain := by
  refine And.intro rfl fun p => ?_
  cases p with
  | none => trivial
  | some p =>
    refine And.intro rfl fun c => ?_
    simp only
    cases updateReference cfg c now with
    | err => trivial
    | panic => exact stop_plain
    | ok r =>
      refine And.intro rfl fun p => ?_
      cases p with
      | none => trivial
      | some p =>
        refine And.intro rfl fun c => And.intro rfl fun i => And.intro rfl fun (got : Bool) => ?_
        refine ite_plain got (((body_plain cfg p c r).bind fun o => files_plain _).bind fun o => ?_) trivial
        cases o with
        | ok x =>
          obtain ⟨conn, off⟩ := x
          refine And.intro rfl fun p => ?_
          cases p with
          | none => exact stop_plain
          | some p => exact And.intro rfl fun _ => trivial
        | err => trivial
        | hang => trivial
        | panic => exact stop_plain
        | crash => exact stop_plain

theorem head_plain {α : Type} {cfg : Cfg} {s : Session α} {H : Head α} (h : head cfg s = some H) : H.prog.Plain := by
  cases s with
  | done v => cases h
  | exists' n k => cases h; exact And.intro rfl fun _ => trivial
  | new n k =>
    cases h
    refine And.intro rfl fun i => ?_
    exact ite_plain _ trivial (And.intro rfl fun _ => trivial)
  | delete n k =>
    cases h
    refine And.intro rfl fun i => ?_
    exact ite_plain _ (And.intro rfl fun _ => trivial) trivial
  | open' n k =>
    cases h
    refine And.intro rfl fun names => ?_
    refine ite_plain _ trivial (And.intro rfl fun i => ?_)
    cases i with
    | none => trivial
    | some i =>
      refine (files_plain _).bind fun r => ?_
      cases r with
      | ok r =>
        refine And.intro rfl fun j => ?_
        cases j with
        | none => trivial
        | some j => exact And.intro rfl fun id => And.intro rfl fun p => And.intro rfl fun _ => And.intro rfl fun _ => trivial
      | err => trivial
      | panic => exact stop_plain
  | keys id k =>
    cases h
    refine (reference_plain id).bind fun r => ?_
    cases r <;> trivial
  | commits id k =>
    cases h
    refine (reference_plain id).bind fun r => ?_
    cases r <;> trivial
  | read id p k =>
    cases h
    refine And.intro rfl fun p => ?_
    cases p with
    | none => trivial
    | some p =>
      refine And.intro rfl fun c => And.intro rfl fun r => ?_
      cases r with
      | ok b => trivial
      | err => trivial
      | panic => exact stop_plain
  | write id hh data kind k =>
    cases h
    refine And.intro rfl fun p => ?_
    cases p with
    | none => trivial
    | some p =>
      simp only
      cases contentNow hh data kind with
      | err => trivial
      | panic => exact stop_plain
      | ok x => exact And.intro rfl fun c => And.intro rfl fun _ => And.intro rfl fun _ => And.intro rfl fun _ => trivial
  | cancel id k =>
    cases h
    refine And.intro rfl fun p => ?_
    cases p with
    | none => trivial
    | some p => exact And.intro rfl fun _ => And.intro rfl fun _ => And.intro rfl fun _ => trivial
  | commit id now k => cases h; exact commit_plain cfg id now
  | close id k =>
    cases h
    refine And.intro rfl fun p => ?_
    cases p with
    | none => trivial
    | some p =>
      refine And.intro rfl fun (ok : Bool) => ?_
      exact ite_plain ok (And.intro rfl fun _ => And.intro rfl fun _ => trivial) trivial

theorem exec_mutex {g : Nat} {o : Acc} (h : o.plain = true) {m : Mem} {y : o.Resp × Mem} (hy : exec g o m = some y) :
    y.2.mutex = m.mutex := by
  cases o with
  | lock => cases h
  | unlock => cases h
  | stop => cases hy
  | finish id p => cases p <;> · cases hy; rfl
  | look id =>
    simp only [exec] at hy
    split at hy <;> cases hy
    rfl
  | range =>
    simp only [exec] at hy
    split at hy <;> cases hy
    rfl
  | len =>
    simp only [exec] at hy
    split at hy <;> cases hy
    rfl
  | begin' =>
    simp only [exec] at hy
    split at hy <;> cases hy
    rfl
  | _ => cases hy; rfl

theorem alone_mutex {α : Type} (g : Nat) {x : Prog α} (h : x.Plain) {m : Mem} {y : α × Mem} (hy : alone g x m = some y) :
    y.2.mutex = m.mutex := by
  induction x generalizing m with
  | ret a => cases hy; rfl
  | op o k ih =>
    simp only [alone] at hy
    cases he : exec g o m with
    | none => rw [he] at hy; cases hy
    | some z =>
      rw [he] at hy
      exact (ih z.1 (h.2 _) hy).trans (exec_mutex h.1 he)

/-- Calls made without the mutex. -/
theorem unguarded {α : Type} (cfg : Cfg) (x : Session α) : (x.go false cfg).Plain := by
  refine session_calls (P := fun x => (x.go false cfg).Plain) cfg (fun v => trivial) (fun x H hH ih => ?_) x
  rw [go_head hH]
  refine (head_plain hH).bind fun r => ?_
  cases r with
  | none => trivial
  | some r => exact ih r

/-- Steps of one goroutine. -/
theorem alone_steps {α : Type} (g : Nat) {x : Prog (Option α)} (hx : x.Plain) :
    ∀ (s : System α), s.threads g = x → ∀ {w : Option α} {m' : Mem}, alone g x s.mem = some (w, m') →
    ∃ n t, s.run (List.replicate n g) = some t ∧ t.threads g = .ret w ∧ t.mem = m' := by
  induction x with
  | ret a =>
    intro s hs w m' h
    cases h
    exact ⟨0, s, rfl, hs, rfl⟩
  | op o k ih =>
    intro s hs w m' h
    simp only [alone] at h
    cases he : exec g o s.mem with
    | none => rw [he] at h; cases h
    | some y =>
      rw [he] at h
      have hr : o.ready s.mem = true := by
        cases o with
        | lock => cases hx.1
        | _ => rfl
      obtain ⟨n, t, h1, h2, h3⟩ := ih y.1 (hx.2 _) ⟨y.2, upd s.threads g (k y.1)⟩ (upd_self _ _ _) h
      refine ⟨n + 1, t, ?_, h2, h3⟩
      rw [List.replicate_succ]
      simp only [System.run, System.step, hs, hr, if_true, he]
      exact h1

/-! ## Until the mutex is free again -/

/-- The access unlocks the mutex. -/
def Acc.unlocks : Acc → Bool
  | .unlock => true
  | _ => false

/-- Go on until the mutex has been unlocked, or to the end. -/
def untilFree {α : Type} (g : Nat) : Prog α → Mem → Option (Prog α × Mem)
  | .ret a, m => some (.ret a, m)
  | .op o k, m =>
    match exec g o m with
    | none => none
    | some (r, m') => if o.unlocks then some (k r, m') else untilFree g (k r) m'

/-- The program does not lock the mutex before it has unlocked it, and does not end before that, unless a call never returns. -/
def Prog.Inside {α : Type} : Prog (Option α) → Prop
  | .ret a => a = none
  | .op o k => o ≠ .lock ∧ (o.unlocks = true ∨ ∀ r, (k r).Inside)

/-- A guarded call after the mutex was locked, and what follows. -/
def inside {α β : Type} (x : Prog (Option β)) (f : β → Prog (Option α)) : Prog (Option α) :=
  (x.andThen (fun r => .op .unlock (fun _ => .ret (some r)))).andThen f

theorem inside_inside {α β : Type} {x : Prog (Option β)} (h : x.Plain) (f : β → Prog (Option α)) : (inside x f).Inside := by
  induction x with
  | ret r =>
    cases r with
    | none => rfl
    | some r => exact ⟨fun h => (by cases h), .inl rfl⟩
  | op o k ih =>
    have hp := h.1
    exact ⟨fun e => (by rw [e] at hp; cases hp), .inr fun r => ih r (h.2 r)⟩

theorem inside_until {α β : Type} (g : Nat) {x : Prog (Option β)} (h : x.Plain) (f : β → Prog (Option α)) (m : Mem) :
    untilFree g (inside x f) m = match alone g x m with
      | none => none
      | some (none, m') => some (.ret none, m')
      | some (some r, m') => some (f r, { m' with mutex := none }) := by
  induction x generalizing m with
  | ret r => cases r <;> rfl
  | op o k ih =>
    have hu : o.unlocks = false := by
      cases o with
      | unlock => cases h.1
      | _ => rfl
    show untilFree g (.op o fun r => inside (k r) f) m = _
    simp only [untilFree, alone, hu]
    cases exec g o m with
    | none => rfl
    | some y => exact ih y.1 (h.2 _) y.2

/-! ## The invariant -/

/-- What the rest of a call does, in terms of the sequential model. -/
def Rest {α : Type} (cfg : Cfg) (h : Nat) (y : Prog (Option α)) (m : Mem) : Out (Session α × FS × App) → Prop
  | .ok (x, fs, a) => ∃ m', untilFree h y m = some (x.go true cfg, m') ∧ m'.mutex = none ∧ Shows m' fs a
  | .hang => ∃ m', untilFree h y m = some (.ret none, m') ∧ m'.mutex = some h
  | .panic => untilFree h y m = none
  | _ => False

/-- Nobody is in a call. -/
def Free {α : Type} (cfg : Cfg) (s : System α) (t : Serial α) : Prop :=
  s.mem.mutex = none ∧ Shows s.mem t.fs t.app ∧ ∀ g, s.threads g = (t.tasks g).go true cfg

/-- Goroutine `h` is in a call. -/
def Held {α : Type} (cfg : Cfg) (h : Nat) (s : System α) (t : Serial α) : Prop :=
  s.mem.mutex = some h ∧ (∀ g, g ≠ h → s.threads g = (t.tasks g).go true cfg) ∧ (s.threads h).Inside ∧
  Rest cfg h (s.threads h) s.mem ((t.tasks h).call cfg t.fs t.app)

/-- What the sequential model needs. -/
def Fine {α : Type} (cfg : Cfg) (N : Name → Prop) (t : Serial α) : Prop :=
  t.app.In N ∧ (∀ g, (t.tasks g).Uses N) ∧ ∀ g, (t.tasks g).NextSmall cfg t.fs

theorem go_ret {α : Type} {cfg : Cfg} {x : Session α} {v : Option α} (h : x.go true cfg = .ret v) : ∃ w, x = .done w ∧ v = some w := by
  cases x with
  | done w => cases h; exact ⟨w, rfl, rfl⟩
  | _ => cases h

theorem go_lock {α : Type} {cfg : Cfg} {x : Session α} {H : Head α} (h : head cfg x = some H) :
    x.go true cfg = .op .lock (fun _ => inside H.prog (fun r => (H.k r).go true cfg)) := by
  rw [go_head h]
  rfl

theorem shows_mutex {m : Mem} {fs : FS} {a : App} (h : Shows m fs a) (mu : Option Nat) : Shows { m with mutex := mu } fs a :=
  ⟨⟨h.ok.pointers, h.ok.keys, h.ok.below, h.ok.idle, h.ok.unlocked⟩, h.fs, h.app⟩

/-- Locking. -/
theorem free_lock {α : Type} {cfg : Cfg} {N : Name → Prop} (hd : ∀ n, N n → cfg.Distinct n) {s : System α} {t : Serial α}
    (h : Free cfg s t) (hf : Fine cfg N t) (g : Nat) {H : Head α} (hH : head cfg (t.tasks g) = some H) :
    ∃ s', s.step g = some s' ∧ s.releases g = false ∧ Held cfg g s' t := by
  obtain ⟨h1, h2, h3⟩ := h
  have hg := (h3 g).trans (go_lock hH)
  refine ⟨⟨{ s.mem with mutex := some g }, upd s.threads g (inside H.prog (fun r => (H.k r).go true cfg))⟩, ?_, ?_, rfl, ?_, ?_, ?_⟩
  · simp only [System.step, hg, Acc.ready, h1, Option.isNone_none, if_true, exec]
  · simp only [System.releases, hg]
  · intro q hq
    simp only [upd_ne _ _ hq]
    exact h3 q
  · simp only [upd_self]
    exact inside_inside (head_plain hH) _
  · simp only [upd_self]
    have hs := shows_mutex h2 (some g)
    have := head_alone g cfg _ hH hs (fun _ _ _ _ e he => hd _ (hf.1 e he)) (hf.2.2 g)
    have hu := inside_until g (head_plain hH) (fun r => (H.k r).go true cfg) { s.mem with mutex := some g }
    generalize (t.tasks g).call cfg t.fs t.app = o at this ⊢
    cases o with
    | ok x =>
      obtain ⟨x, fs, a⟩ := x
      obtain ⟨r, m', q1, q2, q3, q4⟩ := this
      rw [q1] at hu
      subst q2
      exact ⟨_, hu, rfl, shows_mutex q3 none⟩
    | hang =>
      obtain ⟨m', q1⟩ := this
      rw [q1] at hu
      exact ⟨_, hu, alone_mutex g (head_plain hH) q1⟩
    | panic =>
      have q1 : alone g H.prog _ = none := this
      rw [q1] at hu
      exact hu
    | err => exact this
    | crash => exact this

/-- One access of the goroutine that is in a call. -/
theorem held_step {α : Type} {cfg : Cfg} {h : Nat} {s : System α} {t : Serial α} (hi : Held cfg h s t) :
    (s.step h = none ∧ t.step cfg h = .panic) ∨
    (s.threads h = .ret none ∧ t.step cfg h = .hang) ∨
    (∃ s', s.step h = some s' ∧ s.releases h = false ∧ Held cfg h s' t ∧
      ∃ o k r, s.threads h = .op o k ∧ s'.threads h = k r) ∨
    ∃ s' t', s.step h = some s' ∧ s.releases h = true ∧ t.step cfg h = .ok t' ∧ Free cfg s' t' := by
  obtain ⟨h1, h2, h3, h4⟩ := hi
  unfold Serial.step
  cases hx : s.threads h with
  | ret v =>
    rw [hx] at h3 h4
    cases h3
    refine .inr (.inl ⟨rfl, ?_⟩)
    generalize (t.tasks h).call cfg t.fs t.app = o at h4
    cases o with
    | ok y =>
      obtain ⟨y, fs, a⟩ := y
      obtain ⟨m', q1, q2, q3⟩ := h4
      simp only [untilFree] at q1
      injection q1 with q1
      injection q1 with _ q1
      rw [← q1, h1] at q2
      cases q2
    | hang => rfl
    | panic => cases h4
    | err => cases h4
    | crash => cases h4
  | op o k =>
    rw [hx] at h3 h4
    have hr : o.ready s.mem = true := by
      cases o with
      | lock => exact absurd rfl h3.1
      | _ => rfl
    cases he : exec h o s.mem with
    | none =>
      refine .inl ⟨by simp only [System.step, hx, hr, if_true, he], ?_⟩
      generalize (t.tasks h).call cfg t.fs t.app = z at h4
      cases z with
      | ok y =>
        obtain ⟨y, fs, a⟩ := y
        obtain ⟨m', q1, _⟩ := h4
        simp only [untilFree, he] at q1
        cases q1
      | hang =>
        obtain ⟨m', q1, _⟩ := h4
        simp only [untilFree, he] at q1
        cases q1
      | panic => rfl
      | err => cases h4
      | crash => cases h4
    | some y =>
      obtain ⟨r, m1⟩ := y
      have hstep : s.step h = some ⟨m1, upd s.threads h (k r)⟩ := by simp only [System.step, hx, hr, if_true, he]
      cases hu : o.unlocks with
      | false =>
        refine .inr (.inr (.inl ⟨_, hstep, ?_, ⟨?_, ?_, ?_, ?_⟩, o, k, r, rfl, upd_self _ _ _⟩))
        · unfold System.releases
          rw [hx]
          cases o with
          | unlock => cases hu
          | _ => rfl
        · have hp : o.plain = true := by
            cases o with
            | lock => exact absurd rfl h3.1
            | unlock => cases hu
            | _ => rfl
          exact (exec_mutex hp he).trans h1
        · intro q hq
          simp only [upd_ne _ _ hq]
          exact h2 q hq
        · simp only [upd_self]
          rcases h3.2 with h | h
          · rw [hu] at h; cases h
          · exact h r
        · simp only [upd_self]
          have e : untilFree h (.op o k) s.mem = untilFree h (k r) m1 := by
            simp only [untilFree, he, hu]
            rfl
          generalize (t.tasks h).call cfg t.fs t.app = z at h4 ⊢
          cases z with
          | ok y =>
            obtain ⟨y, fs, a⟩ := y
            unfold Rest at h4 ⊢
            rw [e] at h4
            exact h4
          | hang => unfold Rest at h4 ⊢; rw [e] at h4; exact h4
          | panic => unfold Rest at h4 ⊢; rw [e] at h4; exact h4
          | err => exact h4
          | crash => exact h4
      | true =>
        cases o with
        | unlock =>
          cases he
          generalize hz : (t.tasks h).call cfg t.fs t.app = z at h4
          cases z with
          | ok y =>
            obtain ⟨y, fs, a⟩ := y
            obtain ⟨m', q1, q2, q3⟩ := h4
            have q1' : some (k (), { s.mem with mutex := none }) = some (y.go true cfg, m') := q1
            injection q1' with q1'
            injection q1' with e1 e2
            subst e2
            refine .inr (.inr (.inr ⟨_, _, hstep, (by simp only [System.releases, hx]), rfl, rfl, q3, fun q => ?_⟩))
            by_cases e : q = h
            · subst e
              simp only [upd_self]
              exact e1
            · simp only [upd_ne _ _ e]
              exact h2 q e
          | hang =>
            obtain ⟨m', q1, q2⟩ := h4
            have q1' : some (k (), { s.mem with mutex := none }) = some (.ret none, m') := q1
            injection q1' with q1'
            injection q1' with _ q1'
            rw [← q1'] at q2
            cases q2
          | panic => cases h4
          | err => cases h4
          | crash => cases h4
        | _ => cases hu

/-- The others wait. -/
theorem held_wait {α : Type} {cfg : Cfg} {h : Nat} {s : System α} {t : Serial α} (hi : Held cfg h s t) {g : Nat} (hg : g ≠ h) :
    s.step g = some s ∧ s.releases g = false := by
  obtain ⟨h1, h2, _⟩ := hi
  have := h2 g hg
  cases hH : head cfg (t.tasks g) with
  | none =>
    obtain ⟨v, hv⟩ := head_none hH
    rw [hv] at this
    exact ⟨by simp only [System.step, this]; rfl, by simp only [System.releases, this]; rfl⟩
  | some H =>
    rw [go_lock hH] at this
    exact ⟨by simp [System.step, this, Acc.ready, h1], by simp only [System.releases, this]⟩

theorem step_fine {α : Type} {cfg : Cfg} {N : Name → Prop} {t t' : Serial α} {g : Nat} (hf : Fine cfg N t) (h : t.step cfg g = .ok t')
    (hs : ∀ q, (t'.tasks q).NextSmall cfg t'.fs) : Fine cfg N t' := by
  unfold Serial.step at h
  cases hc : (t.tasks g).call cfg t.fs t.app with
  | ok y =>
    obtain ⟨y, fs, a⟩ := y
    rw [hc] at h
    cases h
    obtain ⟨q1, q2⟩ := call_uses (hf.2.1 g) hf.1 hc
    refine ⟨q2, fun q => ?_, hs⟩
    by_cases e : q = g
    · subst e
      simp only [upd_self]
      exact q1
    · simp only [upd_ne _ _ e]
      exact hf.2.1 q
  | err => rw [hc] at h; cases h
  | panic => rw [hc] at h; cases h
  | crash => rw [hc] at h; cases h
  | hang => rw [hc] at h; cases h

/-- Goroutines that take turns, and the calls in the order of the turns. -/
theorem turns_run {α : Type} {cfg : Cfg} {N : Name → Prop} (hd : ∀ n, N n → cfg.Distinct n) (L : List Nat) :
    ∀ (s : System α) (t : Serial α), (Free cfg s t ∨ ∃ h, Held cfg h s t) → Fine cfg N t →
    (∀ order t', t.run cfg order = .ok t' → ∀ q, (t'.tasks q).NextSmall cfg t'.fs) →
    ∃ t', t.run cfg (s.turns L) = .ok t' ∧ Fine cfg N t' ∧
      match s.run L with
      | none => ∃ g, t'.step cfg g = .panic
      | some s' => Free cfg s' t' ∨ ∃ h, Held cfg h s' t' := by
  induction L with
  | nil => intro s t hi hf hs; exact ⟨t, rfl, hf, hi⟩
  | cons g L ih =>
    intro s t hi hf hs
    have stay : ∀ s', s.step g = some s' → s.releases g = false → (Free cfg s' t ∨ ∃ h, Held cfg h s' t) →
        ∃ t', t.run cfg (s.turns (g :: L)) = .ok t' ∧ Fine cfg N t' ∧
          match s.run (g :: L) with
          | none => ∃ g, t'.step cfg g = .panic
          | some s' => Free cfg s' t' ∨ ∃ h, Held cfg h s' t' := by
      intro s' h1 h2 h3
      have := ih s' t h3 hf hs
      simp only [System.turns, System.run, h1, h2]
      exact this
    rcases hi with hi | ⟨h, hi⟩
    · cases hH : head cfg (t.tasks g) with
      | none =>
        obtain ⟨v, hv⟩ := head_none hH
        have := hi.2.2 g
        rw [hv] at this
        exact stay s (by simp only [System.step, this]; rfl) (by simp only [System.releases, this]; rfl) (.inl hi)
      | some H =>
        obtain ⟨s', h1, h2, h3⟩ := free_lock hd hi hf g hH
        exact stay s' h1 h2 (.inr ⟨g, h3⟩)
    · by_cases e : g = h
      · subst e
        rcases held_step hi with ⟨h1, h2⟩ | ⟨h1, h2⟩ | ⟨s', h1, h2, h3, _⟩ | ⟨s', t', h1, h2, h3, h4⟩
        · refine ⟨t, by simp only [System.turns, h1]; rfl, hf, ?_⟩
          simp only [System.run, h1]
          exact ⟨g, h2⟩
        · exact stay s (by simp only [System.step, h1]) (by simp only [System.releases, h1]) (.inr ⟨g, hi⟩)
        · exact stay s' h1 h2 (.inr ⟨g, h3⟩)
        · have hsmall : ∀ order t'', t'.run cfg order = .ok t'' → ∀ q, (t''.tasks q).NextSmall cfg t''.fs := fun order t'' hr =>
            hs (g :: order) t'' (by simp only [Serial.run, h3]; exact hr)
          have := ih s' t' (.inl h4) (step_fine hf h3 (hsmall [] t' rfl)) hsmall
          simp only [System.turns, System.run, h1, h2, if_true, Serial.run, h3]
          exact this
      · obtain ⟨h1, h2⟩ := held_wait hi e
        exact stay s h1 h2 (.inr ⟨h, hi⟩)

/-! ## Progress -/

theorem run_append {α : Type} (s : System α) (L L' : List Nat) :
    s.run (L ++ L') = (s.run L).bind (fun s' => s'.run L') := by
  induction L generalizing s with
  | nil => rfl
  | cons g L ih =>
    simp only [List.cons_append, System.run]
    cases s.step g with
    | none => rfl
    | some s' => exact ih s'

/-- The goroutine in a call comes to the end of it. -/
theorem held_release {α : Type} {cfg : Cfg} {h : Nat} (y : Prog (Option α)) :
    ∀ (s : System α) (t : Serial α), s.threads h = y → Held cfg h s t →
    ∃ n, s.run (List.replicate n h) = none ∨ ∃ s', s.run (List.replicate n h) = some s' ∧
      (s'.threads h = .ret none ∨ ∃ t', t.step cfg h = .ok t' ∧ Free cfg s' t') := by
  induction y with
  | ret v =>
    intro s t hy hi
    refine ⟨0, .inr ⟨s, rfl, .inl ?_⟩⟩
    have := hi.2.2.1
    rw [hy] at this ⊢
    cases this
    rfl
  | op o k ih =>
    intro s t hy hi
    rcases held_step hi with ⟨h1, h2⟩ | ⟨h1, h2⟩ | ⟨s', h1, h2, h3, o', k', r, h4, h5⟩ | ⟨s', t', h1, h2, h3, h4⟩
    · exact ⟨1, .inl (by simp only [List.replicate, System.run, h1])⟩
    · rw [hy] at h1; cases h1
    · rw [hy] at h4
      cases h4
      obtain ⟨n, hn⟩ := ih r s' t h5 h3
      refine ⟨n + 1, ?_⟩
      simp only [List.replicate, System.run, h1]
      exact hn
    · refine ⟨1, .inr ⟨s', ?_, .inr ⟨t', h3, h4⟩⟩⟩
      simp only [List.replicate, System.run, h1]

theorem call_next {α : Type} {cfg : Cfg} {x : Session α} {H : Head α} (h : head cfg x = some H) {fs : FS} {a : App}
    {y : Session α} {fs' : FS} {a' : App} (hc : x.call cfg fs a = .ok (y, fs', a')) : ∃ r, y = H.k r := by
  cases x with
  | done v => cases h
  | exists' n k => cases h; cases hc; exact ⟨_, rfl⟩
  | keys n k => cases h; cases hc; exact ⟨_, rfl⟩
  | commits n k => cases h; cases hc; exact ⟨_, rfl⟩
  | _ =>
    cases h
    simp only [Session.call] at hc
    split at hc <;> cases hc <;> exact ⟨_, rfl⟩

theorem serial_append {α : Type} {cfg : Cfg} {L L' : List Nat} {s t u : Serial α} (h : s.run cfg L = .ok t) (h' : t.run cfg L' = .ok u) :
    s.run cfg (L ++ L') = .ok u := by
  induction L generalizing s with
  | nil => cases h; exact h'
  | cons g L ih =>
    simp only [List.cons_append, Serial.run] at h ⊢
    cases hs : s.step cfg g with
    | ok s' => rw [hs] at h; exact ih h
    | err => rw [hs] at h; cases h
    | panic => rw [hs] at h; cases h
    | crash => rw [hs] at h; cases h
    | hang => rw [hs] at h; cases h

theorem serial_replicate {α : Type} (cfg : Cfg) (g : Nat) (n : Nat) : ∀ (s t : Serial α), s.run cfg (List.replicate n g) = .ok t →
    (s.tasks g).seq cfg s.fs s.app = (t.tasks g).seq cfg t.fs t.app := by
  induction n with
  | zero => intro s t h; cases h; rfl
  | succ n ih =>
    intro s t h
    rw [List.replicate_succ] at h
    simp only [Serial.run, Serial.step] at h
    have h2 := seq_call cfg (s.tasks g) s.fs s.app
    cases hc : (s.tasks g).call cfg s.fs s.app with
    | ok y =>
      obtain ⟨y, fs', a'⟩ := y
      rw [hc] at h h2
      simp only at h h2
      rw [h2, ← ih _ _ h]
      simp only [upd_self]
    | err => rw [hc] at h; cases h
    | panic => rw [hc] at h; cases h
    | crash => rw [hc] at h; cases h
    | hang => rw [hc] at h; cases h

theorem serial_seq {α : Type} (cfg : Cfg) (g : Nat) (x : Session α) (v : α) (fs' : FS) :
    ∀ s : Serial α, s.tasks g = x → x.seq cfg s.fs s.app = (some v, fs') →
    ∃ n t, s.run cfg (List.replicate n g) = .ok t ∧ t.tasks g = .done v ∧ t.fs = fs' := by
  refine session_calls (P := fun x => ∀ s : Serial α, s.tasks g = x → x.seq cfg s.fs s.app = (some v, fs') →
    ∃ n t, s.run cfg (List.replicate n g) = .ok t ∧ t.tasks g = .done v ∧ t.fs = fs') cfg ?_ ?_ x
  · intro w s hs h
    cases h
    exact ⟨0, s, rfl, hs, rfl⟩
  · intro x H hH ih s hs h
    have h2 := seq_call cfg x s.fs s.app
    cases hc : x.call cfg s.fs s.app with
    | ok y =>
      obtain ⟨y, fs1, a1⟩ := y
      obtain ⟨r, rfl⟩ := call_next hH hc
      rw [hc] at h2
      simp only at h2
      obtain ⟨n, t, q1, q2, q3⟩ := ih r ⟨fs1, a1, upd s.tasks g (H.k r)⟩ (upd_self _ _ _) (h2.symm.trans h)
      refine ⟨n + 1, t, ?_, q2, q3⟩
      rw [List.replicate_succ]
      simp only [Serial.run, Serial.step, hs, hc]
      exact q1
    | err => rw [hc] at h2; rw [h] at h2; cases h2
    | panic => rw [hc] at h2; rw [h] at h2; cases h2
    | crash => rw [hc] at h2; rw [h] at h2; cases h2
    | hang => rw [hc] at h2; rw [h] at h2; cases h2

/-- Programs that open nothing. -/
def _root_.Rodkina.DB.Session.NoOpen {α : Type} : Session α → Prop
  | .done _ => True
  | .exists' _ k => ∀ r, (k r).NoOpen
  | .new _ k => ∀ r, (k r).NoOpen
  | .delete _ k => ∀ r, (k r).NoOpen
  | .open' _ _ => False
  | .keys _ k => ∀ r, (k r).NoOpen
  | .commits _ k => ∀ r, (k r).NoOpen
  | .read _ _ k => ∀ r, (k r).NoOpen
  | .write _ _ _ _ k => ∀ r, (k r).NoOpen
  | .cancel _ k => ∀ r, (k r).NoOpen
  | .commit _ _ k => ∀ r, (k r).NoOpen
  | .close _ k => ∀ r, (k r).NoOpen

theorem noOpen_small {α : Type} (cfg : Cfg) (order : List Nat) : ∀ (s t : Serial α), (∀ g, (s.tasks g).NoOpen) → s.run cfg order = .ok t →
    ∀ g, (t.tasks g).NextSmall cfg t.fs := by
  induction order with
  | nil =>
    intro s t h hr g
    cases hr
    have := h g
    cases hx : s.tasks g with
    | open' n k => rw [hx] at this; cases this
    | _ => trivial
  | cons q order ih =>
    intro s t h hr
    simp only [Serial.run, Serial.step] at hr
    cases hc : (s.tasks q).call cfg s.fs s.app with
    | ok y =>
      obtain ⟨y, fs', a'⟩ := y
      rw [hc] at hr
      refine ih _ t (fun g => ?_) hr
      by_cases e : g = q
      · subst e
        simp only [upd_self]
        have h := h g
        cases hH : head cfg (s.tasks g) with
        | none =>
          obtain ⟨v, hv⟩ := head_none hH
          rw [hv] at hc
          cases hc
          trivial
        | some H =>
          obtain ⟨r, rfl⟩ := call_next hH hc
          cases hx : s.tasks g with
          | open' n k => rw [hx] at h; cases h
          | done v => rw [hx] at hH; cases hH
          | _ => rw [hx] at h hH; cases hH; exact h r
      · simp only [upd_ne _ _ e]
        exact h g
    | err => rw [hc] at hr; cases hr
    | panic => rw [hc] at hr; cases hr
    | crash => rw [hc] at hr; cases hr
    | hang => rw [hc] at hr; cases hr

/-- From any moment on, every goroutine can come to its end, unless a call panics or never returns. -/
theorem turns_progress {α : Type} {cfg : Cfg} {N : Name → Prop} (hd : ∀ n, N n → cfg.Distinct n) (g : Nat) (x : Session α) :
    ∀ (s : System α) (t : Serial α), t.tasks g = x → Free cfg s t → Fine cfg N t →
    (∀ order t', t.run cfg order = .ok t' → ∀ q, (t'.tasks q).NextSmall cfg t'.fs) →
    ∃ L, s.run L = none ∨ ∃ s', s.run L = some s' ∧ ((∃ v, s'.threads g = .ret (some v)) ∨ ∃ h, s'.threads h = .ret none) := by
  refine session_calls (P := fun x => ∀ (s : System α) (t : Serial α), t.tasks g = x → Free cfg s t → Fine cfg N t →
    (∀ order t', t.run cfg order = .ok t' → ∀ q, (t'.tasks q).NextSmall cfg t'.fs) →
    ∃ L, s.run L = none ∨ ∃ s', s.run L = some s' ∧ ((∃ v, s'.threads g = .ret (some v)) ∨ ∃ h, s'.threads h = .ret none)) cfg ?_ ?_ x
  · intro v s t hx hi hf hs
    refine ⟨[], .inr ⟨s, rfl, .inl ⟨v, ?_⟩⟩⟩
    rw [hi.2.2 g, hx]
    rfl
  · intro x H hH ih s t hx hi hf hs
    obtain ⟨s1, h1, h2, h3⟩ := free_lock hd hi hf g (hx ▸ hH)
    obtain ⟨n, hn⟩ := held_release _ s1 t rfl h3
    have e : s.run (g :: List.replicate n g) = s1.run (List.replicate n g) := by simp only [System.run, h1]
    rcases hn with hn | ⟨s2, hn, hr | ⟨t', ht, hfree⟩⟩
    · exact ⟨_, .inl (e.trans hn)⟩
    · exact ⟨_, .inr ⟨s2, e.trans hn, .inr ⟨g, hr⟩⟩⟩
    · have hsmall : ∀ order t'', t'.run cfg order = .ok t'' → ∀ q, (t''.tasks q).NextSmall cfg t''.fs := fun order t'' hr =>
        hs (g :: order) t'' (by simp only [Serial.run, ht]; exact hr)
      have hfine := step_fine hf ht (hsmall [] t' rfl)
      have hk : ∃ r, t'.tasks g = H.k r := by
        unfold Serial.step at ht
        cases hc : (t.tasks g).call cfg t.fs t.app with
        | ok y =>
          obtain ⟨y, fs, a⟩ := y
          rw [hc] at ht
          cases ht
          obtain ⟨r, hr⟩ := call_next hH (hx ▸ hc)
          exact ⟨r, by simp only [upd_self]; exact hr⟩
        | err => rw [hc] at ht; cases ht
        | panic => rw [hc] at ht; cases ht
        | crash => rw [hc] at ht; cases ht
        | hang => rw [hc] at ht; cases ht
      obtain ⟨r, hr⟩ := hk
      obtain ⟨L, hL⟩ := ih r s2 t' hr hfree hfine hsmall
      refine ⟨(g :: List.replicate n g) ++ L, ?_⟩
      rw [run_append, e, hn]
      exact hL

end Go
end DB
end Rodkina
