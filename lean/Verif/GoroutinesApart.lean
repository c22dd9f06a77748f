import Verif.GoroutinesTurns
import Verif.SessionsSample
/-!
# Goroutines that commit their own databases: the accesses to the map taken out
-/

namespace Rodkina
namespace DB
namespace Go

open Ref

set_option linter.unusedVariables false

/-- The context an identifier points to. -/
abbrev at? (T : List (Nat × Nat)) (id : Nat) : Option Nat := (T.find? (fun e => e.1 == id)).map (·.2)

/-- The file operations of a program when nobody else changes the contexts it uses. -/
def erase {α β : Type} (T : List (Nat × Nat)) : Prog α → (Nat → Ctx) → (α → (Nat → Ctx) → DB.Prog (Option β)) → DB.Prog (Option β)
  | .ret a, h, K => K a h
  | .op (.look id) k, h, K => erase T (k (at? T id)) h K
  | .op (.fields p) k, h, K => erase T (k (h p)) h K
  | .op (.setRef p r off conn) k, h, K =>
    erase T (k ()) (upd h p { h p with conn := conn, reference := some r, dataOffset := off }) K
  | .op (.close p) k, h, K =>
    erase T (k (h p).conn.isOpen) (upd h p { h p with conn := { (h p).conn with isOpen := false } }) K
  | .op (.file o) k, h, K => .op o (fun r => erase T (k r) h K)
  | .op _ _, _, _ => .ret none

/-- The same for a whole goroutine. -/
abbrev erased {α : Type} (T : List (Nat × Nat)) (x : Prog (Option α)) (h : Nat → Ctx) : DB.Prog (Option α) :=
  erase T x h (fun a _ => .ret a)

/-- The pointers of these identifiers. -/
def Mine (T : List (Nat × Nat)) (I : Nat → Prop) (p : Nat) : Prop := ∃ id, I id ∧ at? T id = some p

/-- The program accesses only contexts of these identifiers and does not change the map. -/
def Own {α : Type} (T : List (Nat × Nat)) (I : Nat → Prop) : Prog α → Prop
  | .ret _ => True
  | .op (.look id) k => I id ∧ Own T I (k (at? T id))
  | .op (.fields p) k => Mine T I p ∧ ∀ c, Own T I (k c)
  | .op (.setRef p _ _ _) k => Mine T I p ∧ Own T I (k ())
  | .op (.close p) k => Mine T I p ∧ ∀ b, Own T I (k b)
  | .op (.file _) k => ∀ r, Own T I (k r)
  | .op .stop _ => True
  | .op _ _ => False

theorem Own.bind {α β : Type} {T : List (Nat × Nat)} {I : Nat → Prop} {x : Prog α} (h : Own T I x) {f : α → Prog β}
    (hf : ∀ a, Own T I (f a)) : Own T I (x.bind f) := by
  induction x with
  | ret a => exact hf a
  | op o k ih =>
    cases o with
    | look id => exact ⟨h.1, ih _ h.2⟩
    | fields p => exact ⟨h.1, fun c => ih _ (h.2 c)⟩
    | setRef p r off conn => exact ⟨h.1, ih _ h.2⟩
    | close p => exact ⟨h.1, fun c => ih _ (h.2 c)⟩
    | file o => exact fun r => ih r (h r)
    | stop => trivial
    | _ => exact h.elim

theorem own_files {α : Type} {T : List (Nat × Nat)} {I : Nat → Prop} (x : DB.Prog α) : Own T I (files x) := by
  induction x with
  | ret a => trivial
  | op o k ih => exact fun r => ih r

theorem erase_bind {α β γ : Type} (T : List (Nat × Nat)) (x : Prog α) (f : α → Prog β) (h : Nat → Ctx)
    (K : β → (Nat → Ctx) → DB.Prog (Option γ)) :
    erase T (x.bind f) h K = erase T x h (fun a h' => erase T (f a) h' K) := by
  induction x generalizing h with
  | ret a => rfl
  | op o k ih =>
    cases o with
    | look id => exact ih _ _
    | fields p => exact ih _ _
    | setRef p r off conn => exact ih _ _
    | close p => exact ih _ _
    | file o =>
      simp only [Prog.bind, erase]
      congr 1
      funext r
      exact ih _ _
    | _ => rfl

theorem erase_files {α γ : Type} (T : List (Nat × Nat)) (x : DB.Prog α) (h : Nat → Ctx)
    (K : α → (Nat → Ctx) → DB.Prog (Option γ)) :
    erase T (files x) h K = x.bind (fun a => K a h) := by
  induction x with
  | ret a => rfl
  | op o k ih =>
    simp only [files, erase, DB.Prog.bind]
    congr 1
    funext r
    exact ih _

/-- Contexts of others do not matter. -/
theorem erased_congr {α : Type} {T : List (Nat × Nat)} {I : Nat → Prop} {x : Prog (Option α)} (hx : Own T I x) :
    ∀ {h h' : Nat → Ctx}, (∀ p, Mine T I p → h p = h' p) → erased T x h = erased T x h' := by
  have hupd : ∀ {h h' : Nat → Ctx} (p : Nat) (c c' : Ctx), c = c' → (∀ p, Mine T I p → h p = h' p) →
      ∀ q, Mine T I q → upd h p c q = upd h' p c' q := by
    intro h h' p c c' e hh q hq
    by_cases hqp : q = p
    · subst hqp; rw [upd_self, upd_self, e]
    · rw [upd_ne _ _ hqp, upd_ne _ _ hqp]; exact hh q hq
  unfold erased
  induction x with
  | ret a => intro h h' _; rfl
  | op o k ih =>
    intro h h' hh
    cases o with
    | look id => exact ih _ hx.2 hh
    | fields p =>
      simp only [erase]
      rw [hh p hx.1]
      exact ih _ (hx.2 _) hh
    | setRef p r off conn =>
      simp only [erase]
      exact ih _ hx.2 (hupd p _ _ (by rw [hh p hx.1]) hh)
    | close p =>
      simp only [erase]
      rw [hh p hx.1]
      exact ih _ (hx.2 _) (hupd p _ _ rfl hh)
    | file o =>
      simp only [erase]
      congr 1
      funext r
      exact ih r (hx r) hh
    | _ => rfl

/-- A program run alone does what its file operations do. -/
theorem erased_alone {α : Type} {T : List (Nat × Nat)} {I : Nat → Prop} (g : Nat) {x : Prog (Option α)} (hx : Own T I x) :
    ∀ {m : Mem}, m.table = T → m.writer = none →
    match alone g x m with
    | some (a, m') => DB.alone g (erased T x m.heap) m.shared = (a, m'.shared)
    | none => (DB.alone g (erased T x m.heap) m.shared).1 = none := by
  unfold erased
  induction x with
  | ret a => intro m _ _; rfl
  | op o k ih =>
    intro m hT hw
    cases o with
    | look id =>
      have e : exec g (.look id) m = some (at? T id, m) := by simp [exec, hw, hT]
      simp only [alone, e, erase]
      exact ih _ hx.2 hT hw
    | fields p =>
      simp only [alone, exec, erase]
      exact ih _ (hx.2 _) hT hw
    | setRef p r off conn =>
      simp only [alone, exec, erase]
      exact ih _ hx.2 (m := { m with heap := _ }) hT hw
    | close p =>
      simp only [alone, exec, erase]
      exact ih _ (hx.2 _) (m := { m with heap := _ }) hT hw
    | file o =>
      simp only [alone, exec, erase, DB.alone]
      exact ih _ (hx _) (m := { m with shared := _ }) hT hw
    | stop => rfl
    | _ => exact hx.elim

/-! ## All goroutines -/

/-- The goroutines as processes. -/
def System.files {α : Type} (T : List (Nat × Nat)) (s : System α) : Procs α :=
  ⟨s.mem.shared, fun g => erased T (s.threads g) s.mem.heap⟩

/-- Every goroutine keeps to its own contexts. -/
structure Kept {α : Type} (T : List (Nat × Nat)) (I : Nat → Nat → Prop) (s : System α) : Prop where
  table : s.mem.table = T
  idle : s.mem.writer = none
  own : ∀ g, Own T (I g) (s.threads g)

theorem kept_step {α : Type} {T : List (Nat × Nat)} {I : Nat → Nat → Prop}
    (hI : ∀ g g' p, Mine T (I g) p → Mine T (I g') p → g = g') {s : System α} (hs : Kept T I s) (g : Nat) :
    match s.step g with
    | none => (s.files T).threads g = .ret none
    | some s' => Kept T I s' ∧ (s'.files T = s.files T ∨ s'.files T = (s.files T).step g) := by
  have hg := hs.own g
  have silent : ∀ (m : Mem) (x : Prog (Option α)), m.table = T → m.writer = none → m.shared = s.mem.shared → Own T (I g) x →
      erased T x m.heap = erased T (s.threads g) s.mem.heap →
      (∀ p, ¬ Mine T (I g) p → m.heap p = s.mem.heap p) →
      Kept T I ⟨m, upd s.threads g x⟩ ∧ (System.files T ⟨m, upd s.threads g x⟩ = s.files T ∨
        System.files T ⟨m, upd s.threads g x⟩ = (s.files T).step g) := by
    intro m x h1 h2 h3 h4 h5 h6
    refine ⟨⟨h1, h2, fun q => ?_⟩, .inl ?_⟩
    · by_cases e : q = g
      · subst e; simp only [upd_self]; exact h4
      · simp only [upd_ne _ _ e]; exact hs.own q
    · unfold System.files
      simp only [h3]
      congr 1
      funext q
      by_cases e : q = g
      · subst e; simp only [upd_self]; exact h5
      · simp only [upd_ne _ _ e]
        exact erased_congr (hs.own q) fun p hp => h6 p fun hp' => e (hI _ _ p hp hp')
  unfold System.step
  cases hx : s.threads g with
  | ret a => exact ⟨hs, .inl rfl⟩
  | op o k =>
    rw [hx] at hg
    cases o with
    | look id =>
      have e : exec g (.look id) s.mem = some (at? T id, s.mem) := by simp [exec, hs.idle, hs.table]
      simp only [Acc.ready, e, if_true]
      exact silent s.mem _ hs.table hs.idle rfl hg.2 (by rw [hx]; rfl) fun _ _ => rfl
    | fields p =>
      simp only [Acc.ready, exec, if_true]
      exact silent s.mem _ hs.table hs.idle rfl (hg.2 _) (by rw [hx]; rfl) fun _ _ => rfl
    | setRef p r off conn =>
      simp only [Acc.ready, exec, if_true]
      exact silent { s.mem with heap := _ } _ hs.table hs.idle rfl hg.2 (by rw [hx]; rfl) fun q hq =>
        upd_ne _ _ fun e => hq (e ▸ hg.1)
    | close p =>
      simp only [Acc.ready, exec, if_true]
      exact silent { s.mem with heap := _ } _ hs.table hs.idle rfl (hg.2 _) (by rw [hx]; rfl) fun q hq =>
        upd_ne _ _ fun e => hq (e ▸ hg.1)
    | file o =>
      simp only [Acc.ready, exec, if_true]
      refine ⟨⟨hs.table, hs.idle, fun q => ?_⟩, .inr ?_⟩
      · by_cases e : q = g
        · subst e; simp only [upd_self]; exact hg _
        · simp only [upd_ne _ _ e]; exact hs.own q
      · have e1 : (s.files T).threads g = .op o (fun r => erased T (k r) s.mem.heap) := by
          simp only [System.files, hx]; rfl
        unfold Procs.step
        rw [e1]
        simp only [System.files]
        congr 1
        funext q
        by_cases e : q = g
        · subst e; simp only [upd_self]
        · simp only [upd_ne _ _ e]
    | stop =>
      simp only [Acc.ready, exec, if_true, System.files, hx]
      rfl
    | _ => exact hg.elim

theorem kept_run {α : Type} {T : List (Nat × Nat)} {I : Nat → Nat → Prop}
    (hI : ∀ g g' p, Mine T (I g) p → Mine T (I g') p → g = g') (L : List Nat) : ∀ {s : System α}, Kept T I s →
    match s.run L with
    | none => ∃ L' g, ((s.files T).run L').threads g = .ret none
    | some s' => Kept T I s' ∧ ∃ L', s'.files T = (s.files T).run L' := by
  induction L with
  | nil => intro s hs; exact ⟨hs, [], rfl⟩
  | cons g L ih =>
    intro s hs
    have h1 := kept_step hI hs g
    simp only [System.run]
    cases hstep : s.step g with
    | none => rw [hstep] at h1; exact ⟨[], g, h1⟩
    | some s' =>
      rw [hstep] at h1
      obtain ⟨h2, h3⟩ := h1
      have h4 := ih h2
      rcases h3 with h3 | h3
      · rw [h3] at h4; exact h4
      · rw [h3] at h4
        simp only
        cases hr : s'.run L with
        | none =>
          rw [hr] at h4
          obtain ⟨L', g', h⟩ := h4
          exact ⟨g :: L', g', h⟩
        | some s'' =>
          rw [hr] at h4
          obtain ⟨h5, L', h6⟩ := h4
          exact ⟨h5, g :: L', h6⟩

/-! ## Programs -/

theorem stays_own {α : Type} {T : List (Nat × Nat)} {I : Nat → Prop} {N : Name → Prop} (cfg : Cfg) (x : Session α) (hx : x.Stays I N) :
    Own T I (x.go false cfg) := by
  have stop_own : ∀ {β : Type}, Own T I (stop : Prog β) := fun {β} => trivial
  have andThen : ∀ {β : Type} (y : Prog (Option β)) (f : β → Prog (Option α)), Own T I y → (∀ r, Own T I (f r)) →
      Own T I (y.andThen f) := by
    intro β y f hy hf
    refine hy.bind fun r => ?_
    cases r with
    | none => trivial
    | some r => exact hf r
  have href : ∀ id, I id → Own T I (referenceProg id) := by
    intro id hid
    refine ⟨hid, ?_⟩
    cases h : at? T id with
    | none => trivial
    | some p =>
      refine ⟨⟨id, hid, h⟩, fun c => ?_⟩
      simp only
      cases Ctx.reference c <;> trivial
  induction x with
  | done a => trivial
  | exists' n k ih => exact andThen _ _ (fun r => trivial) fun r => ih r (hx.2 r)
  | new n k ih =>
    refine andThen _ _ (fun (r : Option Nat) => ?_) fun r => ih r (hx.2 r)
    cases r with
    | none => exact fun r => trivial
    | some i => trivial
  | delete n k ih =>
    refine andThen _ _ (fun (r : Option Nat) => ?_) fun r => ih r (hx.2 r)
    cases r with
    | none => trivial
    | some i => exact fun r => trivial
  | open' n k ih => exact hx.elim
  | write id h data kind k ih => exact hx.elim
  | cancel id k ih => exact hx.elim
  | close id k ih => exact hx.elim
  | keys id k ih =>
    refine andThen _ _ ((href id hx.1).bind fun r => ?_) fun r => ih r (hx.2 r)
    cases r <;> trivial
  | commits id k ih =>
    refine andThen _ _ ((href id hx.1).bind fun r => ?_) fun r => ih r (hx.2 r)
    cases r <;> trivial
  | read id q k ih =>
    refine andThen _ _ ⟨hx.1, ?_⟩ fun r => ih r (hx.2 r)
    cases h : at? T id with
    | none => trivial
    | some p =>
      refine ⟨⟨id, hx.1, h⟩, fun c => fun (r : Res Bytes) => ?_⟩
      cases r <;> trivial
  | commit id now k ih =>
    refine andThen _ _ ⟨hx.1, ?_⟩ fun r => ih r (hx.2 r)
    cases h : at? T id with
    | none => trivial
    | some p =>
      refine ⟨⟨id, hx.1, h⟩, fun c => ?_⟩
      simp only
      cases updateReference cfg c now with
      | err => trivial
      | panic => exact stop_own
      | ok r =>
        refine ⟨hx.1, ?_⟩
        rw [h]
        refine ⟨⟨id, hx.1, h⟩, fun c => fun (i : Nat) => fun (got : Bool) => ?_⟩
        cases got with
        | false => trivial
        | true =>
          refine Own.bind (Own.bind ?_ fun o => own_files _) fun o => ?_
          · refine (own_files _).bind fun o => ?_
            cases o with
            | ok off =>
              refine (own_files _).bind fun o => ?_
              cases o with
              | ok u =>
                refine ⟨⟨id, hx.1, h⟩, fun b => ?_⟩
                cases b with
                | false => trivial
                | true =>
                  refine (own_files _).bind fun o => ?_
                  cases o <;> trivial
              | _ => trivial
            | _ => trivial
          · cases o with
            | ok y =>
              obtain ⟨conn, off⟩ := y
              refine ⟨hx.1, ?_⟩
              rw [h]
              exact ⟨⟨id, hx.1, h⟩, trivial⟩
            | err => trivial
            | hang => trivial
            | panic => exact stop_own
            | crash => exact stop_own

end Go
end DB
end Rodkina
