import Verif.GoroutinesApart
/-!
# Goroutines that commit their own databases: the same as alone
-/

namespace Rodkina
namespace DB
namespace Go

open Ref

set_option linter.unusedVariables false

/-- The contexts of these identifiers are the same up to inodes and have names in `N`. -/
def HeapRel (T : List (Nat × Nat)) (I : Nat → Prop) (N : Name → Prop) (F : Ren) (h h' : Nat → Ctx) : Prop :=
  ∀ p, Mine T I p → N (h p).name ∧ CtxRel F (h p) (h' p)

theorem HeapRel.mono {T : List (Nat × Nat)} {I : Nat → Prop} {N : Name → Prop} {F F' : Ren} (hF : ∀ i j, F i j → F' i j)
    {h h' : Nat → Ctx} (hh : HeapRel T I N F h h') : HeapRel T I N F' h h' :=
  fun p hp => ⟨(hh p hp).1, (hh p hp).2.mono hF⟩

theorem HeapRel.upd {T : List (Nat × Nat)} {I : Nat → Prop} {N : Name → Prop} {F : Ren} {h h' : Nat → Ctx}
    (hh : HeapRel T I N F h h') (p : Nat) {c c' : Ctx} (hn : N c.name) (hc : CtxRel F c c') :
    HeapRel T I N F (upd h p c) (upd h' p c') := by
  intro q hq
  by_cases e : q = p
  · subst e; rw [upd_self, upd_self]; exact ⟨hn, hc⟩
  · rw [upd_ne _ _ e, upd_ne _ _ e]; exact hh q hq

/-- What follows a call. -/
def after {α β : Type} (T : List (Nat × Nat)) (f : β → Prog (Option α)) : Option β → (Nat → Ctx) → DB.Prog (Option α)
  | none, _ => .ret none
  | some r, h => erased T (f r) h

theorem erased_andThen {α β : Type} (T : List (Nat × Nat)) (y : Prog (Option β)) (f : β → Prog (Option α)) (h : Nat → Ctx) :
    erased T (y.andThen f) h = erase T y h (after T f) := by
  unfold erased Prog.andThen
  rw [erase_bind]
  congr 1
  funext r h'
  cases r <;> rfl

theorem erase_next {α β γ : Type} (T : List (Nat × Nat)) (x : DB.Prog (Out α)) (f : α → Prog (Out β)) (h : Nat → Ctx)
    (K : Out β → (Nat → Ctx) → DB.Prog (Option γ)) :
    erase T ((files x).next f) h K = x.bind (fun o =>
      match o with
      | .ok a => erase T (f a) h K
      | .err => K .err h
      | .panic => K .panic h
      | .crash => K .crash h
      | .hang => K .hang h) := by
  unfold Prog.next
  rw [erase_bind, erase_files]
  congr 1
  funext o
  cases o <;> rfl

theorem twin_outs {α β γ δ : Type} {P : Name → Prop} {R : Ren → α → β → Prop} {S : Ren → γ → δ → Prop} {F : Ren}
    {x : DB.Prog (Out α)} {y : DB.Prog (Out β)} (hx : Twin P (OutRel R) F x y) {f : Out α → DB.Prog γ} {f' : Out β → DB.Prog δ}
    (hf : ∀ F' : Ren, (∀ i j, F i j → F' i j) → ∀ o o', OutRel R F' o o' → Twin P S F' (f o) (f' o')) :
    Twin P S F (x.bind f) (y.bind f') := hx.bind hf

theorem twin_go {α : Type} {T : List (Nat × Nat)} {I : Nat → Prop} {N : Name → Prop} (cfg : Cfg) (x : Session α) :
    ∀ {F : Ren} {h h' : Nat → Ctx}, x.Stays I N → HeapRel T I N F h h' →
    Twin (cfg.Owns N) Same F (erased T (x.go false cfg) h) (erased T (x.go false cfg) h') := by
  have own : ∀ n, N n → cfg.Owns N (cfg.path n) ∧ cfg.Owns N (cfg.dst n) ∧ cfg.Owns N (cfg.bck n) := fun n h =>
    ⟨⟨n, h, .inl rfl⟩, ⟨n, h, .inr (.inl rfl)⟩, ⟨n, h, .inr (.inr rfl)⟩⟩
  induction x with
  | done a => intro F h h' hu hh; exact .ret rfl
  | exists' n k ih =>
    intro F h h' hu hh
    simp only [Session.go]
    rw [erased_andThen, erased_andThen]
    exact .openNone (own n hu.1).1 (ih _ (hu.2 _) hh) fun i j hij => ih _ (hu.2 _) hh
  | new n k ih =>
    intro F h h' hu hh
    simp only [Session.go]
    rw [erased_andThen, erased_andThen]
    refine .openNone (own n hu.1).1 ?_ fun i j hij => ih _ (hu.2 _) hh
    exact .create (own n hu.1).1 fun F' hF _ _ _ => ih _ (hu.2 _) (hh.mono hF)
  | delete n k ih =>
    intro F h h' hu hh
    simp only [Session.go]
    rw [erased_andThen, erased_andThen]
    refine .openNone (own n hu.1).1 (ih _ (hu.2 _) hh) fun i j hij => ?_
    exact .remove (own n hu.1).1 fun ok => ih _ (hu.2 _) hh
  | open' n k ih => intro F h h' hu hh; exact hu.elim
  | write id hh data kind k ih => intro F h h' hu hh; exact hu.elim
  | cancel id k ih => intro F h h' hu hh; exact hu.elim
  | close id k ih => intro F h h' hu hh; exact hu.elim
  | keys id k ih =>
    intro F h h' hu hh
    simp only [Session.go]
    rw [erased_andThen, erased_andThen]
    simp only [call, Bool.false_eq_true, if_false, keysProg, referenceProg, erase_bind, erase]
    cases hp : at? T id with
    | none => exact ih _ (hu.2 _) hh
    | some p =>
      obtain ⟨_, j, _, e⟩ := hh p ⟨id, hu.1, hp⟩
      simp only [erase, e, Ctx.on]
      cases (h p).reference with
      | none => exact ih _ (hu.2 _) hh
      | some r => exact ih _ (hu.2 _) hh
  | commits id k ih =>
    intro F h h' hu hh
    simp only [Session.go]
    rw [erased_andThen, erased_andThen]
    simp only [call, Bool.false_eq_true, if_false, commitsProg, referenceProg, erase_bind, erase]
    cases hp : at? T id with
    | none => exact ih _ (hu.2 _) hh
    | some p =>
      obtain ⟨_, j, _, e⟩ := hh p ⟨id, hu.1, hp⟩
      simp only [erase, e, Ctx.on]
      cases (h p).reference with
      | none => exact ih _ (hu.2 _) hh
      | some r => exact ih _ (hu.2 _) hh
  | read id q k ih =>
    intro F h h' hu hh
    simp only [Session.go]
    rw [erased_andThen, erased_andThen]
    simp only [call, Bool.false_eq_true, if_false, readProg, erase]
    cases hp : at? T id with
    | none => exact ih _ (hu.2 _) hh
    | some p =>
      obtain ⟨_, j, hj, e⟩ := hh p ⟨id, hu.1, hp⟩
      simp only [erase]
      generalize h' p = d at e ⊢
      subst e
      generalize h p = c at hj ⊢
      obtain ⟨n, ⟨i, pos, o⟩, r, off, l⟩ := c
      refine .read hj fun r => ?_
      cases r with
      | ok b => exact ih _ (hu.2 _) hh
      | err => exact ih _ (hu.2 _) hh
      | panic => exact .ret rfl
  | commit id now k ih =>
    intro F h h' hu hh
    simp only [Session.go]
    rw [erased_andThen, erased_andThen]
    simp only [call, Bool.false_eq_true, if_false, commitProg, erase]
    cases hp : at? T id with
    | none => exact ih _ (hu.2 _) hh
    | some p =>
      obtain ⟨hn, j, hj, e⟩ := hh p ⟨id, hu.1, hp⟩
      simp only [erase]
      rw [e, show updateReference cfg ((h p).on j) now = updateReference cfg (h p) now from rfl]
      cases updateReference cfg (h p) now with
      | err => exact ih _ (hu.2 _) hh
      | panic => exact .ret rfl
      | ok r =>
        simp only [erase, hp]
        have e' := e
        generalize h' p = d at e' ⊢
        subst e'
        obtain ⟨o1, o2, o3⟩ := own _ hn
        refine .lockOpen o1 fun F1 hF1 i i' hi => .flock hi fun got => ?_
        cases got with
        | false => exact ih _ (hu.2 _) (hh.mono hF1)
        | true =>
          simp only [if_true, erase_bind, bodyProg]
          have tail : ∀ (F2 : Ren), (∀ a b, F1 a b → F2 a b) → ∀ (g g' : Nat → Ctx), HeapRel T I N F2 g g' → ∀ o o', OutRel BodyRel F2 o o' →
              Twin (cfg.Owns N) Same F2
                (erase T (files (unlockProg i o)) g fun o h => erase T (commitRest id r o) h (after T fun r => (k r).go false cfg))
                (erase T (files (unlockProg i' o')) g' fun o h => erase T (commitRest id r o) h (after T fun r => (k r).go false cfg)) := by
            intro F2 hF2 g g' hg o o' ho
            rw [erase_files, erase_files]
            refine twin_outs (twin_unlock (hF2 _ _ hi) ho) fun F3 hF3 o o' ho => ?_
            cases ho with
            | err => exact ih _ (hu.2 _) (hg.mono hF3)
            | hang => exact .ret rfl
            | panic => exact .ret rfl
            | crash => exact .ret rfl
            | ok hb =>
              rename_i a b
              obtain ⟨⟨ai, ap, ao⟩, an⟩ := a
              obtain ⟨⟨bi, bp, bo⟩, bn⟩ := b
              obtain ⟨⟨b1, b2, b3⟩, b4⟩ := hb
              simp only at b1 b2 b3 b4
              subst b2 b3 b4
              simp only [commitRest, erase, hp]
              obtain ⟨gn, j', gj, ge⟩ := hg p ⟨id, hu.1, hp⟩
              exact ih _ (hu.2 _) ((hg.mono hF3).upd p gn ⟨bi, b1, by rw [ge]; rfl⟩)
          rw [erase_next, erase_next]
          refine twin_outs (twin_destination cfg (h p) r (hF1 _ _ hj) o2) fun F2 hF2 o o' ho => ?_
          have hh2 := (hh.mono hF1).mono hF2
          cases ho with
          | err => exact tail F2 hF2 _ _ hh2 _ _ .err
          | panic => exact tail F2 hF2 _ _ hh2 _ _ .panic
          | crash => exact tail F2 hF2 _ _ hh2 _ _ .crash
          | hang => exact tail F2 hF2 _ _ hh2 _ _ .hang
          | ok hoff =>
            rename_i off off'
            cases hoff
            simp only
            rw [erase_next, erase_next]
            refine twin_outs (twin_backup cfg (h p) (hF2 _ _ (hF1 _ _ hj)) o3) fun F3 hF3 o o' ho => ?_
            have hh3 := hh2.mono hF3
            have hF13 := fun a b hab => hF3 a b (hF2 a b hab)
            cases ho with
            | err => exact tail F3 hF13 _ _ hh3 _ _ .err
            | panic => exact tail F3 hF13 _ _ hh3 _ _ .panic
            | crash => exact tail F3 hF13 _ _ hh3 _ _ .crash
            | hang => exact tail F3 hF13 _ _ hh3 _ _ .hang
            | ok hu' =>
              simp only [erase, e]
              rw [show ((h p).on j).conn.isOpen = (h p).conn.isOpen from rfl]
              have hh4 : HeapRel T I N F3 (upd h p { h p with conn := { (h p).conn with isOpen := false } })
                  (upd h' p { (h p).on j with conn := { ((h p).on j).conn with isOpen := false } }) :=
                hh3.upd p hn ⟨j, hF3 _ _ (hF2 _ _ (hF1 _ _ hj)), rfl⟩
              cases (h p).conn.isOpen with
              | false => exact tail F3 hF13 _ _ hh4 _ _ .err
              | true =>
                simp only [if_true]
                rw [erase_next, erase_next]
                refine twin_outs (twin_swap cfg (h p) o1 o2 o3) fun F4 hF4 o o' ho => ?_
                have hh5 := hh4.mono hF4
                have hF14 := fun a b hab => hF4 a b (hF13 a b hab)
                cases ho with
                | err => exact tail F4 hF14 _ _ hh5 _ _ .err
                | panic => exact tail F4 hF14 _ _ hh5 _ _ .panic
                | crash => exact tail F4 hF14 _ _ hh5 _ _ .crash
                | hang => exact tail F4 hF14 _ _ hh5 _ _ .hang
                | ok hc =>
                  rename_i a b
                  exact tail F4 hF14 _ _ hh5 _ _ (.ok (a := (a, off)) (b := (b, off)) ⟨hc, rfl⟩)

theorem parallel_goroutines {α : Type} (cfg : Cfg) (I : Nat → Nat → Prop) (N : Nat → Name → Prop) (m : Mem) (hm : m.OK)
    (hg : FsGood m.shared.fs) (tasks : Nat → Session α) (hstays : ∀ g, (tasks g).Stays (I g) (N g))
    (happ : ∀ g id c, I g id → m.app.get id = some c → N g c.name ∧ m.shared.fs.dir (cfg.path c.name) = some c.conn.ino)
    (hP : ∀ g g' x, cfg.Owns (N g) x → cfg.Owns (N g') x → g = g') :
    Parallel (fun g => cfg.Owns (N g)) ((System.start false cfg m tasks).files m.table)
      (fun _ => (System.start false cfg m tasks).files m.table) := by
  refine ⟨fun g i j => i = j ∧ ∃ x, cfg.Owns (N g) x ∧ m.shared.fs.dir x = some i, ?_, fun g => ⟨?_, ?_⟩⟩
  · rintro p q i i' j ⟨e1, x, hx, hx'⟩ ⟨e2, y, hy, hy'⟩
    have e : x = y := hg.2 _ _ _ hx' (by rw [e1, ← e2]; exact hy')
    exact hP _ _ x hx (e ▸ hy)
  · refine twin_go cfg (tasks g) (hstays g) fun p hp => ?_
    obtain ⟨id, hid, hp⟩ := hp
    obtain ⟨h1, h2⟩ := happ g id (m.heap p) hid (by rw [app_get]; show Option.map m.heap (at? m.table id) = _; rw [hp]; rfl)
    exact ⟨h1, (m.heap p).conn.ino, ⟨rfl, _, ⟨_, h1, .inl rfl⟩, h2⟩, rfl⟩
  · have hl : ((System.start false cfg m tasks).files m.table).shared.locks = fun _ => none := hm.unlocked
    refine { right := ?_, left := ?_, dir := ?_, ino := ?_, lt := ?_, locks := fun _ => by rw [hl],
             freeS := fun _ _ => by rw [hl], freeT := fun _ _ => by rw [hl] }
    · rintro i j j' ⟨rfl, _⟩ ⟨rfl, _⟩; rfl
    · rintro i i' j ⟨rfl, _⟩ ⟨rfl, _⟩; rfl
    · intro x hx
      show OptRel _ (m.shared.fs.dir x) (m.shared.fs.dir x)
      cases h : m.shared.fs.dir x with
      | none => exact .none
      | some i => exact .some ⟨rfl, x, hx, h⟩
    · rintro i j ⟨rfl, _⟩; rfl
    · rintro i j ⟨rfl, x, _, hx⟩
      exact ⟨hg.1 _ _ hx, hg.1 _ _ hx⟩

/-- What a process that has finished among others has computed, and its files. -/
theorem parallel_done {α : Type} {P : Nat → Name → Prop} (hP : ∀ p q x, P p x → P q x → p = q) {t : Procs α}
    (h : Parallel P t (fun _ => t)) (p : Nat) (L : List Nat) (a : Option α) (ha : (t.run L).threads p = .ret a) :
    a = (DB.alone p (t.threads p) t.shared).1 ∧
    ∀ x, P p x → (t.run L).shared.fs.file x = (DB.alone p (t.threads p) t.shared).2.fs.file x := by
  obtain ⟨F, _, h⟩ := parallel_run hP L h
  obtain ⟨h1, h2⟩ := h p
  simp only at h1 h2
  rw [List.filter_beq] at h1 h2
  have e := alone_run p (L.count p) t
  rw [ha] at h1
  generalize t.run (List.replicate (L.count p) p) = s at h1 h2 e
  obtain ⟨sh, th⟩ := s
  simp only at h1 h2 e
  generalize th p = y at h1 e
  cases h1 with
  | ret hab =>
    simp only [DB.alone] at e
    rw [← e]
    refine ⟨hab.symm, fun x hx => ?_⟩
    unfold FS.file
    have hd := h2.dir x hx
    cases hs : sh.fs.dir x with
    | none =>
      cases ht : (t.run L).shared.fs.dir x with
      | none => rfl
      | some j => rw [hs, ht] at hd; cases hd
    | some i =>
      cases ht : (t.run L).shared.fs.dir x with
      | none => rw [hs, ht] at hd; cases hd
      | some j =>
        rw [hs, ht] at hd
        cases hd with
        | some hij => simp only [Option.map_some, h2.ino hij]

theorem stays_uses {α : Type} {I : Nat → Prop} {N M : Name → Prop} (hN : ∀ n, N n → M n) (x : Session α) (h : x.Stays I N) : x.Uses M := by
  induction x with
  | done a => trivial
  | exists' n k ih => exact ⟨hN _ h.1, fun r => ih r (h.2 r)⟩
  | new n k ih => exact ⟨hN _ h.1, fun r => ih r (h.2 r)⟩
  | delete n k ih => exact ⟨hN _ h.1, fun r => ih r (h.2 r)⟩
  | keys id k ih => exact fun r => ih r (h.2 r)
  | commits id k ih => exact fun r => ih r (h.2 r)
  | read id q k ih => exact fun r => ih r (h.2 r)
  | commit id now k ih => exact fun r => ih r (h.2 r)
  | _ => exact h.elim

theorem stays_small {α : Type} {I : Nat → Prop} {N : Name → Prop} (cfg : Cfg) (x : Session α) (h : x.Stays I N) :
    ∀ fs a, x.Small cfg fs a := by
  induction x with
  | done a => intros; trivial
  | exists' n k ih => exact fun fs a => ih _ (h.2 _) _ _
  | new n k ih =>
    intro fs a
    simp only [Session.Small]
    split
    · exact ih _ (h.2 _) _ _
    · exact ih _ (h.2 _) _ _
    · trivial
  | delete n k ih =>
    intro fs a
    simp only [Session.Small]
    split
    · exact ih _ (h.2 _) _ _
    · exact ih _ (h.2 _) _ _
    · trivial
  | keys id k ih => exact fun fs a => ih _ (h.2 _) _ _
  | commits id k ih => exact fun fs a => ih _ (h.2 _) _ _
  | read id q k ih =>
    intro fs a
    simp only [Session.Small]
    split
    · exact ih _ (h.2 _) _ _
    · exact ih _ (h.2 _) _ _
    · trivial
  | commit id now k ih =>
    intro fs a
    simp only [Session.Small]
    split
    · exact ih _ (h.2 _) _ _
    · exact ih _ (h.2 _) _ _
    · trivial
  | _ => exact h.elim

theorem others_keep {α : Type} (g : Nat) (L : List Nat) (hL : g ∉ L) : ∀ s t : System α, s.run L = some t → t.threads g = s.threads g := by
  induction L with
  | nil => intro s t h; cases h; rfl
  | cons q L ih =>
    intro s t h
    simp only [List.mem_cons, not_or] at hL
    simp only [System.run] at h
    cases hq : s.step q with
    | none => rw [hq] at h; cases h
    | some u =>
      rw [hq] at h
      rw [ih hL.2 u t h]
      unfold System.step at hq
      split at hq
      · cases hq; rfl
      · split at hq
        · split at hq
          · cases hq
          · cases hq; exact upd_ne _ _ hL.1
        · cases hq; rfl

/-- Along every schedule in which a goroutine gets infinitely many turns it comes to its end, or the process does. -/
theorem fair_end {α : Type} (g : Nat) (x : Prog (Option α)) (hx : x.Plain) : ∀ (s : System α) (σ : Nat → Nat), s.threads g = x →
    (∀ n, ∃ k, n ≤ k ∧ σ k = g) →
    ∃ n, match s.run ((List.range n).map σ) with
      | none => True
      | some s' => ∃ v, s'.threads g = .ret v := by
  induction x with
  | ret a => intro s σ hs _; exact ⟨0, a, hs⟩
  | op o k ih =>
    intro s σ hs hσ
    obtain ⟨k0, _, hk0⟩ := hσ 0
    have hex : ∃ k, σ k = g := ⟨k0, hk0⟩
    obtain ⟨f, hf, hmin⟩ : ∃ f, σ f = g ∧ ∀ n, n < f → σ n ≠ g := ⟨Nat.find hex, Nat.find_spec hex, fun n hn => Nat.find_min hex hn⟩
    have hnot : g ∉ (List.range f).map σ := by
      intro h
      obtain ⟨n, hn, e⟩ := List.mem_map.mp h
      exact hmin n (List.mem_range.mp hn) e
    cases hr : s.run ((List.range f).map σ) with
    | none => exact ⟨f, by rw [hr]; trivial⟩
    | some s1 =>
      have h1 := (others_keep g _ hnot s s1 hr).trans hs
      have hready : o.ready s1.mem = true := by
        have := hx.1
        cases o <;> first | rfl | cases this
      have hsplit : ∀ n, s.run ((List.range (f + (1 + n))).map σ) = (s1.step g).bind (fun s2 => s2.run ((List.range n).map (fun n => σ (f + (1 + n))))) := by
        intro n
        rw [List.range_add, List.map_append, run_append, hr, List.range_add]
        simp only [List.range_one, List.map_cons, List.map_map, List.singleton_append, Option.bind_some,
          System.run, Nat.add_zero, hf]
        cases s1.step g <;> rfl
      cases he : exec g o s1.mem with
      | none =>
        refine ⟨f + (1 + 0), ?_⟩
        rw [hsplit]
        have : s1.step g = none := by simp only [System.step, h1, hready, if_true, he]
        rw [this]
        trivial
      | some y =>
        obtain ⟨r, m'⟩ := y
        have : s1.step g = some ⟨m', upd s1.threads g (k r)⟩ := by simp only [System.step, h1, hready, if_true, he]
        obtain ⟨n, hn⟩ := ih r (hx.2 r) ⟨m', upd s1.threads g (k r)⟩ (fun n => σ (f + (1 + n))) (upd_self _ _ _) (by
          intro n
          obtain ⟨k, hk, e⟩ := hσ (f + (1 + n))
          exact ⟨k - (f + 1), by omega, by rw [← e]; congr 1; omega⟩)
        refine ⟨f + (1 + n), ?_⟩
        rw [hsplit, this]
        exact hn

end Go
end DB
end Rodkina
