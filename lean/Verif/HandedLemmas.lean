import Verif.HandedSpec
import Verif.BuffersLemmas
/-! Lemmas about the lists of commits that are handed out. -/

namespace Rodkina
namespace DB

open Ref

/-! ### Memory -/

theorem store_getD (s : Handed) (arr i : Nat) (x : Commit) (k : Nat) :
    (s.store arr i x).heap.getD k [] = if k = arr then (s.heap.getD k []).set i x else s.heap.getD k [] := by
  unfold Handed.store
  simp only [List.getD_eq_getElem?_getD, List.getElem?_set]
  by_cases hk : arr = k
  · subst hk
    by_cases hl : arr < s.heap.length
    · simp [hl]
    · simp [hl]
  · rw [if_neg hk, if_neg (Ne.symm hk)]

theorem store_valid {s : Handed} {arr i : Nat} {x : Commit} {p : Mem.Ptr} (hp : p.Valid s.heap) : p.Valid (s.store arr i x).heap := by
  refine ⟨?_, hp.2.1, ?_⟩
  · unfold Handed.store; simpa using hp.1
  · rw [store_getD]; split
    · simpa using hp.2.2
    · exact hp.2.2

theorem store_read {s : Handed} {arr i : Nat} {x : Commit} {p : Mem.Ptr} (hp : ¬ (HCall.store arr i x).Touches p) :
    Mem.read (s.store arr i x).heap p = Mem.read s.heap p := by
  unfold Mem.read
  rw [store_getD]
  split
  · rename_i hk
    apply List.ext_getElem?
    intro j
    simp only [List.getElem?_take, List.getElem?_drop, List.getElem?_set]
    by_cases hj : j < p.len
    · rw [if_pos hj, if_pos hj, if_neg]
      intro e
      exact hp ⟨hk, by omega, by omega⟩
    · rw [if_neg hj, if_neg hj]
  · rfl

/-! ### The contexts as a call finds them -/

theorem relist_self {c : Ctx} {l : List Commit} (h : ∀ r, c.reference = some r → l = r.commits.list) : c.relist l = c := by
  unfold Ctx.relist
  cases hr : c.reference with
  | none => simp only [Option.map_none]; rw [← hr]
  | some r => rw [h r hr]; simp only [Option.map_some]; rw [← hr]

theorem view_of_inOrder {s : Handed} (hs : s.InOrder) : s.view = s.app := by
  unfold Handed.view
  conv => rhs; rw [← List.map_id s.app]
  apply List.map_congr_left
  intro e he
  have : e.2.relist (s.listed e.1) = e.2 := by
    apply relist_self
    intro r hr
    obtain ⟨p, h1, h2⟩ := hs.list e he r hr
    unfold Handed.listed
    rw [h1]
    exact h2
  rw [this]
  rfl

/-! ### Commits -/

theorem newCommit_of_update {cfg : Cfg} {c : Ctx} {now : Int} {r : Reference} (h : updateReference cfg c now = .ok r) :
    ∃ x, newCommit cfg c now = .ok x ∧ r.commits.list = oldCommits c.reference ++ [x] := by
  unfold updateReference at h
  unfold newCommit
  cases hp : latestHash c.reference with
  | err => rw [hp] at h; cases h
  | panic => rw [hp] at h; cases h
  | ok parent =>
    rw [hp] at h
    simp only [Res.bind_ok] at h ⊢
    cases hb : HashTree.build cfg.S (some (c.contentList.map (·.hash))) with
    | err => rw [hb] at h; cases h
    | panic => rw [hb] at h; cases h
    | ok t =>
      rw [hb] at h
      simp only [Res.bind_ok] at h ⊢
      refine ⟨_, rfl, ?_⟩
      rw [commitsNow_list _ (by simp)] at h
      simp only [Res.bind_ok] at h
      cases hk : newKeys (commitNow cfg.S cfg.miningValue t now parent none).hash (nextOffset c.reference) c.contentList with
      | err => rw [hk] at h; cases h
      | panic => rw [hk] at h; cases h
      | ok keys =>
        rw [hk] at h
        simp only [Res.bind_ok] at h
        cases hq : contentKeysNow (oldKeys c.reference ++ keys) with
        | err => rw [hq] at h; cases h
        | panic => rw [hq] at h; cases h
        | ok q =>
          rw [hq] at h
          simp only [Res.bind_ok, Res.pure_eq, Res.ok.injEq] at h
          rw [← h]

/-- What a commit does to the contexts. -/
theorem commit_contexts (cfg : Cfg) (o : Pt → Fault) (now : Int) (fs : FS) (a : App) (id : Nat) {c : Ctx} (hc : a.get id = some c) :
    ((commit cfg o now fs a id).out = .ok () ∧ ∃ r conn off, updateReference cfg c now = .ok r ∧
      (commit cfg o now fs a id).app = a.set id { c with conn := conn, reference := some r, dataOffset := off }) ∨
    ((commit cfg o now fs a id).out ≠ .ok () ∧
      ((commit cfg o now fs a id).app = a ∨ ∃ conn, (commit cfg o now fs a id).app = a.set id { c with conn := conn })) := by
  unfold commit
  rw [hc]
  dsimp only
  cases hr : updateReference cfg c now with
  | err => exact .inr ⟨by simp, .inl rfl⟩
  | panic => exact .inr ⟨by simp, .inl rfl⟩
  | ok r =>
    dsimp only
    rcases h : (updateDatabaseOnFile cfg o c r).run ⟨fs, c.conn⟩ with ⟨out, w⟩
    cases out with
    | ok p => obtain ⟨conn, off⟩ := p; exact .inl ⟨rfl, r, conn, off, rfl, rfl⟩
    | err => exact .inr ⟨by simp [finish], .inr ⟨_, rfl⟩⟩
    | panic => exact .inr ⟨by simp [finish], .inr ⟨_, rfl⟩⟩
    | crash => exact .inr ⟨by simp [finish], .inr ⟨_, rfl⟩⟩
    | hang => exact .inr ⟨by simp [finish], .inr ⟨_, rfl⟩⟩

/-! ### Slices that stay -/

/-- Specification: a slice that no commit writes to: it is not in the room behind a list. -/
def Free (s : Handed) (p : Mem.Ptr) : Prop := p.Valid s.heap ∧ ∀ id q, s.lists id = some q → Mem.Apart q p

/-- Specification: the lists are slices that Go could have made. -/
def Handed.Valid (s : Handed) : Prop := ∀ id p, s.lists id = some p → p.Valid s.heap

theorem base_valid {s : Handed} (hs : s.Valid) (id : Nat) : (s.base id).2.Valid (s.base id).1 := by
  unfold Handed.base
  cases h : s.lists id with
  | some p => exact hs id p h
  | none => refine ⟨by simp, Nat.le_refl _, by simp⟩

theorem base_read {s : Handed} (id : Nat) : Mem.read (s.base id).1 (s.base id).2 = s.listed id := by
  unfold Handed.base Handed.listed
  cases h : s.lists id with
  | some p => rfl
  | none => simp [Mem.read]

theorem base_frame {s : Handed} (id : Nat) {p : Mem.Ptr} (hp : Free s p) :
    p.Valid (s.base id).1 ∧ Mem.read (s.base id).1 p = Mem.read s.heap p ∧ Mem.Apart (s.base id).2 p := by
  unfold Handed.base
  cases h : s.lists id with
  | some q => exact ⟨hp.1, rfl, hp.2 id q h⟩
  | none => exact ⟨valid_append _ _ hp.1, read_append _ _ hp.1, .inl (Nat.ne_of_lt hp.1.1)⟩

theorem free_of_ne {s : Handed} {h : Mem.Heap Commit} {p : Mem.Ptr} (hp : Free s p) (hv : p.Valid h) (id : Nat) (q : Option Mem.Ptr)
    (hq : ∀ q', q = some q' → Mem.Apart q' p) (fs : FS) (a : App) : Free ⟨h, fs, a, upd s.lists id q⟩ p := by
  refine ⟨hv, fun i q' hi => ?_⟩
  by_cases e : i = id
  · subst e; simp only [upd_self] at hi; exact hq q' hi
  · simp only [upd_ne _ _ e] at hi; exact hp.2 i q' hi

theorem apart_new {p q : Mem.Ptr} {n : Nat} (hp : p.arr < n) (hq : q.arr = n) : Mem.Apart q p := .inl (by omega)

/-- A slice that no commit writes to and no step touches stays what it is. -/
theorem step_frame (cfg : Cfg) (grow : Nat → Nat) {s : Handed} (hs : s.Valid) (x : HCall) {p : Mem.Ptr} (hp : Free s p) (hx : ¬ x.Touches p) :
    Free (x.run cfg grow s) p ∧ Mem.read (x.run cfg grow s).heap p = Mem.read s.heap p := by
  have same : ∀ fs a, Free ⟨s.heap, fs, a, s.lists⟩ p ∧ Mem.read s.heap p = Mem.read s.heap p := fun _ _ => ⟨⟨hp.1, hp.2⟩, rfl⟩
  cases x with
  | alloc l => exact ⟨⟨valid_append _ _ hp.1, hp.2⟩, read_append _ _ hp.1⟩
  | store arr i y => exact ⟨⟨store_valid hp.1, hp.2⟩, store_read hx⟩
  | call x =>
    cases x with
    | new n => exact same _ _
    | delete n => exact same _ _
    | write id h d k => exact same _ _
    | cancel id => exact same _ _
    | restart => exact ⟨⟨hp.1, fun id q h => by simp [HCall.run] at h⟩, rfl⟩
    | close id =>
      simp only [HCall.run]
      cases DB.close s.app id with
      | err => exact same _ _
      | panic => exact same _ _
      | ok a' => exact ⟨free_of_ne hp hp.1 id none (fun _ h => by cases h) _ _, rfl⟩
    | open' n =>
      simp only [HCall.run, Handed.open']
      cases DB.open' cfg s.fs s.app n with
      | err => exact same _ _
      | panic => exact same _ _
      | ok r =>
        obtain ⟨id, a'⟩ := r
        dsimp only
        cases (a'.get id).bind (·.reference) with
        | none => exact ⟨free_of_ne hp hp.1 id none (fun _ h => by cases h) _ _, rfl⟩
        | some r =>
          refine ⟨free_of_ne hp (valid_append _ _ hp.1) id _ (fun q' h => ?_) _ _, read_append _ _ hp.1⟩
          cases h
          exact apart_new hp.1.1 rfl
    | commit id o now =>
      simp only [HCall.run, Handed.commit]
      cases s.view.get id with
      | none => exact same _ _
      | some c =>
        dsimp only
        cases newCommit cfg c now with
        | err => exact same _ _
        | panic => exact same _ _
        | ok x =>
          obtain ⟨b1, b2, b3⟩ := base_frame id hp
          obtain ⟨_, _, _, _, p5⟩ := Mem.push_spec grow (s.base id).1 (s.base id).2 x (base_valid hs id)
          obtain ⟨c1, c2, c3⟩ := p5 p b1 b3
          have hread := c2.trans b2
          dsimp only
          cases (DB.commit cfg o now s.fs s.view id).out with
          | ok _ => exact ⟨free_of_ne hp c1 id _ (fun q' h => by cases h; exact c3) _ _, hread⟩
          | err => exact ⟨⟨c1, hp.2⟩, hread⟩
          | panic => exact ⟨⟨c1, hp.2⟩, hread⟩
          | crash => exact ⟨⟨c1, hp.2⟩, hread⟩
          | hang => exact ⟨⟨c1, hp.2⟩, hread⟩

/-! ### What a step is on the contexts -/

/-- Memory stays in order if the contexts keep their references. -/
theorem inOrder_app {s : Handed} (hs : s.InOrder) {fs : FS} {a : App}
    (h : ∀ e ∈ a, ∃ e' ∈ s.app, e'.1 = e.1 ∧ e'.2.reference = e.2.reference) : Handed.InOrder ⟨s.heap, fs, a, s.lists⟩ := by
  refine ⟨fun e he hr => ?_, fun e he r hr => ?_, hs.valid, hs.apart⟩
  · obtain ⟨e', h1, h2, h3⟩ := h e he
    have := hs.without e' h1 (h3.trans hr)
    rw [h2] at this
    exact this
  · obtain ⟨e', h1, h2, h3⟩ := h e he
    have := hs.list e' h1 r (h3.trans hr)
    rw [h2] at this
    exact this

theorem get_exists {a : App} {id : Nat} {c : Ctx} (h : a.get id = some c) (d : Ctx) (hd : d.reference = c.reference) :
    ∀ e ∈ a.set id d, ∃ e' ∈ a, e'.1 = e.1 ∧ e'.2.reference = e.2.reference := by
  intro e he
  rcases mem_set he with rfl | he
  · exact ⟨_, get_mem h, rfl, hd.symm⟩
  · exact ⟨e, he.1, rfl, rfl⟩

theorem inOrder_frame {s : Handed} (hs : s.InOrder) {h : Mem.Heap Commit}
    (hh : ∀ id p, s.lists id = some p → p.Valid h ∧ Mem.read h p = Mem.read s.heap p) (fs : FS) :
    Handed.InOrder ⟨h, fs, s.app, s.lists⟩ := by
  refine ⟨hs.without, fun e he r hr => ?_, fun id p hp => (hh id p hp).1, hs.apart⟩
  obtain ⟨p, h1, h2⟩ := hs.list e he r hr
  exact ⟨p, h1, (hh _ p h1).2.trans h2⟩

theorem mem_delete_ne {a : App} {id : Nat} {e : Nat × Ctx} (h : e ∈ a.delete id) : e ∈ a ∧ e.1 ≠ id := by
  simp only [App.delete, List.mem_filter] at h
  exact ⟨h.1, by simpa using h.2⟩

theorem lists_free {s : Handed} (hs : s.InOrder) {id : Nat} {p : Mem.Ptr} (hp : s.lists id = some p) : Free s p := by
  refine ⟨hs.valid id p hp, fun i q hq => ?_⟩
  by_cases h : i = id
  · subst h
    rw [hq] at hp
    cases hp
    exact .inr (.inl (Nat.le_refl _))
  · exact .inl (hs.apart id p i q hp hq (Ne.symm h))

/-- Memory is in order after a context got a new reference and its list. -/
theorem inOrder_set {s : Handed} (hs : s.InOrder) {h : Mem.Heap Commit}
    (hh : ∀ id p, s.lists id = some p → p.Valid h ∧ Mem.read h p = Mem.read s.heap p) (fs : FS) (id : Nat) (c : Ctx) (r : Reference)
    (hr : c.reference = some r) (q : Mem.Ptr) (hv : q.Valid h) (hq : Mem.read h q = r.commits.list)
    (hne : ∀ i p, i ≠ id → s.lists i = some p → p.arr ≠ q.arr) :
    Handed.InOrder ⟨h, fs, s.app.set id c, upd s.lists id (some q)⟩ := by
  refine ⟨fun e he hn => ?_, fun e he r' hr' => ?_, fun i p hp => ?_, fun i p i' p' hp hp' hi => ?_⟩
  · rcases mem_set he with rfl | ⟨h1, h2⟩
    · rw [hr] at hn; cases hn
    · simp only [upd_ne _ _ h2]
      exact hs.without e h1 hn
  · rcases mem_set he with rfl | ⟨h1, h2⟩
    · rw [hr] at hr'
      cases hr'
      exact ⟨q, upd_self _ _ _, hq⟩
    · obtain ⟨p, h3, h4⟩ := hs.list e h1 r' hr'
      simp only [upd_ne _ _ h2]
      exact ⟨p, h3, (hh _ p h3).2.trans h4⟩
  · by_cases e : i = id
    · subst e
      simp only [upd_self, Option.some.injEq] at hp
      subst hp
      exact hv
    · simp only [upd_ne _ _ e] at hp
      exact (hh i p hp).1
  · by_cases e : i = id
    · subst e
      simp only [upd_self, Option.some.injEq] at hp
      subst hp
      simp only [upd_ne _ _ (Ne.symm hi)] at hp'
      exact (hne i' p' (Ne.symm hi) hp').symm
    · simp only [upd_ne _ _ e] at hp
      by_cases e' : i' = id
      · subst e'
        simp only [upd_self, Option.some.injEq] at hp'
        subst hp'
        exact hne i p e hp
      · simp only [upd_ne _ _ e'] at hp'
        exact hs.apart i p i' p' hp hp' hi

theorem listed_old {s : Handed} (hs : s.InOrder) {id : Nat} {c : Ctx} (hc : s.app.get id = some c) :
    s.listed id = oldCommits c.reference := by
  unfold Handed.listed oldCommits
  cases hr : c.reference with
  | none => rw [hs.without _ (get_mem hc) hr]
  | some r =>
    obtain ⟨p, h1, h2⟩ := hs.list _ (get_mem hc) r hr
    simp only at h1
    rw [h1]
    exact h2

theorem inOrder_none {s : Handed} (hs : s.InOrder) (fs : FS) (id : Nat) (a : App)
    (ha : ∀ e ∈ a, e.2.reference = none ∧ e.1 = id ∨ e ∈ s.app ∧ e.1 ≠ id) :
    Handed.InOrder ⟨s.heap, fs, a, upd s.lists id none⟩ := by
  refine ⟨fun e he hn => ?_, fun e he r' hr' => ?_, fun i p hp => ?_, fun i p i' p' hp hp' hi => ?_⟩
  · rcases ha e he with ⟨_, h2⟩ | ⟨h1, h2⟩
    · simp only [h2, upd_self]
    · simp only [upd_ne _ _ h2]
      exact hs.without e h1 hn
  · rcases ha e he with ⟨h1, _⟩ | ⟨h1, h2⟩
    · rw [h1] at hr'; cases hr'
    · simp only [upd_ne _ _ h2]
      exact hs.list e h1 r' hr'
  · by_cases e : i = id
    · subst e; simp only [upd_self] at hp; cases hp
    · simp only [upd_ne _ _ e] at hp; exact hs.valid i p hp
  · by_cases e : i = id
    · subst e; simp only [upd_self] at hp; cases hp
    · by_cases e' : i' = id
      · subst e'; simp only [upd_self] at hp'; cases hp'
      · simp only [upd_ne _ _ e] at hp
        simp only [upd_ne _ _ e'] at hp'
        exact hs.apart i p i' p' hp hp' hi

/-- What a step is on the contexts, and that memory stays in order. -/
theorem step_inOrder (cfg : Cfg) (grow : Nat → Nat) {s : Handed} (hs : s.InOrder) (x : HCall)
    (hx : ∀ id p, s.lists id = some p → ¬ x.Touches p) :
    (x.run cfg grow s).InOrder ∧ ((x.run cfg grow s).fs, (x.run cfg grow s).app) =
      match x.meant with
      | none => (s.fs, s.app)
      | some y => y.run cfg s.fs s.app := by
  have hfr : ∀ id p, s.lists id = some p → p.Valid (x.run cfg grow s).heap ∧ Mem.read (x.run cfg grow s).heap p = Mem.read s.heap p := by
    intro id p hp
    have := step_frame cfg grow (fun i q h => hs.valid i q h) x (lists_free hs hp) (hx id p hp)
    exact ⟨this.1.1, this.2⟩
  have same : ∀ fs, Handed.InOrder ⟨s.heap, fs, s.app, s.lists⟩ := fun fs => inOrder_frame hs (fun id p hp => ⟨hs.valid id p hp, rfl⟩) fs
  cases x with
  | alloc l => exact ⟨inOrder_frame hs hfr s.fs, rfl⟩
  | store arr i y => exact ⟨inOrder_frame hs hfr s.fs, rfl⟩
  | call x =>
    cases x with
    | new n =>
      refine ⟨?_, rfl⟩
      simp only [HCall.run, Call.run]
      cases new' cfg s.fs n <;> exact same _
    | delete n =>
      refine ⟨?_, rfl⟩
      simp only [HCall.run, Call.run]
      cases delete' cfg s.fs n <;> exact same _
    | write id h d k =>
      refine ⟨?_, rfl⟩
      simp only [HCall.run, Call.run, write]
      cases hg : s.app.get id with
      | none => exact same _
      | some c =>
        simp only
        cases contentNow h d k with
        | err => exact same _
        | panic => exact same _
        | ok z => exact inOrder_app hs (get_exists hg _ rfl)
    | cancel id =>
      refine ⟨?_, rfl⟩
      simp only [HCall.run, Call.run, cancel]
      cases hg : s.app.get id with
      | none => exact same _
      | some c => exact inOrder_app hs (get_exists hg _ rfl)
    | restart =>
      refine ⟨⟨?_, ?_, ?_, ?_⟩, rfl⟩
      · intro e he; simp [HCall.run] at he
      · intro e he; simp [HCall.run] at he
      · intro id p h; simp [HCall.run] at h
      · intro id p id' p' h; simp [HCall.run] at h
    | close id =>
      simp only [HCall.run, HCall.meant, Call.run, close]
      cases hg : s.app.get id with
      | none => exact ⟨same _, rfl⟩
      | some c =>
        simp only
        by_cases ho : c.conn.isOpen = true
        · simp only [if_pos ho]
          exact ⟨inOrder_none hs _ id _ (fun e he => .inr (mem_delete_ne he)), trivial⟩
        · simp only [if_neg ho]
          exact ⟨same _, trivial⟩
    | open' n =>
      simp only [HCall.run, HCall.meant, Call.run] at hfr ⊢
      unfold Handed.open' at hfr ⊢
      cases ho : DB.open' cfg s.fs s.app n with
      | err => exact ⟨same _, rfl⟩
      | panic => exact ⟨same _, rfl⟩
      | ok r =>
        obtain ⟨id, a'⟩ := r
        rw [ho] at hfr
        have ha : ∃ c, a' = s.app.set id c := by
          unfold DB.open' at ho
          split at ho
          · cases ho
          · cases hr : retrieveAt cfg s.fs (cfg.path n) with
            | err => rw [hr] at ho; cases ho
            | panic => rw [hr] at ho; cases ho
            | ok r =>
              rw [hr] at ho
              simp only [Res.bind_ok, Res.pure_eq, Res.ok.injEq, Prod.mk.injEq] at ho
              exact ⟨_, by rw [← ho.2, ← ho.1]⟩
        obtain ⟨c, rfl⟩ := ha
        simp only [get_set_self, Option.bind_some] at hfr ⊢
        cases hc : c.reference with
        | none =>
          refine ⟨inOrder_none hs _ id _ (fun e he => ?_), rfl⟩
          rcases mem_set he with rfl | h
          · exact .inl ⟨hc, rfl⟩
          · exact .inr h
        | some r =>
          rw [hc] at hfr
          refine ⟨inOrder_set hs hfr _ id c r hc _ ⟨?_, ?_, ?_⟩ ?_ ?_, rfl⟩
          · simp
          · simp
          · simp
          · simp [Mem.read]
          · intro i p _ hp e
            have := (hs.valid i p hp).1
            simp only at e
            omega
    | commit id o now =>
      simp only [HCall.run, HCall.meant, Call.run] at hfr ⊢
      unfold Handed.commit at hfr ⊢
      rw [view_of_inOrder hs] at hfr ⊢
      cases hg : s.app.get id with
      | none =>
        refine ⟨same _, ?_⟩
        unfold DB.commit
        rw [hg]
      | some c =>
        rw [hg] at hfr
        simp only at hfr ⊢
        have keep : ∀ h fs a, (∀ id p, s.lists id = some p → p.Valid h ∧ Mem.read h p = Mem.read s.heap p) →
            (a = s.app ∨ ∃ conn, a = s.app.set id { c with conn := conn }) → Handed.InOrder ⟨h, fs, a, s.lists⟩ := by
          intro h fs a hh ha
          have h1 := inOrder_frame hs hh fs
          rcases ha with rfl | ⟨conn, rfl⟩
          · exact h1
          · exact inOrder_app h1 (get_exists hg _ rfl)
        rcases commit_contexts cfg o now s.fs s.app id hg with ⟨hout, r, conn, off, hu, ha⟩ | ⟨hout, ha⟩
        · obtain ⟨y, hy, hl⟩ := newCommit_of_update hu
          rw [hy, hout] at hfr ⊢
          simp only at hfr ⊢
          obtain ⟨p1, p2, p3, p4, _⟩ := Mem.push_spec grow (s.base id).1 (s.base id).2 y (base_valid (fun i q h => hs.valid i q h) id)
          refine ⟨?_, trivial⟩
          rw [ha]
          refine inOrder_set hs hfr _ id _ r rfl _ p1 ?_ ?_
          · rw [p2, base_read, listed_old hs hg, hl]
          · intro i p hi hp e
            have hlt := (hs.valid i p hp).1
            rw [← e] at p4
            unfold Handed.base at p4
            cases hb : s.lists id with
            | none =>
              simp only [hb, List.length_append, List.length_cons, List.length_nil] at p4
              omega
            | some q =>
              simp only [hb] at p4
              have := hs.apart i p id q hp hb hi
              omega
        · cases hy : newCommit cfg c now with
          | err =>
            rw [hy] at hfr
            exact ⟨keep _ _ _ hfr ha, rfl⟩
          | panic =>
            rw [hy] at hfr
            exact ⟨keep _ _ _ hfr ha, rfl⟩
          | ok y =>
            rw [hy] at hfr
            simp only at hfr ⊢
            cases ho : (DB.commit cfg o now s.fs s.app id).out with
            | ok _ => exact absurd ho hout
            | err => exact ⟨keep _ _ _ hfr ha, trivial⟩
            | panic => exact ⟨keep _ _ _ hfr ha, trivial⟩
            | crash => exact ⟨keep _ _ _ hfr ha, trivial⟩
            | hang => exact ⟨keep _ _ _ hfr ha, trivial⟩

/-! ### Programs -/

theorem handed_run_cons (cfg : Cfg) (grow : Nat → Nat) (s : Handed) (x : HCall) (L : List HCall) :
    s.run cfg grow (x :: L) = (x.run cfg grow s).run cfg grow L := rfl

theorem run_inOrder (cfg : Cfg) (grow : Nat → Nat) (L : List HCall) : ∀ s : Handed, s.InOrder → ReadsOnly cfg grow s L →
    (s.run cfg grow L).InOrder ∧
    ((s.run cfg grow L).fs, (s.run cfg grow L).app) = runCalls cfg (s.fs, s.app) (L.filterMap HCall.meant) := by
  induction L with
  | nil => exact fun s hs _ => ⟨hs, rfl⟩
  | cons x L ih =>
    intro s hs hc
    obtain ⟨h1, h2⟩ := step_inOrder cfg grow hs x hc.1
    obtain ⟨h3, h4⟩ := ih _ h1 hc.2
    rw [handed_run_cons]
    refine ⟨h3, ?_⟩
    rw [h4, h2]
    cases hm : x.meant with
    | none => rw [List.filterMap_cons_none hm]
    | some y => rw [List.filterMap_cons_some hm]; rfl

/-- Steps keep the lists slices that Go could have made. -/
theorem step_valid (cfg : Cfg) (grow : Nat → Nat) {s : Handed} (hs : s.Valid) (x : HCall) : (x.run cfg grow s).Valid := by
  have upd' : ∀ {h : Mem.Heap Commit} {fs : FS} {a : App} {id : Nat} {q : Option Mem.Ptr},
      (∀ i p, s.lists i = some p → p.Valid h) → (∀ p, q = some p → p.Valid h) → Handed.Valid ⟨h, fs, a, upd s.lists id q⟩ := by
    intro h fs a id q h1 h2 i p hp
    by_cases e : i = id
    · subst e; simp only [upd_self] at hp; exact h2 p hp
    · simp only [upd_ne _ _ e] at hp; exact h1 i p hp
  cases x with
  | alloc l => exact fun i p hp => valid_append _ _ (hs i p hp)
  | store arr i y => exact fun i p hp => store_valid (hs i p hp)
  | call x =>
    cases x with
    | new n => exact hs
    | delete n => exact hs
    | write id h d k => exact hs
    | cancel id => exact hs
    | restart => intro i p hp; simp [HCall.run] at hp
    | close id =>
      simp only [HCall.run]
      cases DB.close s.app id with
      | err => exact hs
      | panic => exact hs
      | ok a' => exact upd' hs (fun _ h => by cases h)
    | open' n =>
      simp only [HCall.run, Handed.open']
      cases DB.open' cfg s.fs s.app n with
      | err => exact hs
      | panic => exact hs
      | ok r =>
        obtain ⟨id, a'⟩ := r
        dsimp only
        cases (a'.get id).bind (·.reference) with
        | none => exact upd' hs (fun _ h => by cases h)
        | some r =>
          refine upd' (fun i p hp => valid_append _ _ (hs i p hp)) (fun p hp => ?_)
          cases hp
          exact ⟨by simp, by simp, by simp⟩
    | commit id o now =>
      simp only [HCall.run, Handed.commit]
      cases s.view.get id with
      | none => exact hs
      | some c =>
        dsimp only
        cases newCommit cfg c now with
        | err => exact hs
        | panic => exact hs
        | ok x =>
          obtain ⟨p1, _⟩ := Mem.push_spec grow (s.base id).1 (s.base id).2 x (base_valid hs id)
          have hb : ∀ i p, s.lists i = some p → p.Valid (Mem.push grow (s.base id).1 (s.base id).2 x).1 := by
            intro i p hp
            apply Mem.push_valid
            unfold Handed.base
            cases s.lists id with
            | none => exact valid_append _ _ (hs i p hp)
            | some q => exact hs i p hp
          dsimp only
          cases (DB.commit cfg o now s.fs s.view id).out with
          | ok _ => exact upd' hb (fun p h => by cases h; exact p1)
          | err => exact hb
          | panic => exact hb
          | crash => exact hb
          | hang => exact hb

theorem run_frame (cfg : Cfg) (grow : Nat → Nat) (L : List HCall) : ∀ s : Handed, s.Valid → ∀ p, Free s p → (∀ x ∈ L, ¬ x.Touches p) →
    Mem.read (s.run cfg grow L).heap p = Mem.read s.heap p := by
  induction L with
  | nil => exact fun s _ p _ _ => rfl
  | cons x L ih =>
    intro s hs p hp hx
    obtain ⟨h1, h2⟩ := step_frame cfg grow hs x hp (hx x (by simp))
    rw [handed_run_cons, ih _ (step_valid cfg grow hs x) p h1 (fun y hy => hx y (by simp [hy])), h2]

/-! ### Lists that were written to -/

theorem handed_view_get (s : Handed) (id : Nat) : s.view.get id = (s.app.get id).map (fun c => c.relist (s.listed id)) := by
  unfold Handed.view
  generalize s.app = a
  induction a with
  | nil => rfl
  | cons e es ih =>
    unfold App.get at ih ⊢
    simp only [List.map_cons, List.find?_cons]
    by_cases h : (e.1 == id) = true
    · have : e.1 = id := by simpa using h
      simp [this]
    · simp only [h]
      exact ih

theorem store_touched {s : Handed} {p : Mem.Ptr} (hp : p.Valid s.heap) {i : Nat} (hi : i < p.len) (x : Commit) :
    Mem.read (s.store p.arr (p.off + i) x).heap p = (Mem.read s.heap p).set i x := by
  unfold Mem.read
  rw [store_getD, if_pos rfl]
  apply List.ext_getElem?
  intro j
  have h2 := hp.2.1
  have h3 := hp.2.2
  simp only [List.getElem?_take, List.getElem?_drop, List.getElem?_set, List.length_take, List.length_drop]
  by_cases hj : j < p.len
  · rw [if_pos hj]
    by_cases e : i = j
    · subst e
      rw [if_pos rfl, if_pos (by omega), if_pos rfl, if_pos (by omega)]
    · rw [if_neg (by omega), if_neg e, if_pos hj]
  · rw [if_neg hj, if_neg (by omega), if_neg hj]

theorem newKeys_any {h h' : Bytes} {L : List Content} : ∀ {off : Int} {k : List ContentKey}, newKeys h off L = .ok k →
    ∃ k', newKeys h' off L = .ok k' ∧ k'.length = k.length := by
  induction L with
  | nil => intro off k hk; exact ⟨[], rfl, by cases hk; rfl⟩
  | cons x xs ih =>
    intro off k hk
    unfold newKeys at hk ⊢
    revert hk
    cases pointerNow (some (toU64 off)) x.data.length with
    | err => intro hk; cases hk
    | panic => intro hk; cases hk
    | ok q =>
      simp only [Res.bind_ok]
      intro hk
      cases hn : newKeys h (off + x.data.length) xs with
      | err => rw [hn] at hk; cases hk
      | panic => rw [hn] at hk; cases hk
      | ok k1 =>
        rw [hn] at hk
        obtain ⟨k2, h1, h2⟩ := ih hn
        rw [h1]
        simp only [Res.bind_ok, Res.pure_eq, Res.ok.injEq] at hk ⊢
        exact ⟨_, rfl, by rw [← hk]; simp [h2]⟩

/-- The reference of a context does not notice that its list of commits is another one: the next commit goes on from there. -/
theorem updateReference_relist {cfg : Cfg} {c : Ctx} {now : Int} {r : Reference} (h : updateReference cfg c now = .ok r)
    (hc : c.reference ≠ none) {l : List Commit} {z : Commit} (hl : l.getLast? = some z) :
    ∃ r' y, updateReference cfg (c.relist l) now = .ok r' ∧ newCommit cfg (c.relist l) now = .ok y ∧
      r'.commits.list = l ++ [y] ∧ y.parent = some z.hash := by
  obtain ⟨r0, hr0⟩ := Option.ne_none_iff_exists'.mp hc
  have hlat : latestHash (c.relist l).reference = .ok (some z.hash) := by
    simp [Ctx.relist, hr0, latestHash, Commits.latest, hl]
  unfold updateReference at h ⊢
  unfold newCommit
  rw [hlat]
  have e1 : (c.relist l).contentList = c.contentList := rfl
  have e2 : oldCommits (c.relist l).reference = l := by simp [Ctx.relist, hr0, oldCommits]
  have e3 : oldKeys (c.relist l).reference = oldKeys c.reference := by simp [Ctx.relist, hr0, oldKeys]
  have e4 : nextOffset (c.relist l).reference = nextOffset c.reference := by simp [Ctx.relist, hr0, nextOffset]
  rw [e1, e2, e3, e4]
  cases hp : latestHash c.reference with
  | err => rw [hp] at h; cases h
  | panic => rw [hp] at h; cases h
  | ok parent =>
    rw [hp] at h
    simp only [Res.bind_ok] at h ⊢
    cases hb : HashTree.build cfg.S (some (c.contentList.map (·.hash))) with
    | err => rw [hb] at h; cases h
    | panic => rw [hb] at h; cases h
    | ok t =>
      rw [hb] at h
      simp only [Res.bind_ok] at h ⊢
      rw [commitsNow_list _ (by simp)] at h ⊢
      simp only [Res.bind_ok] at h ⊢
      cases hk : newKeys (commitNow cfg.S cfg.miningValue t now parent none).hash (nextOffset c.reference) c.contentList with
      | err => rw [hk] at h; cases h
      | panic => rw [hk] at h; cases h
      | ok keys =>
        rw [hk] at h
        obtain ⟨k', hk', hlen⟩ := newKeys_any (h' := (commitNow cfg.S cfg.miningValue t now (some z.hash) none).hash) hk
        rw [hk']
        simp only [Res.bind_ok] at h ⊢
        by_cases hq : oldKeys c.reference ++ keys = []
        · rw [hq] at h; cases h
        · have hq' : oldKeys c.reference ++ k' ≠ [] := by
            intro e
            apply hq
            have := congrArg List.length e
            simp only [List.length_append, List.length_nil, hlen] at this
            apply List.length_eq_zero_iff.mp
            simp only [List.length_append]
            exact this
          rw [contentKeysNow_list _ hq']
          exact ⟨_, _, rfl, rfl, rfl, rfl⟩

/-- A calm commit of a context whose list of commits was written to. -/
theorem commit_relisted {cfg : Cfg} {u : Usage} (hn : Names cfg u) (grow : Nat → Nat) {s : Handed} (hv : s.Valid) {s0 : State}
    (hs0 : Inv cfg u s0) (hfs : s.fs = s0.fs) (happ : s.app = s0.app) {id : Nat} {c : Ctx} (hg : s.app.get id = some c)
    (hopen : c.conn.isOpen = true) {now : Int} {r : Reference} (hr : updateReference cfg c now = .ok r) (hc : c.reference ≠ none)
    (hends : CopyEnds cfg c (s.fs.ino c.conn.ino)) {z : Commit} (hl : (s.listed id).getLast? = some z) :
    ∃ y r' j rest, (DB.commit cfg calm now s.fs s.view id).out = .ok () ∧
      ((HCall.call (.commit id calm now)).run cfg grow s).listed id = s.listed id ++ [y] ∧ y.parent = some z.hash ∧
      r'.commits.list = s.listed id ++ [y] ∧
      commits ((HCall.call (.commit id calm now)).run cfg grow s).view id = .ok r'.commits ∧
      ((HCall.call (.commit id calm now)).run cfg grow s).fs.dir (cfg.path c.name) = some j ∧
      ((HCall.call (.commit id calm now)).run cfg grow s).fs.ino j = refData r' ++ rest := by
  obtain ⟨r', y, hu, hy, hlist, hpar⟩ := updateReference_relist hr hc hl
  have hcv : s.view.get id = some (c.relist (s.listed id)) := by rw [handed_view_get, hg]; rfl
  have hcok : CtxOK cfg u s0.fs c := hs0.ctxs _ (get_mem (by rw [← happ]; exact hg))
  have hends' : CopyEnds cfg (c.relist (s.listed id)) (s.fs.ino (c.relist (s.listed id)).conn.ino) := by
    rcases hends with h | h
    · exact absurd h hc
    · exact .inr h
  obtain ⟨w', j, he, E⟩ := updateDatabase_calm cfg (c.relist (s.listed id)) r' s.fs (by rw [hfs]; exact hs0.good) (hn.distinct hcok.name) hopen
    (by rw [hfs]; exact hcok.lt) (by rw [hfs]; exact hcok.dst_ne hn hcok.name _ (.inl rfl)) hends'
  have hcom : DB.commit cfg calm now s.fs s.view id =
      finish s.fs s.view id (c.relist (s.listed id)) r' (.ok (⟨j, 0, true⟩, (refData r').length), w') := by
    unfold DB.commit
    rw [hcv]
    simp only [hu]
    have : (⟨s.fs, (c.relist (s.listed id)).conn⟩ : World) = ⟨s.fs, c.conn⟩ := rfl
    rw [this] at he ⊢
    rw [he]
  have hrun : (HCall.call (.commit id calm now)).run cfg grow s =
      ⟨(Mem.push grow (s.base id).1 (s.base id).2 y).1, w'.fs,
        s.view.set id { c.relist (s.listed id) with conn := ⟨j, 0, true⟩, reference := some r', dataOffset := (refData r').length },
        upd s.lists id (some (Mem.push grow (s.base id).1 (s.base id).2 y).2)⟩ := by
    simp only [HCall.run]
    unfold Handed.commit
    rw [hcv]
    simp only [hy, hcom, finish]
  obtain ⟨p1, p2, _⟩ := Mem.push_spec grow (s.base id).1 (s.base id).2 y (base_valid hv id)
  have hlisted : ((HCall.call (.commit id calm now)).run cfg grow s).listed id = s.listed id ++ [y] := by
    rw [hrun]
    unfold Handed.listed
    simp only [upd_self]
    rw [p2, base_read]
    rfl
  refine ⟨y, r', j, _, by rw [hcom]; rfl, hlisted, hpar, hlist, ?_, by rw [hrun]; exact E.dir, by rw [hrun]; exact E.content⟩
  unfold commits
  rw [handed_view_get, hlisted, hrun]
  simp only [get_set_self, Option.map_some]
  unfold Ctx.relist
  simp only [Option.map_some]
  rw [← hlist]

end DB
end Rodkina
