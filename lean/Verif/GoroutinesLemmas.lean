import Verif.GoroutinesSpec
import Verif.SessionsAlone
/-!
# Goroutines: calls made alone
-/

namespace Rodkina
namespace DB
namespace Go

open Ref

set_option linter.unusedVariables false

/-- Run a program alone. -/
def alone {α : Type} (g : Nat) : Prog α → Mem → Option (α × Mem)
  | .ret a, m => some (a, m)
  | .op o k, m =>
    match exec g o m with
    | none => none
    | some (r, m') => alone g (k r) m'

theorem alone_bind {α β : Type} (g : Nat) (x : Prog α) (f : α → Prog β) (m : Mem) :
    alone g (x.bind f) m = (alone g x m).bind (fun y => alone g (f y.1) y.2) := by
  induction x generalizing m with
  | ret a => rfl
  | op o k ih =>
    simp only [Prog.bind, alone]
    cases exec g o m with
    | none => rfl
    | some y => exact ih _ _

theorem alone_files {α : Type} (g : Nat) (x : DB.Prog α) (m : Mem) :
    alone g (files x) m = some ((DB.alone g x m.shared).1, { m with shared := (DB.alone g x m.shared).2 }) := by
  induction x generalizing m with
  | ret a => rfl
  | op o k ih => exact ih _ _

/-! ## The contexts in memory and the contexts of the sequential model, in any order -/

theorem app_get (m : Mem) (id : Nat) : m.app.get id = ((m.table.find? (fun e => e.1 == id)).map (·.2)).map m.heap := by
  unfold Mem.app App.get
  rw [List.find?_map, Option.map_map, Option.map_map]
  rfl

theorem get_perm {a b : App} (h : a.Perm b) (hk : (a.map (·.1)).Nodup) (id : Nat) : a.get id = b.get id := by
  induction h with
  | nil => rfl
  | cons x _ ih =>
    have := ih (List.nodup_cons.mp hk).2
    unfold App.get at this ⊢
    simp only [List.find?_cons]
    split
    · rfl
    · exact this
  | swap x y l =>
    unfold App.get
    simp only [List.map_cons, List.nodup_cons, List.mem_cons, not_or] at hk
    simp only [List.find?_cons]
    cases hx : x.1 == id with
    | false => rfl
    | true =>
      cases hy : y.1 == id with
      | false => rfl
      | true =>
        simp only [beq_iff_eq] at hx hy
        exact absurd (hy.trans hx.symm) hk.1.1
  | trans h1 h2 ih1 ih2 => exact (ih1 hk).trans (ih2 ((h1.map _).nodup_iff.mp hk))

theorem set_perm {a b : App} (h : a.Perm b) (id : Nat) (c : Ctx) : (a.set id c).Perm (b.set id c) := (h.filter _).cons _

/-- The memory shows these files and contexts. -/
structure Shows (m : Mem) (fs : FS) (a : App) : Prop where
  ok : m.OK
  fs : m.shared.fs = fs
  app : m.app.Perm a

theorem app_keys (m : Mem) : m.app.map (·.1) = m.table.map (·.1) := by
  unfold Mem.app
  rw [List.map_map]
  rfl

theorem Shows.get {m : Mem} {fs : FS} {a : App} (h : Shows m fs a) (id : Nat) :
    ((m.table.find? (fun e => e.1 == id)).map (·.2)).map m.heap = a.get id := by
  rw [← app_get]
  exact get_perm h.app (by rw [app_keys]; exact h.ok.keys) id

theorem Shows.shared {m : Mem} {fs : FS} {a : App} (h : Shows m fs a) : m.shared = ⟨fs, fun _ => none⟩ := by
  obtain ⟨h1, h2, _⟩ := h
  have := h1.unlocked
  cases hs : m.shared
  rw [hs] at h2 this
  simp only at h2 this
  rw [h2, this]

/-- The context with this identifier is at this address. -/
def Mem.at' (m : Mem) (id p : Nat) : Prop := (m.table.find? (fun e => e.1 == id)).map (·.2) = some p

theorem Mem.at'.mem {m : Mem} {id p : Nat} (h : m.at' id p) : (id, p) ∈ m.table := by
  obtain ⟨f, hf, hf'⟩ := Option.map_eq_some_iff.mp h
  have h1 := List.mem_of_find?_eq_some hf
  have h2 := List.find?_some hf
  simp only [beq_iff_eq] at h2
  rwa [show f = (id, p) from Prod.ext h2 hf'] at h1

/-- The other identifiers are at other addresses. -/
theorem other_pointers {m : Mem} (hm : (m.table.map (·.2)).Nodup) {id p : Nat} (h : m.at' id p) :
    ∀ e ∈ m.table.filter (fun e => !(e.1 == id)), e.2 ≠ p := by
  intro e he hp
  obtain ⟨he, hid⟩ := List.mem_filter.mp he
  have : e = (id, p) := List.inj_on_of_nodup_map hm he h.mem hp
  subst this
  simp at hid

theorem app_upd {heap : Nat → Ctx} {p : Nat} {c : Ctx} (L : List (Nat × Nat)) (h : ∀ e ∈ L, e.2 ≠ p) :
    L.map (fun e => (e.1, upd heap p c e.2)) = L.map (fun e => (e.1, heap e.2)) := by
  refine List.map_congr_left fun e he => ?_
  rw [upd_ne _ _ (h e he)]

theorem app_filter (m : Mem) (id : Nat) : (m.table.filter (fun e => !(e.1 == id))).map (fun e => (e.1, m.heap e.2)) =
    m.app.filter (fun e => !(e.1 == id)) := by
  unfold Mem.app
  rw [List.filter_map]
  rfl

theorem perm_front {L : List (Nat × Nat)} (hk : (L.map (·.1)).Nodup) {id p : Nat} (h : (id, p) ∈ L) :
    L.Perm ((id, p) :: L.filter (fun e => !(e.1 == id))) := by
  induction L with
  | nil => cases h
  | cons x L ih =>
    simp only [List.map_cons, List.nodup_cons] at hk
    rcases List.mem_cons.mp h with h | h
    · subst h
      have : L.filter (fun e => !(e.1 == id)) = L := by
        rw [List.filter_eq_self]
        intro e he
        simp only [Bool.not_eq_true', beq_eq_false_iff_ne]
        exact fun hh => hk.1 (List.mem_map.mpr ⟨e, he, hh⟩)
      simp [this]
    · have hx : x.1 ≠ id := fun hh => hk.1 (List.mem_map.mpr ⟨_, h, hh.symm⟩)
      rw [List.filter_cons_of_pos (by simp [hx])]
      exact ((ih hk.2 h).cons x).trans (List.Perm.swap _ _ _)

/-- Changing a context and assigning it to the map again. -/
theorem Shows.store {m : Mem} {fs : FS} {a : App} (h : Shows m fs a) {id p : Nat} (hp : m.at' id p) (c : Ctx) (mu : Option Nat) :
    Shows ⟨upd m.heap p c, m.next, (id, p) :: m.table.filter (fun e => !(e.1 == id)), none, mu, m.shared⟩ fs (a.set id c) := by
  obtain ⟨hm, hf, ha⟩ := h
  have hne := other_pointers hm.pointers hp
  refine ⟨⟨?_, ?_, ?_, rfl, hm.unlocked⟩, hf, ?_⟩
  · simp only [List.map_cons, List.nodup_cons]
    refine ⟨fun hh => ?_, hm.pointers.sublist (List.Sublist.map _ List.filter_sublist)⟩
    obtain ⟨e, he, hep⟩ := List.mem_map.mp hh
    exact hne e he hep
  · simp only [List.map_cons, List.nodup_cons]
    refine ⟨fun hh => ?_, hm.keys.sublist (List.Sublist.map _ List.filter_sublist)⟩
    obtain ⟨e, he, hep⟩ := List.mem_map.mp hh
    have := (List.mem_filter.mp he).2
    simp [hep] at this
  · intro e he
    rcases List.mem_cons.mp he with he | he
    · subst he; exact hm.below _ hp.mem
    · exact hm.below e (List.mem_of_mem_filter he)
  · refine List.Perm.trans (l₂ := m.app.set id c) ?_ (set_perm ha _ _)
    unfold App.set
    rw [← app_filter]
    unfold Mem.app
    simp only [List.map_cons, upd_self]
    rw [app_upd _ hne]

/-- Changing a context where it is. -/
theorem Shows.change {m : Mem} {fs : FS} {a : App} (h : Shows m fs a) {id p : Nat} (hp : m.at' id p) (c : Ctx) (fs' : FS) (mu : Option Nat) :
    Shows ⟨upd m.heap p c, m.next, m.table, m.writer, mu, ⟨fs', fun _ => none⟩⟩ fs' (a.set id c) := by
  have h' := h.store hp c mu
  obtain ⟨hm, hf, ha⟩ := h
  refine ⟨⟨hm.pointers, hm.keys, hm.below, hm.idle, rfl⟩, rfl, List.Perm.trans ?_ h'.app⟩
  unfold Mem.app
  exact (perm_front hm.keys hp.mem).map _

theorem Shows.delete {m : Mem} {fs : FS} {a : App} (h : Shows m fs a) {id p : Nat} (hp : m.at' id p) (c : Ctx) (mu : Option Nat) :
    Shows ⟨upd m.heap p c, m.next, m.table.filter (fun e => !(e.1 == id)), none, mu, m.shared⟩ fs (a.delete id) := by
  obtain ⟨hm, hf, ha⟩ := h
  refine ⟨⟨hm.pointers.sublist (List.Sublist.map _ List.filter_sublist), hm.keys.sublist (List.Sublist.map _ List.filter_sublist),
    fun e he => hm.below e (List.mem_of_mem_filter he), rfl, hm.unlocked⟩, hf, ?_⟩
  refine List.Perm.trans (l₂ := m.app.delete id) ?_ (ha.filter _)
  unfold App.delete
  rw [← app_filter]
  unfold Mem.app
  simp only
  rw [app_upd _ (other_pointers hm.pointers hp)]

theorem Shows.insert {m : Mem} {fs : FS} {a : App} (h : Shows m fs a) (c : Ctx) (mu : Option Nat) :
    Shows ⟨upd m.heap m.next c, m.next + 1, (m.table.length, m.next) :: m.table.filter (fun e => !(e.1 == m.table.length)), none, mu, m.shared⟩
      fs (a.set a.length c) := by
  obtain ⟨hm, hf, ha⟩ := h
  have hne : ∀ e ∈ m.table.filter (fun e => !(e.1 == m.table.length)), e.2 ≠ m.next := fun e he hp => by
    have := hm.below e (List.mem_of_mem_filter he)
    omega
  have hl : a.length = m.table.length := by rw [← ha.length_eq]; simp [Mem.app]
  rw [hl]
  refine ⟨⟨?_, ?_, ?_, rfl, hm.unlocked⟩, hf, ?_⟩
  · simp only [List.map_cons, List.nodup_cons]
    refine ⟨fun hh => ?_, hm.pointers.sublist (List.Sublist.map _ List.filter_sublist)⟩
    obtain ⟨e, he, hep⟩ := List.mem_map.mp hh
    exact hne e he hep
  · simp only [List.map_cons, List.nodup_cons]
    refine ⟨fun hh => ?_, hm.keys.sublist (List.Sublist.map _ List.filter_sublist)⟩
    obtain ⟨e, he, hep⟩ := List.mem_map.mp hh
    have := (List.mem_filter.mp he).2
    simp [hep] at this
  · intro e he
    rcases List.mem_cons.mp he with he | he
    · subst he; simp
    · have := hm.below e (List.mem_of_mem_filter he)
      simp only; omega
  · refine List.Perm.trans (l₂ := m.app.set m.table.length c) ?_ (set_perm ha _ _)
    unfold App.set
    rw [← app_filter]
    unfold Mem.app
    simp only [List.map_cons, upd_self]
    rw [app_upd _ hne]

/-! ## Committing -/

/-- The handle is closed. -/
def closed (c : Ctx) : Ctx := { c with conn := { c.conn with isOpen := false } }

theorem body_alone (g : Nat) (cfg : Cfg) (p : Nat) (c : Ctx) (r : Reference) (m : Mem) (hp : m.heap p = c) :
    ∃ h, (h = m.heap ∨ h = upd m.heap p (closed c)) ∧
      alone g (bodyProg cfg p c r) m = some ((DB.alone g (DB.bodyProg cfg c r) m.shared).1,
        { m with heap := h, shared := (DB.alone g (DB.bodyProg cfg c r) m.shared).2 }) := by
  unfold bodyProg DB.bodyProg Prog.next DB.Prog.next
  rw [alone_bind, alone_files, DB.alone_bind]
  simp only [Option.bind_some]
  obtain ⟨⟨o, s1⟩, hx⟩ : ∃ y, DB.alone g (destinationProg cfg c r) m.shared = y := ⟨_, rfl⟩
  rw [hx]
  cases o with
  | err => exact ⟨_, .inl rfl, rfl⟩
  | panic => exact ⟨_, .inl rfl, rfl⟩
  | crash => exact ⟨_, .inl rfl, rfl⟩
  | hang => exact ⟨_, .inl rfl, rfl⟩
  | ok off =>
    simp only
    rw [alone_bind, alone_files, DB.alone_bind]
    simp only [Option.bind_some]
    obtain ⟨⟨o, s2⟩, hx⟩ : ∃ y, DB.alone g (backupProg cfg c) s1 = y := ⟨_, rfl⟩
    rw [hx]
    cases o with
    | err => exact ⟨_, .inl rfl, rfl⟩
    | panic => exact ⟨_, .inl rfl, rfl⟩
    | crash => exact ⟨_, .inl rfl, rfl⟩
    | hang => exact ⟨_, .inl rfl, rfl⟩
    | ok off =>
      refine ⟨_, .inr rfl, ?_⟩
      simp only [alone, exec, hp]
      by_cases ho : c.conn.isOpen
      · simp only [ho, if_true]
        rw [alone_bind, alone_files, DB.alone_bind]
        simp only [Option.bind_some]
        obtain ⟨⟨o, s3⟩, hx⟩ : ∃ y, DB.alone g (swapProg cfg c) s2 = y := ⟨_, rfl⟩
        rw [hx]
        cases o <;> rfl
      · simp only [ho]
        simp only [Bool.not_eq_true] at ho
        simp only [swapProg, ho]
        rfl

end Go
end DB
end Rodkina
