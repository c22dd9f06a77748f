import Verif.GoroutinesProps
import Verif.GoroutinesApart2
/-!
# C130: goroutines that commit different databases
-/

namespace Rodkina
namespace Props

open DB Ref

/-- C130, what does hold: any number of goroutines share an application; each asks, creates, deletes and commits databases of its own,
those it has open are open already. In every interleaving of their accesses to memory and files: a goroutine that has finished has
received what it receives when its calls are executed one after the other and no other goroutine exists, and the files of its databases
are what they are then; the process stops only if one of the goroutines makes it stop alone; and whenever a goroutine gets turns again
and again it comes to its end (missing: goroutines that open, write, cancel or close). -/
theorem C130_commits_partial {α : Type} (cfg : Cfg) (I : Nat → Nat → Prop) (N : Nat → Name → Prop) (m : Go.Mem) (hm : m.OK)
    (hg : FsGood m.shared.fs) (tasks : Nat → Session α) (hstays : ∀ g, (tasks g).Stays (I g) (N g))
    (hopen : ∀ g id c, I g id → m.app.get id = some c → N g c.name ∧ m.shared.fs.dir (cfg.path c.name) = some c.conn.ino)
    (hapart : ∀ g g' x, cfg.Owns (N g) x → cfg.Owns (N g') x → g = g') (hdistinct : ∀ g n, N g n → cfg.Distinct n)
    (hin : m.app.In cfg.Distinct) :
    (∀ L, match (Go.System.start false cfg m tasks).run L with
      | none => ∃ g, ((tasks g).seq cfg m.shared.fs m.app).1 = none
      | some s => ∀ g v, s.threads g = .ret v → v = ((tasks g).seq cfg m.shared.fs m.app).1 ∧
          (v.isSome → ∀ x, cfg.Owns (N g) x → s.mem.shared.fs.file x = ((tasks g).seq cfg m.shared.fs m.app).2.file x)) ∧
    ∀ g (turns : Nat → Nat), (∀ n, ∃ k, n ≤ k ∧ turns k = g) →
      ∃ n, match (Go.System.start false cfg m tasks).run ((List.range n).map turns) with
        | none => True
        | some s => ∃ v, s.threads g = .ret v := by
  have hmine : ∀ g g' p, Go.Mine m.table (I g) p → Go.Mine m.table (I g') p → g = g' := by
    rintro g g' p ⟨id, h1, h2⟩ ⟨id', h3, h4⟩
    have e : ∀ id, Go.at? m.table id = some p → m.app.get id = some (m.heap p) := by
      intro id h
      rw [Go.app_get]
      show Option.map m.heap (Go.at? m.table id) = _
      rw [h]
      rfl
    exact hapart _ _ _ ⟨_, (hopen g id _ h1 (e id h2)).1, .inl rfl⟩ ⟨_, (hopen g' id' _ h3 (e id' h4)).1, .inl rfl⟩
  have hkept : Go.Kept m.table I (Go.System.start false cfg m tasks) := ⟨rfl, hm.idle, fun g => Go.stays_own cfg _ (hstays g)⟩
  have hpar := Go.parallel_goroutines cfg I N m hm hg tasks hstays hopen hapart
  have hseq : ∀ g, (DB.alone g (((Go.System.start false cfg m tasks).files m.table).threads g)
      ((Go.System.start false cfg m tasks).files m.table).shared).1 = ((tasks g).seq cfg m.shared.fs m.app).1 ∧
      (((tasks g).seq cfg m.shared.fs m.app).1.isSome →
        (DB.alone g (((Go.System.start false cfg m tasks).files m.table).threads g)
          ((Go.System.start false cfg m tasks).files m.table).shared).2.fs = ((tasks g).seq cfg m.shared.fs m.app).2) := by
    intro g
    have h1 := Go.go_alone g cfg (N := cfg.Distinct) (fun n hn => hn) (tasks g) m _ _ ⟨hm, rfl, .refl _⟩
      (Go.stays_uses (hdistinct g) _ (hstays g)) hin (Go.stays_small cfg _ (hstays g) _ _)
    have h2 := Go.erased_alone g (Go.stays_own (T := m.table) cfg _ (hstays g)) (m := m) rfl hm.idle
    show (DB.alone g (Go.erased m.table ((tasks g).go false cfg) m.heap) m.shared).1 = _ ∧
      (_ → (DB.alone g (Go.erased m.table ((tasks g).go false cfg) m.heap) m.shared).2.fs = _)
    cases hs : ((tasks g).seq cfg m.shared.fs m.app).1 with
    | some v =>
      rw [hs] at h1
      obtain ⟨m', a', h3, h4⟩ := h1
      rw [h3] at h2
      simp only at h2
      rw [h2]
      exact ⟨rfl, fun _ => h4.fs⟩
    | none =>
      rw [hs] at h1
      refine ⟨?_, fun h => by cases h⟩
      rcases h1 with h3 | ⟨m', h3⟩
      · rw [h3] at h2; exact h2
      · rw [h3] at h2
        simp only at h2
        rw [h2]
  constructor
  · intro L
    have h := Go.kept_run hmine L hkept
    cases hr : (Go.System.start false cfg m tasks).run L with
    | none =>
      rw [hr] at h
      obtain ⟨L', g, h⟩ := h
      have := (Go.parallel_done hapart hpar g L' none h).1
      exact ⟨g, by rw [← (hseq g).1, ← this]⟩
    | some s =>
      rw [hr] at h
      obtain ⟨hk, L', hL⟩ := h
      intro g v hv
      have hret : (((Go.System.start false cfg m tasks).files m.table).run L').threads g = .ret v := by
        rw [← hL]
        show Go.erased m.table (s.threads g) s.mem.heap = _
        rw [hv]
        rfl
      obtain ⟨h1, h2⟩ := Go.parallel_done hapart hpar g L' v hret
      rw [(hseq g).1] at h1
      refine ⟨h1, fun hsome x hx => ?_⟩
      rw [← (hseq g).2 (h1 ▸ hsome), ← h2 x hx, ← hL]
      rfl
  · intro g turns hturns
    exact Go.fair_end g _ (Go.unguarded cfg (tasks g)) _ turns rfl hturns

/-- C130, two goroutines that commit the same database: while one of them holds the lock, a `Commit` of the other fails and changes
neither the files nor the contexts. -/
theorem C130_busy_partial (cfg : Cfg) (m : Go.Mem) (hm : m.OK) (locks : Nat → Option Nat) (id p i q g : Nat) (hid : m.at' id p)
    (hi : m.shared.fs.dir (cfg.path (m.heap p).name) = some i) (hq : locks i = some q) (now : Int)
    (hr : updateReference cfg (m.heap p) now ≠ .panic) :
    Go.alone g ((Session.commit id now fun ok => .done ok).go false cfg) { m with shared := ⟨m.shared.fs, locks⟩ } =
      some (some false, { m with shared := ⟨m.shared.fs, locks⟩ }) := by
  unfold Go.Mem.at' at hid
  simp only [Session.go, Go.call, Go.commitProg, Bool.false_eq_true, if_false, Go.Prog.andThen, Go.Prog.bind, Go.alone, Go.exec, hm.idle, hid,
    Option.isSome_none]
  cases he : updateReference cfg (m.heap p) now with
  | panic => exact absurd he hr
  | err => simp only [Go.Prog.bind, Go.alone]
  | ok r =>
    simp only [Go.Prog.bind, Go.alone, Go.exec, hid, Option.isSome_none, Bool.false_eq_true, if_false, DB.exec, FS.touch, hi,
      Option.getD_some, hq]

/-- Two open databases, "a" and "b", each with a pending content. -/
def memPending : Go.Mem :=
  ⟨fun p => if p = 0 then ⟨['a'], ⟨0, 0, true⟩, none, 0, [contentX]⟩ else ⟨['b'], ⟨1, 0, true⟩, none, 0, [contentY]⟩, 2,
    [(0, 0), (1, 1)], none, none, ⟨(fs0.create ['a']).create ['b'], fun _ => none⟩⟩

/-- The hypotheses of `C130_commits_partial`: two goroutines commit the two databases at the same time. -/
example (S : Sha) : let cfg := sampleCfg S 4
    let I : Nat → Nat → Prop := fun g id => g = id
    let N : Nat → Name → Prop := fun g n => (g = 0 ∧ n = ['a']) ∨ (g = 1 ∧ n = ['b'])
    let tasks : Nat → Session (Res ContentKeys) := fun g => if g ≤ 1 then .commit g 5 fun _ => .keys g fun r => .done r else .done .err
    memPending.OK ∧ FsGood memPending.shared.fs ∧ (∀ g, (tasks g).Stays (I g) (N g)) ∧
    (∀ g id c, I g id → memPending.app.get id = some c →
      N g c.name ∧ memPending.shared.fs.dir (cfg.path c.name) = some c.conn.ino) ∧
    (∀ g g' x, cfg.Owns (N g) x → cfg.Owns (N g') x → g = g') ∧ (∀ g n, N g n → cfg.Distinct n) ∧
    memPending.app.In cfg.Distinct := by
  intro cfg I N tasks
  have hget : ∀ id c, memPending.app.get id = some c →
      (id = 0 ∧ c = ⟨['a'], ⟨0, 0, true⟩, none, 0, [contentX]⟩) ∨ (id = 1 ∧ c = ⟨['b'], ⟨1, 0, true⟩, none, 0, [contentY]⟩) := by
    intro id c h
    rcases id with _ | _ | id
    · exact .inl ⟨rfl, (Option.some.inj h).symm⟩
    · exact .inr ⟨rfl, (Option.some.inj h).symm⟩
    · have e : memPending.app.get (id + 1 + 1) = none := by simp [memPending, Go.Mem.app, App.get]
      rw [e] at h
      cases h
  have hd : ∀ n, '.' ∉ n → cfg.Distinct n := fun n hn => (sampleNames S 4 True).distinct hn
  have hdN : ∀ g n, N g n → cfg.Distinct n := by
    rintro g n (⟨_, rfl⟩ | ⟨_, rfl⟩) <;> exact hd _ (by simp)
  have hdir : ∀ p i, memPending.shared.fs.dir p = some i → (p = ['a'] ∧ i = 0) ∨ (p = ['b'] ∧ i = 1) := by
    intro p i h
    have e : memPending.shared.fs.dir p = if p = ['b'] then some 1 else if p = ['a'] then some 0 else none := rfl
    rw [e] at h
    split at h
    · next hp => exact .inr ⟨hp, (Option.some.inj h).symm⟩
    · split at h
      · next hp => exact .inl ⟨hp, (Option.some.inj h).symm⟩
      · cases h
  refine ⟨⟨by decide, by decide, by decide, rfl, rfl⟩, ⟨?_, ?_⟩, ?_, ?_, ?_, hdN, ?_⟩
  · intro p i h
    rcases hdir p i h with ⟨_, rfl⟩ | ⟨_, rfl⟩ <;> decide
  · intro p q i h h'
    rcases hdir p i h with ⟨rfl, rfl⟩ | ⟨rfl, rfl⟩ <;> rcases hdir q _ h' with ⟨rfl, e⟩ | ⟨rfl, e⟩ <;> first | rfl | cases e
  · intro g
    by_cases h : g ≤ 1
    · simp only [tasks, h, if_true]
      exact ⟨rfl, fun _ => ⟨rfl, fun _ => trivial⟩⟩
    · simp only [tasks, h, if_false]
      trivial
  · rintro g id c rfl h
    rcases hget _ _ h with ⟨rfl, rfl⟩ | ⟨rfl, rfl⟩
    · exact ⟨.inl ⟨rfl, rfl⟩, rfl⟩
    · exact ⟨.inr ⟨rfl, rfl⟩, rfl⟩
  · rintro g g' x ⟨n, hn, hx⟩ ⟨n', hn', hx'⟩
    rcases hn with ⟨rfl, rfl⟩ | ⟨rfl, rfl⟩ <;> rcases hn' with ⟨rfl, rfl⟩ | ⟨rfl, rfl⟩
    · rfl
    · rcases hx with rfl | rfl | rfl <;> simp [cfg, sampleCfg, Cfg.dst, Cfg.bck] at hx'
    · rcases hx with rfl | rfl | rfl <;> simp [cfg, sampleCfg, Cfg.dst, Cfg.bck] at hx'
    · rfl
  · intro e he
    simp only [memPending, Go.Mem.app, List.map_cons, List.map_nil, List.mem_cons, List.not_mem_nil, or_false] at he
    rcases he with rfl | rfl <;> exact hd _ (by simp)

/-- The hypotheses of `C130_busy_partial`: the file of "a" is locked by another goroutine. -/
example (S : Sha) : let cfg := sampleCfg S 4
    memPending.OK ∧ memPending.at' 0 0 ∧ memPending.shared.fs.dir (cfg.path (memPending.heap 0).name) = some 0 ∧
    upd (fun _ => none) 0 (some 1) 0 = some 1 ∧ updateReference cfg (memPending.heap 0) 5 ≠ .panic := by
  refine ⟨⟨by decide, by decide, by decide, rfl, rfl⟩, rfl, rfl, rfl, ?_⟩
  obtain ⟨t, r, h, _⟩ := updateReference_ok (sampleCfg S 4) (memPending.heap 0) 5 (by simp [memPending])
    (by intro x hx; simp only [memPending, List.mem_singleton, if_true] at hx; subst hx; exact ⟨by decide, by decide, by decide⟩) (by intro r hr; cases hr) (by decide)
  rw [h]
  intro h
  cases h

end Props
end Rodkina
