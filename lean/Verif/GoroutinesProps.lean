import Verif.GoroutinesTurns
import Verif.DatabaseSample
/-!
# C130, C133: one application used by several goroutines
-/

namespace Rodkina
namespace Props

open DB Ref

/-- C130, what does hold: any number of goroutines that only ask (existence, content keys, commits, contents), in any order. The files
and the contexts do not change, a goroutine that has finished has received what it receives alone, and the process stops only if one of
the goroutines makes it stop alone (missing: goroutines that create, delete, open, write, cancel, commit or close). -/
theorem C130_reading_partial {α : Type} (cfg : Cfg) (m : Go.Mem) (hm : m.OK) (tasks : Nat → Session α) (hreads : ∀ g, (tasks g).Reads)
    (L : List Nat) :
    match (Go.System.start false cfg m tasks).run L with
    | none => ∃ g, ((tasks g).seq cfg m.shared.fs m.app).1 = none
    | some s => s.mem = m ∧ ∀ g v, s.threads g = .ret v → v = ((tasks g).seq cfg m.shared.fs m.app).1 := by
  have hshow : Go.Shows m m.shared.fs m.app := ⟨hm, rfl, .refl _⟩
  have halone : ∀ g, match ((tasks g).seq cfg m.shared.fs m.app).1 with
      | some v => ∃ m', Go.alone g ((tasks g).go false cfg) m = some (some v, m')
      | none => Go.alone g ((tasks g).go false cfg) m = none ∨ ∃ m', Go.alone g ((tasks g).go false cfg) m = some (none, m') :=
    fun g => Go.reads_alone g cfg (tasks g) (hreads g) m _ _ hshow
  have h := Go.quiet_run m (fun g => Go.alone g ((tasks g).go false cfg) m) L (Go.System.start false cfg m tasks) rfl
    fun g => ⟨Go.reads_quiet cfg _ (hreads g), rfl⟩
  cases hr : (Go.System.start false cfg m tasks).run L with
  | none =>
    rw [hr] at h
    obtain ⟨g, hg⟩ := h
    refine ⟨g, ?_⟩
    have := halone g
    cases hs : ((tasks g).seq cfg m.shared.fs m.app).1 with
    | none => rfl
    | some v =>
      rw [hs] at this
      obtain ⟨m', hm'⟩ := this
      rw [hg] at hm'
      cases hm'
  | some s =>
    rw [hr] at h
    refine ⟨h.1, fun g v hv => ?_⟩
    have h2 := (h.2 g).2
    rw [hv] at h2
    have := halone g
    cases hs : ((tasks g).seq cfg m.shared.fs m.app).1 with
    | none =>
      rw [hs] at this
      rcases this with h | ⟨m', h⟩
      · rw [h] at h2; cases h2
      · rw [h] at h2; cases h2; rfl
    | some w =>
      rw [hs] at this
      obtain ⟨m', h⟩ := this
      rw [h] at h2
      cases h2
      rfl

/-- C130, what does hold for one goroutine: whatever it calls, its accesses to memory and files one after the other do what the calls do
(missing: more than one). -/
theorem C130_alone_partial {α : Type} (cfg : Cfg) (N : Name → Prop) (hd : ∀ n, N n → cfg.Distinct n) (m : Go.Mem) (hm : m.OK)
    (hin : m.app.In N) (task : Session α) (huses : task.Uses N) (hsmall : task.Small cfg m.shared.fs m.app) (g : Nat) (v : α) (fs : FS)
    (hseq : task.seq cfg m.shared.fs m.app = (some v, fs)) :
    ∃ n s, (Go.System.start false cfg m fun _ => task).run (List.replicate n g) = some s ∧ s.threads g = .ret (some v) ∧
      s.mem.shared.fs = fs := by
  have h := Go.go_alone g cfg hd task m _ _ ⟨hm, rfl, .refl _⟩ huses hin hsmall
  rw [hseq] at h
  obtain ⟨m', a', h1, h2⟩ := h
  obtain ⟨n, s, q1, q2, q3⟩ := Go.alone_steps g (Go.unguarded cfg task) (Go.System.start false cfg m fun _ => task) rfl h1
  exact ⟨n, s, q1, q2, by rw [q3]; exact h2.fs⟩

/-- Two goroutines. -/
def twoTasks {α : Type} (x y : Session α) (d : α) : Nat → Session α := fun g => if g = 0 then x else if g = 1 then y else .done d

/-- A goroutine that writes one content. -/
def writeTask (id : Nat) (h data : Bytes) (kind : Nat) : Session (Option Bytes) := .write id h data kind fun ok => .done (if ok then some data else none)

/-- **C130 is false**: in every state in which two databases are open, a goroutine that writes to the one and a goroutine
that writes to the other can stop the process. -/
theorem C130_negation (cfg : Cfg) (m : Go.Mem) (hm : m.OK) (i j p q : Nat) (hi : m.at' i p) (hj : m.at' j q) (h h' data data' : Bytes)
    (hd : data ≠ []) (hd' : data' ≠ []) (kind kind' : Nat) :
    (Go.System.start false cfg m (twoTasks (writeTask i h data kind) (writeTask j h' data' kind') none)).run [0, 0, 0, 0, 1] = none := by
  unfold Go.Mem.at' at hi hj
  have e1 : contentNow h data kind = .ok ⟨h, data, kind⟩ := by simp [contentNow, hd]
  have e2 : contentNow h' data' kind' = .ok ⟨h', data', kind'⟩ := by simp [contentNow, hd']
  simp [Go.System.start, Go.System.run, Go.System.step, twoTasks, writeTask, Session.go, Go.call, Go.Prog.andThen, Go.Prog.bind, Go.writeProg,
    Go.exec, Go.Acc.ready, upd, hm.idle, hi, e1, e2]

/-- **C130 is false** also when one of them only reads: writing to one database and reading from another can stop the process. -/
theorem C130_reader (cfg : Cfg) (m : Go.Mem) (hm : m.OK) (i p : Nat) (hi : m.at' i p) (h data : Bytes) (hd : data ≠ []) (kind j : Nat)
    (x : Pointer) :
    (Go.System.start false cfg m (twoTasks (writeTask i h data kind) (.read j x fun r => .done r) none)).run [0, 0, 0, 0, 1] = none := by
  unfold Go.Mem.at' at hi
  have e1 : contentNow h data kind = .ok ⟨h, data, kind⟩ := by simp [contentNow, hd]
  simp [Go.System.start, Go.System.run, Go.System.step, twoTasks, writeTask, Session.go, Go.call, Go.Prog.andThen, Go.Prog.bind, Go.writeProg,
    Go.readProg, Go.exec, Go.Acc.ready, upd, hm.idle, hi, e1]

/-- **C130 is false**: two goroutines write to the same database; both calls succeed, and only one of the two contents is
pending. -/
theorem C130_lost (cfg : Cfg) (m : Go.Mem) (hm : m.OK) (i p : Nat) (hi : m.at' i p) (h h' data data' : Bytes)
    (hd : data ≠ []) (hd' : data' ≠ []) (kind kind' : Nat) :
    ∃ L s, (Go.System.start false cfg m (twoTasks (writeTask i h data kind) (writeTask i h' data' kind') none)).run L = some s ∧
      s.threads 0 = .ret (some (some data)) ∧ s.threads 1 = .ret (some (some data')) ∧
      s.mem.app.get i = some { m.heap p with contentList := (m.heap p).contentList ++ [⟨h', data', kind'⟩] } := by
  unfold Go.Mem.at' at hi
  have e1 : contentNow h data kind = .ok ⟨h, data, kind⟩ := by simp [contentNow, hd]
  have e2 : contentNow h' data' kind' = .ok ⟨h', data', kind'⟩ := by simp [contentNow, hd']
  refine ⟨[0, 0, 1, 1, 0, 0, 0, 1, 1, 1], _, by
    simp [Go.System.start, Go.System.run, Go.System.step, twoTasks, writeTask, Session.go, Go.call, Go.Prog.andThen, Go.Prog.bind,
      Go.writeProg, Go.exec, Go.Acc.ready, upd, hm.idle, hi, e1, e2]; rfl, ?_, ?_, ?_⟩
  · simp [upd]
  · simp [upd]
  · rw [Go.app_get]
    simp [upd]

/-- **C130 is false**: two goroutines open two different databases; both succeed with the same identifier, under which only one of the
databases is found. -/
theorem C130_same_identifier (cfg : Cfg) (m : Go.Mem) (hm : m.OK) (n n' : Name) (hnn : n ≠ n')
    (hn : ∀ e ∈ m.app, e.2.name ≠ n) (hn' : ∀ e ∈ m.app, e.2.name ≠ n') (he : m.shared.fs.file (cfg.path n) = some [])
    (he' : m.shared.fs.file (cfg.path n') = some []) :
    ∃ L s id c, (Go.System.start false cfg m (twoTasks (.open' n fun r => .done r) (.open' n' fun r => .done r) none)).run L = some s ∧
      s.threads 0 = .ret (some (some id)) ∧ s.threads 1 = .ret (some (some id)) ∧ s.mem.app.get id = some c ∧ c.name = n' ∧
      ∀ e ∈ s.mem.app, e.2.name ≠ n := by
  have a1 : (m.table.map (fun e => (m.heap e.2).name)).any (· == n) = false := by
    rw [List.any_eq_false]
    intro x hx
    obtain ⟨e, he, rfl⟩ := List.mem_map.mp hx
    simpa using hn (e.1, m.heap e.2) (List.mem_map.mpr ⟨e, he, rfl⟩)
  have a2 : (m.table.map (fun e => (m.heap e.2).name)).any (· == n') = false := by
    rw [List.any_eq_false]
    intro x hx
    obtain ⟨e, he, rfl⟩ := List.mem_map.mp hx
    simpa using hn' (e.1, m.heap e.2) (List.mem_map.mpr ⟨e, he, rfl⟩)
  obtain ⟨names, hnames⟩ : ∃ x, m.table.map (fun e => (m.heap e.2).name) = x := ⟨_, rfl⟩
  rw [hnames] at a1 a2
  unfold FS.file at he he'
  obtain ⟨i, hi, hi'⟩ := Option.map_eq_some_iff.mp he
  obtain ⟨j, hj, hj'⟩ := Option.map_eq_some_iff.mp he'
  have r1 : connRead m.shared.fs ⟨i, 0, true⟩ 8 0 = .err := by simp [connRead, hi', readAt]
  have r2 : connRead m.shared.fs ⟨j, 0, true⟩ 8 0 = .err := by simp [connRead, hj', readAt]
  let c : Ctx := ⟨n, ⟨i, 0, true⟩, none, 0, []⟩
  let c' : Ctx := ⟨n', ⟨j, 0, true⟩, none, 0, []⟩
  have hrun : (Go.System.start false cfg m (twoTasks (.open' n fun r => .done r) (.open' n' fun r => .done r) none)).run
      [0, 0, 0, 0, 0, 1, 1, 1, 1, 1, 0, 0, 0, 1, 1, 1] =
      some ⟨⟨upd (upd m.heap m.next c) (m.next + 1) c', m.next + 2, (m.table.length, m.next + 1) ::
        ((m.table.length, m.next) :: m.table.filter (fun e => !(e.1 == m.table.length))).filter (fun e => !(e.1 == m.table.length)), none,
        m.mutex, m.shared⟩,
        fun g => if g = 0 then .ret (some (some m.table.length)) else if g = 1 then .ret (some (some m.table.length)) else .ret (some none)⟩ := by
    simp only [Go.System.start, Go.System.run, Go.System.step, twoTasks, Session.go, Go.call, Go.Prog.andThen, Go.Prog.bind, Go.openProg,
      Go.openRest, Go.files, retrieveProg, Go.exec, DB.exec, Go.Acc.ready, upd, hm.idle, hi, hj, r1, r2, hnames, a1, a2,
      Option.isSome_none, Bool.false_eq_true, if_false, if_true, Nat.one_ne_zero, Nat.zero_ne_one, c, c']
    congr 2
    funext g
    by_cases h0 : g = 0
    · simp [h0, upd]
    · by_cases h1 : g = 1 <;> simp [h0, h1, upd, twoTasks, Session.go]
  refine ⟨_, _, m.table.length, c', hrun, rfl, rfl, ?_, rfl, ?_⟩
  · rw [Go.app_get]
    simp [upd_self]
  · intro e he
    obtain ⟨f, hf, rfl⟩ := List.mem_map.mp he
    simp only at hf ⊢
    rcases List.mem_cons.mp hf with hf | hf
    · subst hf
      simp only [upd_self]
      exact fun h => hnn h.symm
    · simp only [List.filter_cons, beq_self_eq_true, Bool.not_true, Bool.false_eq_true, if_false, List.filter_filter] at hf
      have hf := List.mem_of_mem_filter hf
      have hb := hm.below f hf
      rw [upd_ne _ _ (by omega), upd_ne _ _ (by omega)]
      exact hn (f.1, m.heap f.2) (List.mem_map.mpr ⟨f, hf, rfl⟩)

/-- C133: goroutines that lock a mutex around every call, in any order. The calls one after the other, in the order in which the
goroutines have unlocked the mutex, can all be made; a goroutine that has finished has received what it receives there; a goroutine in
a call that never returns is in one there; while nobody is in a call the files are those after these calls, and so are the open
databases; and when the process has stopped, the next call of some goroutine panics there. -/
theorem C133_turns {α : Type} (cfg : Cfg) (N : Name → Prop) (hd : ∀ n, N n → cfg.Distinct n) (m : Go.Mem) (hm : m.OK)
    (hfree : m.mutex = none) (hin : m.app.In N) (tasks : Nat → Session α) (huses : ∀ g, (tasks g).Uses N)
    (hsmall : ∀ order t, (Serial.mk m.shared.fs m.app tasks).run cfg order = .ok t → ∀ g, (t.tasks g).NextSmall cfg t.fs) (L : List Nat) :
    ∃ t, (Serial.mk m.shared.fs m.app tasks).run cfg ((Go.System.start true cfg m tasks).turns L) = .ok t ∧
      match (Go.System.start true cfg m tasks).run L with
      | none => ∃ g, t.step cfg g = .panic
      | some s =>
        (∀ g v, s.threads g = .ret (some v) → t.tasks g = .done v) ∧
        (∀ g, s.threads g = .ret none → t.step cfg g = .hang) ∧
        (s.mem.mutex = none → s.mem.shared.fs = t.fs ∧ s.mem.app.Perm t.app) := by
  obtain ⟨t, h1, _, h2⟩ := Go.turns_run hd L (Go.System.start true cfg m tasks) ⟨m.shared.fs, m.app, tasks⟩
    (.inl ⟨hfree, ⟨hm, rfl, .refl _⟩, fun g => rfl⟩) ⟨hin, huses, hsmall [] _ rfl⟩ hsmall
  refine ⟨t, h1, ?_⟩
  cases hr : (Go.System.start true cfg m tasks).run L with
  | none => rw [hr] at h2; exact h2
  | some s =>
    rw [hr] at h2
    rcases h2 with ⟨q1, q2, q3⟩ | ⟨h, hh⟩
    · refine ⟨fun g v hv => ?_, fun g hv => ?_, fun _ => ⟨q2.fs, q2.app⟩⟩
      · rw [q3 g] at hv
        obtain ⟨w, e1, e2⟩ := Go.go_ret hv
        cases e2
        exact e1
      · rw [q3 g] at hv
        obtain ⟨w, e1, e2⟩ := Go.go_ret hv
        cases e2
    · refine ⟨fun g v hv => ?_, fun g hv => ?_, fun e => by rw [hh.1] at e; cases e⟩
      · by_cases e : g = h
        · subst e
          have := hh.2.2.1
          rw [hv] at this
          cases this
        · rw [hh.2.1 g e] at hv
          obtain ⟨w, e1, e2⟩ := Go.go_ret hv
          cases e2
          exact e1
      · by_cases e : g = h
        · subst e
          rcases Go.held_step hh with ⟨h1, h2⟩ | ⟨h1, h2⟩ | ⟨s', h1, h2, h3, o, k, r, h4, h5⟩ | ⟨s', t', h1, h2, h3, h4⟩
          · simp only [Go.System.step, hv] at h1; cases h1
          · exact h2
          · rw [hv] at h4; cases h4
          · simp only [Go.System.releases, hv] at h2; cases h2
        · rw [hh.2.1 g e] at hv
          obtain ⟨w, e1, e2⟩ := Go.go_ret hv
          cases e2

/-- C133, progress: whatever has happened, every goroutine can still come to its end, unless a call panics or never returns. -/
theorem C133_progress {α : Type} (cfg : Cfg) (N : Name → Prop) (hd : ∀ n, N n → cfg.Distinct n) (m : Go.Mem) (hm : m.OK)
    (hfree : m.mutex = none) (hin : m.app.In N) (tasks : Nat → Session α) (huses : ∀ g, (tasks g).Uses N)
    (hsmall : ∀ order t, (Serial.mk m.shared.fs m.app tasks).run cfg order = .ok t → ∀ g, (t.tasks g).NextSmall cfg t.fs) (L : List Nat)
    (s : Go.System α) (hs : (Go.System.start true cfg m tasks).run L = some s) (g : Nat) :
    ∃ L', s.run L' = none ∨ ∃ s', s.run L' = some s' ∧ ((∃ v, s'.threads g = .ret (some v)) ∨ ∃ h, s'.threads h = .ret none) := by
  obtain ⟨t, h1, hf, h2⟩ := Go.turns_run hd L (Go.System.start true cfg m tasks) ⟨m.shared.fs, m.app, tasks⟩
    (.inl ⟨hfree, ⟨hm, rfl, .refl _⟩, fun g => rfl⟩) ⟨hin, huses, hsmall [] _ rfl⟩ hsmall
  rw [hs] at h2
  have hsm : ∀ order t', t.run cfg order = .ok t' → ∀ q, (t'.tasks q).NextSmall cfg t'.fs := fun order t' ht =>
    hsmall _ t' (Go.serial_append h1 ht)
  rcases h2 with h2 | ⟨h, h2⟩
  · exact Go.turns_progress hd g _ s t rfl h2 hf hsm
  · obtain ⟨n, hn⟩ := Go.held_release _ s t rfl h2
    rcases hn with hn | ⟨s2, hn, hr | ⟨t', ht, hfree⟩⟩
    · exact ⟨_, .inl hn⟩
    · exact ⟨_, .inr ⟨s2, hn, .inr ⟨h, hr⟩⟩⟩
    · have hsm' : ∀ order t'', t'.run cfg order = .ok t'' → ∀ q, (t''.tasks q).NextSmall cfg t''.fs := fun order t'' hr =>
        hsm (h :: order) t'' (by simp only [Serial.run, ht]; exact hr)
      obtain ⟨L', hL'⟩ := Go.turns_progress hd g _ s2 t' rfl hfree (Go.step_fine hf ht (hsm' [] t' rfl)) hsm'
      refine ⟨List.replicate n h ++ L', ?_⟩
      rw [Go.run_append, hn]
      exact hL'

/-- C133: the calls of one program, one after the other, are the program of the sequential model. -/
theorem C133_serial {α : Type} (cfg : Cfg) (fs : FS) (a : App) (tasks : Nat → Session α) (g : Nat) (v : α) (fs' : FS) :
    (tasks g).seq cfg fs a = (some v, fs') ↔
    ∃ n t, (Serial.mk fs a tasks).run cfg (List.replicate n g) = .ok t ∧ t.tasks g = .done v ∧ t.fs = fs' := by
  constructor
  · intro h
    exact Go.serial_seq cfg g (tasks g) v fs' ⟨fs, a, tasks⟩ rfl h
  · rintro ⟨n, t, h1, h2, h3⟩
    have := Go.serial_replicate cfg g n ⟨fs, a, tasks⟩ t h1
    rw [h2] at this
    exact this.trans (by rw [← h3]; rfl)

/-- Two open databases, "a" and "b"; the databases "c" and "d" exist as well. -/
def memAB : Go.Mem :=
  ⟨fun p => if p = 0 then ⟨['a'], ⟨0, 0, true⟩, none, 0, []⟩ else ⟨['b'], ⟨1, 0, true⟩, none, 0, []⟩, 2, [(0, 0), (1, 1)], none, none,
    ⟨((fs0.create ['a']).create ['b']).create ['c'] |>.create ['d'], fun _ => none⟩⟩

/-- The hypotheses of the theorems on C130: two open databases, of which two goroutines read; others, that can be opened. -/
example (S : Sha) (x : Pointer) : let cfg := sampleCfg S 4
    let tasks (g : Nat) : Session (Option Bytes) := .read g x fun r => .exists' ['c'] fun _ => .done r
    memAB.OK ∧ (∀ g, (tasks g).Reads) ∧ memAB.at' 0 0 ∧ memAB.at' 1 1 ∧
    (∀ e ∈ memAB.app, e.2.name ≠ ['c']) ∧ (∀ e ∈ memAB.app, e.2.name ≠ ['d']) ∧
    memAB.shared.fs.file (cfg.path ['c']) = some [] ∧ memAB.shared.fs.file (cfg.path ['d']) = some [] := by
  refine ⟨⟨by decide, by decide, by decide, rfl, rfl⟩, fun g r r' => trivial, rfl, rfl, ?_, ?_, rfl, rfl⟩
  · intro e he
    simp only [memAB, Go.Mem.app, List.map_cons, List.map_nil, List.mem_cons, List.not_mem_nil, or_false] at he
    rcases he with rfl | rfl <;> simp
  · intro e he
    simp only [memAB, Go.Mem.app, List.map_cons, List.map_nil, List.mem_cons, List.not_mem_nil, or_false] at he
    rcases he with rfl | rfl <;> simp

theorem memAB_in : memAB.app.In (fun n => '.' ∉ n) := by
  intro e he
  simp only [memAB, Go.Mem.app, List.map_cons, List.map_nil, List.mem_cons, List.not_mem_nil, or_false] at he
  rcases he with rfl | rfl <;> simp

/-- The hypotheses of `C130_alone_partial`: a goroutine that writes, opens another database and closes. -/
example (S : Sha) : let cfg := sampleCfg S 4
    let N : Name → Prop := fun n => '.' ∉ n
    let task : Session Bool := .write 0 contentX.hash contentX.data 3 fun ok => .open' ['c'] fun _ => .close 0 fun ok' => .done (ok && ok')
    (∀ n, N n → cfg.Distinct n) ∧ memAB.app.In N ∧ task.Uses N ∧ task.Small cfg memAB.shared.fs memAB.app ∧
    task.seq cfg memAB.shared.fs memAB.app = (some true, memAB.shared.fs) := by
  refine ⟨fun n hn => (sampleNames S 4 True).distinct hn, memAB_in, ?_, ?_, rfl⟩
  · intro r
    exact ⟨by simp, fun r r' => trivial⟩
  · exact ⟨fun b hb => by cases hb; decide, trivial⟩

/-- The hypotheses of the theorems on C133: two goroutines that write to the same database, one of them commits as well. -/
example (S : Sha) : let cfg := sampleCfg S 4
    let N : Name → Prop := fun n => '.' ∉ n
    let tasks : Nat → Session (Option Bytes) := twoTasks (writeTask 0 contentX.hash contentX.data 3)
      (.write 0 contentY.hash contentY.data 3 fun _ => .commit 0 5 fun ok => .done (if ok then some [] else none)) none
    memAB.OK ∧ memAB.mutex = none ∧ (∀ n, N n → cfg.Distinct n) ∧ memAB.app.In N ∧ (∀ g, (tasks g).Uses N) ∧
    (∀ order t, (Serial.mk memAB.shared.fs memAB.app tasks).run cfg order = .ok t → ∀ g, (t.tasks g).NextSmall cfg t.fs) := by
  intro cfg N tasks
  have hcases : ∀ P : Session (Option Bytes) → Prop, P (tasks 0) → P (tasks 1) → P (.done none) → ∀ g, P (tasks g) := by
    intro P h0 h1 h2 g
    by_cases e0 : g = 0
    · subst e0; exact h0
    · by_cases e1 : g = 1
      · subst e1; exact h1
      · have : tasks g = .done none := by simp only [tasks, twoTasks, e0, e1, if_false]
        rw [this]; exact h2
  refine ⟨⟨by decide, by decide, by decide, rfl, rfl⟩, rfl, fun n hn => (sampleNames S 4 True).distinct hn, memAB_in, ?_, ?_⟩
  · exact hcases (·.Uses N) (fun _ => trivial) (fun _ _ => trivial) trivial
  · intro order t h
    exact Go.noOpen_small cfg order _ t (hcases (·.NoOpen) (fun _ => trivial) (fun _ _ => trivial) trivial) h

/-- The schedule that stops the process without the mutex does not stop it with the mutex; and when both have finished, both contents
are pending. -/
example (cfg : Cfg) : let tasks := twoTasks (writeTask 0 contentX.hash contentX.data 3) (writeTask 0 contentY.hash contentY.data 4) none
    ((Go.System.start true cfg memAB tasks).run [0, 0, 0, 0, 0, 1]).isSome ∧
    ∃ s, (Go.System.start true cfg memAB tasks).run [0, 0, 1, 0, 0, 0, 1, 0, 0, 1, 1, 1, 1, 1, 1, 1] = some s ∧
      s.threads 0 = .ret (some (some contentX.data)) ∧ s.threads 1 = .ret (some (some contentY.data)) ∧
      s.mem.app.get 0 = some ⟨['a'], ⟨0, 0, true⟩, none, 0, [⟨contentX.hash, contentX.data, 3⟩, ⟨contentY.hash, contentY.data, 4⟩]⟩ :=
  ⟨rfl, _, rfl, rfl, rfl, rfl⟩

end Props
end Rodkina
