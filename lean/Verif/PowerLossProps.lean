import Verif.PowerLoss
import Verif.SnapshotOps
import Verif.DatabaseProps2
import Verif.SessionsAlone
import Verif.ConcurrentProps
/-! Property theorems for the file database, C139: power losses. -/

namespace Rodkina
namespace DB

open Ref

theorem run_append (s : System) (a b : List Nat) : s.run (a ++ b) = (s.run a).run b := List.foldl_append ..

theorem moments_split (schedule : List Nat) : ∀ (s : System) (early late : List FS) (f : FS),
    s.moments schedule = early ++ f :: late →
    ∃ a b, schedule = a ++ b ∧ f = (s.run a).shared.fs ∧ f :: late = (s.run a).moments b := by
  induction schedule with
  | nil =>
    intro s early late f h
    cases early with
    | nil =>
      simp only [System.moments, List.nil_append, List.cons.injEq] at h
      obtain ⟨rfl, rfl⟩ := h
      exact ⟨[], [], rfl, rfl, rfl⟩
    | cons e es => simp [System.moments] at h
  | cons p ps ih =>
    intro s early late f h
    cases early with
    | nil => exact ⟨[], p :: ps, rfl, by simp [System.moments] at h; exact h.1.symm, h.symm⟩
    | cons e es =>
      simp only [System.moments, List.cons_append, List.cons.injEq] at h
      obtain ⟨a, b, h1, h2, h3⟩ := ih _ _ _ _ h.2
      exact ⟨p :: a, b, by rw [h1]; rfl, h2, h3⟩

theorem mem_moments {schedule : List Nat} {s : System} {f : FS} : f ∈ s.moments schedule ↔
    ∃ a b, schedule = a ++ b ∧ f = (s.run a).shared.fs := by
  constructor
  · intro h
    obtain ⟨early, late, e⟩ := List.append_of_mem h
    obtain ⟨a, b, h1, h2, _⟩ := moments_split _ _ _ _ _ e
    exact ⟨a, b, h1, h2⟩
  · rintro ⟨a, b, rfl, rfl⟩
    induction a generalizing s with
    | nil => cases b <;> exact List.mem_cons_self
    | cons p ps ih => exact List.mem_cons_of_mem _ (ih (s := s.step p))

theorem moments_head (s : System) (schedule : List Nat) : ∃ l, s.moments schedule = s.shared.fs :: l := by
  cases schedule <;> exact ⟨_, rfl⟩

/-- A process running alone, as a schedule. -/
theorem run_alone (pid : Nat) (x : Prog Unit) : ∀ (s : System), s.threads pid = x →
    ∃ m, (s.run (List.replicate m pid)).shared = (alone pid x s.shared).2 := by
  induction x with
  | ret a => exact fun s _ => ⟨0, rfl⟩
  | op o k ih =>
    intro s h
    have e : s.step pid = ⟨(exec pid o s.shared).2, upd s.threads pid (k (exec pid o s.shared).1)⟩ := by
      unfold System.step
      rw [h]
    obtain ⟨m, hm⟩ := ih (exec pid o s.shared).1 (s.step pid) (by rw [e]; simp [upd])
    refine ⟨m + 1, ?_⟩
    rw [List.replicate_succ]
    show ((s.step pid).run _).shared = _
    rw [hm, e]
    rfl

/-- For the proofs: a path the operation (libs/databases/infrastructure/files/application.go:503-697) does not name. -/
def Op.Avoids (p : Name) : Op → Prop
  | .lockOpen q => p ≠ q
  | .create q => p ≠ q
  | .remove q => p ≠ q
  | .rename q r => p ≠ q ∧ p ≠ r
  | _ => True

/-- For the proofs: a path the program (libs/databases/infrastructure/files/application.go:503-697) does not name. -/
def Prog.Avoids {α : Type} (p : Name) : Prog α → Prop
  | .ret _ => True
  | .op o k => o.Avoids p ∧ ∀ r, (k r).Avoids p

theorem Prog.Avoids.bind {α β : Type} {p : Name} {x : Prog α} {f : α → Prog β} (h : x.Avoids p) (hf : ∀ a, (f a).Avoids p) :
    (x.bind f).Avoids p := by
  induction x with
  | ret a => exact hf a
  | op o k ih => exact ⟨h.1, fun r => ih r (h.2 r)⟩

theorem Prog.Avoids.next {α β : Type} {p : Name} {x : Prog (Out α)} {f : α → Prog (Out β)} (h : x.Avoids p) (hf : ∀ a, (f a).Avoids p) :
    (x.next f).Avoids p := by
  refine h.bind ?_
  intro o
  cases o with
  | ok a => exact hf a
  | _ => trivial

section
variable {p : Name}

theorem copyProg_avoids (chunk : Nat) (conn : Conn) (d : Nat) : ∀ fuel ro wo, (copyProg chunk conn d fuel ro wo).Avoids p
  | 0, _, _ => trivial
  | fuel + 1, ro, wo => by
    refine ⟨trivial, fun r => ?_⟩
    cases r with
    | ok b => exact ⟨trivial, fun _ => copyProg_avoids chunk conn d fuel _ _⟩
    | _ => trivial

theorem size_avoids (b : Bool) (i : Nat) (G : Nat → Prog (Out Nat)) (h : ∀ n, (G n).Avoids p) :
    (if b then Prog.op (.size i) G else .ret .panic).Avoids p := by
  cases b with
  | true => exact ⟨trivial, h⟩
  | false => trivial

theorem copyOldProg_avoids (cfg : Cfg) (c : Ctx) (d wo : Nat) : (copyOldProg cfg c d wo).Avoids p := by
  unfold copyOldProg
  cases c.reference with
  | none => trivial
  | some r => exact size_avoids _ _ _ fun n => copyProg_avoids _ _ d _ _ _

theorem contentsProg_avoids (d : Nat) : ∀ (xs : List Content) wo, (contentsProg d wo xs).Avoids p
  | [], _ => trivial
  | _ :: xs, _ => ⟨trivial, fun _ => contentsProg_avoids d xs _⟩

theorem commitProg_avoids (cfg : Cfg) (c : Ctx) (r : Reference) (h1 : p ≠ cfg.path c.name) (h2 : p ≠ cfg.dst c.name)
    (h3 : p ≠ cfg.bck c.name) : (commitProg cfg c r).Avoids p := by
  refine ⟨h1, fun i => ⟨trivial, fun got => ?_⟩⟩
  dsimp only
  cases got with
  | false => trivial
  | true =>
    refine Prog.Avoids.bind (Prog.Avoids.next ?_ fun off => Prog.Avoids.next ?_ fun _ => Prog.Avoids.next ?_ fun _ => trivial) ?_
    · refine ⟨h2, fun d => ⟨trivial, fun _ => ?_⟩⟩
      exact Prog.Avoids.next (copyOldProg_avoids cfg c _ _) fun wo =>
        Prog.Avoids.next (contentsProg_avoids _ _ _) fun _ => trivial
    · refine ⟨h3, fun b => ?_⟩
      dsimp only
      cases c.conn.isOpen with
      | true => exact ⟨trivial, fun _ => ⟨trivial, fun _ => trivial⟩⟩
      | false => trivial
    · unfold swapProg
      cases c.conn.isOpen with
      | false => trivial
      | true =>
        refine ⟨h1, fun ok => ?_⟩
        dsimp only
        cases ok with
        | false => trivial
        | true =>
          refine ⟨⟨h2, h1⟩, fun ok => ?_⟩
          dsimp only
          cases ok with
          | false => trivial
          | true =>
            refine ⟨h3, fun ok => ?_⟩
            dsimp only
            cases ok with
            | false => trivial
            | true =>
              refine ⟨trivial, fun i => ?_⟩
              cases i <;> trivial
    · intro o
      cases o with
      | hang => trivial
      | _ => exact ⟨trivial, fun _ => trivial⟩

theorem client_avoids (cfg : Cfg) {n : Name} (h1 : p ≠ cfg.path n) (h2 : p ≠ cfg.dst n) (h3 : p ≠ cfg.bck n) (cl : Client)
    (h : cl.On n) : (cl.prog cfg).Avoids p := by
  induction cl with
  | done => trivial
  | commit c r k ih =>
    obtain ⟨rfl, h⟩ := h
    rw [Client.prog]
    refine (commitProg_avoids cfg c r h1 h2 h3).bind ?_
    intro o
    cases o with
    | hang => trivial
    | _ => exact ih _ (h _)

theorem exec_avoids (pid : Nat) (o : Op) (k : o.Resp → Prog Unit) (h : (Prog.op o k).Avoids p) (s : Shared) :
    (exec pid o s).2.fs.dir p = s.fs.dir p := by
  have h := h.1
  cases o with
  | lockOpen q =>
    show (s.fs.touch q).dir p = _
    unfold FS.touch
    split
    · rfl
    · exact create_dir_ne _ h
  | flock i =>
    simp only [exec]
    split <;> rfl
  | create q => exact create_dir_ne _ h
  | remove q =>
    simp only [exec]
    split
    · exact upd_ne _ _ h
    · rfl
  | rename q r =>
    simp only [exec]
    split
    · exact (upd_ne _ _ h.1).trans (upd_ne _ _ h.2)
    · rfl
  | _ => rfl

theorem avoids_run (schedule : List Nat) : ∀ (s : System), (∀ q, (s.threads q).Avoids p) →
    (s.run schedule).shared.fs.dir p = s.shared.fs.dir p := by
  induction schedule with
  | nil => exact fun _ _ => rfl
  | cons q qs ih =>
    intro s h
    show ((s.step q).run qs).shared.fs.dir p = _
    have hq := h q
    unfold System.step
    cases ht : s.threads q with
    | ret a => exact ih s h
    | op o k =>
      dsimp only
      rw [ht] at hq
      rw [ih _ ?_]
      · exact exec_avoids q o k hq s.shared
      · intro x
        dsimp only
        by_cases hx : x = q
        · subst hx
          simp only [upd, if_true]
          exact hq.2 _
        · rw [upd_ne _ _ hx]
          exact h x

end

/-- The files of any moment, just as they are then, are something a power loss can leave. -/
theorem loss_at_moment (s : System) (a b : List Nat) : OrderedLoss (s.moments (a ++ b)) (s.run a).shared.fs := by
  induction a generalizing s with
  | nil =>
    obtain ⟨l, hl⟩ := moments_head s b
    exact ⟨[], _, l, hl, rfl, fun i x h => h _ List.mem_cons_self⟩
  | cons p ps ih =>
    obtain ⟨early, f, late, h1, h2⟩ := ih (s.step p)
    exact ⟨s.shared.fs :: early, f, late, by rw [List.cons_append, List.cons_append, System.moments, h1], h2⟩

/-- A disk that orders what it writes is a disk. -/
theorem OrderedLoss.loss {past : List FS} {after : FS} (h : OrderedLoss past after) : PowerLoss past after := by
  obtain ⟨early, f, late, rfl, h1, h2⟩ := h
  exact ⟨f, by simp, h1, fun i b hb => h2 i b fun g hg => hb g (List.mem_append_right _ hg)⟩

theorem plain_noLock (o : Op) (h : o.plain = true) : Props.noLock o = true := by
  cases o <;> first | rfl | cases h

/-- One process commits once, the others do nothing. -/
def oneCommit (c : Ctx) (r : Reference) : Nat → Client := fun p => if p = 0 then .commit c r (fun _ => .done) else .done

theorem step_op {s : System} {p : Nat} {o : Op} {k : o.Resp → Prog Unit} (h : s.threads p = .op o k) :
    s.step p = ⟨(exec p o s.shared).2, upd s.threads p (k (exec p o s.shared).1)⟩ := by
  unfold System.step
  rw [h]

/-- A commit alone, as a schedule: after three operations there is an empty temporary file, in the end the files are those the
commit leaves. -/
theorem oneCommit_run (cfg : Cfg) (c : Ctx) (r : Reference) (fs : FS) (h : (fs.dir (cfg.path c.name)).isSome) (o : Conn × Nat) (w : World)
    (hrun : (updateDatabaseOnFile cfg calm c r).run ⟨fs, c.conn⟩ = (.ok o, w)) :
    ((System.start cfg fs (oneCommit c r)).run [0, 0, 0]).shared.fs = fs.create (cfg.dst c.name) ∧
    ∃ m, ((System.start cfg fs (oneCommit c r)).run ([0, 0, 0] ++ List.replicate m 0)).shared.fs = w.fs := by
  generalize hs : System.start cfg fs (oneCommit c r) = s
  have h0 : s.threads 0 = (Client.commit c r (fun _ => .done)).prog cfg := by subst hs; rfl
  have hsh : s.shared = ⟨fs, fun _ => none⟩ := by subst hs; rfl
  rw [prog_commit] at h0
  have e1 := step_op h0
  rw [hsh] at e1
  simp only [exec] at e1
  generalize hi : ((fs.touch (cfg.path c.name)).dir (cfg.path c.name)).getD 0 = i at e1
  rw [touch_exists fs _ h] at e1
  have t1 : (s.step 0).threads 0 = .op (.flock i) (fun (got : Bool) =>
        (if got then (bodyProg cfg c r).bind (unlockProg i) else .ret .err).bind (andThen cfg fun _ => .done)) := by
    rw [e1]; exact upd_self s.threads 0 _
  have e2 := step_op t1
  rw [show (s.step 0).shared = ⟨fs, fun _ => none⟩ by rw [e1]] at e2
  simp only [exec] at e2
  have t2 : ((s.step 0).step 0).threads 0 = ((bodyProg cfg c r).bind (unlockProg i)).bind (andThen cfg fun _ => .done) := by
    rw [e2]; simp [upd_self]
  have hbody : ∃ k : Nat → Prog Unit, ((bodyProg cfg c r).bind (unlockProg i)).bind (andThen cfg fun _ => .done) =
      .op (.create (cfg.dst c.name)) k := ⟨_, rfl⟩
  obtain ⟨k, hk⟩ := hbody
  have e3 := step_op (t2.trans hk)
  have sh2 : ((s.step 0).step 0).shared = ⟨fs, upd (fun _ => none) i (some 0)⟩ := by rw [e2]
  rw [sh2] at e3
  constructor
  · show (((s.step 0).step 0).step 0).shared.fs = _
    rw [e3]
    rfl
  · obtain ⟨m, hm⟩ := run_alone 0 _ (((s.step 0).step 0).step 0) rfl
    refine ⟨m, ?_⟩
    rw [run_append]
    show ((((s.step 0).step 0).step 0).run _).shared.fs = _
    rw [hm]
    have ea : alone 0 ((((s.step 0).step 0).step 0).threads 0) (((s.step 0).step 0).step 0).shared =
        alone 0 (((bodyProg cfg c r).bind (unlockProg i)).bind (andThen cfg fun _ => .done)) ⟨fs, upd (fun _ => none) i (some 0)⟩ := by
      rw [hk, e3]
      simp only [upd_self]
      rfl
    rw [ea, alone_bind, alone_bind]
    obtain ⟨q1, q2⟩ := update_alone (cfg := cfg) (c := c) rfl r h 0 (upd (fun _ => none) i (some 0))
    rw [hrun] at q1 q2
    rcases hx : alone 0 (bodyProg cfg c r) ⟨fs, upd (fun _ => none) i (some 0)⟩ with ⟨x, y⟩
    rw [hx] at q1 q2
    simp only at q1 q2
    subst q1
    exact q2

/-- A commit alone is not disturbed. -/
theorem oneCommit_undisturbed (cfg : Cfg) (c : Ctx) (r : Reference) (fs : FS) (h : (fs.dir (cfg.path c.name)).isSome) (m : Nat) :
    Undisturbed (cfg.path c.name) (System.start cfg fs (oneCommit c r)) ([0, 0] ++ List.replicate m 0) := by
  generalize hs : System.start cfg fs (oneCommit c r) = s
  have h0 : s.threads 0 = (Client.commit c r (fun _ => .done)).prog cfg := by subst hs; rfl
  have hsh : s.shared = ⟨fs, fun _ => none⟩ := by subst hs; rfl
  rw [prog_commit] at h0
  have e1 := step_op h0
  rw [hsh] at e1
  simp only [exec] at e1
  generalize hi : ((fs.touch (cfg.path c.name)).dir (cfg.path c.name)).getD 0 = i at e1
  rw [touch_exists fs _ h] at e1 hi
  have t1 : (s.step 0).threads 0 = .op (.flock i) (fun (got : Bool) =>
        (if got then (bodyProg cfg c r).bind (unlockProg i) else .ret .err).bind (andThen cfg fun _ => .done)) := by
    rw [e1]; exact upd_self s.threads 0 _
  have e2 := step_op t1
  rw [show (s.step 0).shared = ⟨fs, fun _ => none⟩ by rw [e1]] at e2
  simp only [exec] at e2
  have t2 : ((s.step 0).step 0).threads 0 = ((bodyProg cfg c r).bind (unlockProg i)).bind (andThen cfg fun _ => .done) := by
    rw [e2]; simp [upd_self]
  refine ⟨?_, ?_, ?_⟩
  · unfold Undisturbing
    rw [h0]
    intro j q hq
    rw [hsh] at hq
    cases hq
  · unfold Undisturbing
    rw [t1]
    refine ⟨?_, ?_⟩
    · intro j q hq
      rw [e1] at hq
      cases hq
    · rw [e1]
      dsimp only
      rw [← hi]
      cases hx : fs.dir (cfg.path c.name) with
      | none => rw [hx] at h; cases h
      | some i => rfl
  · refine Props.undisturbed_noLock _ _ _ _ ?_
    show (((s.step 0).step 0).threads 0).All _
    rw [t2]
    refine Prog.All.bind (Prog.All.bind ((bodyProg_plain cfg c r).mono plain_noLock) ?_) ?_
    · intro o
      cases o with
      | hang => trivial
      | _ => exact ⟨rfl, fun _ => trivial⟩
    · intro o
      cases o <;> trivial

/-- While there is no database file, a process is about to give the temporary file its name. -/
theorem explained_gone {cfg : Cfg} {n : Name} (h1 : cfg.path n ≠ cfg.dst n) (h2 : cfg.path n ≠ cfg.bck n)
    (h3 : cfg.dst n ≠ cfg.bck n) {start : FS × (Nat → Client)} {s : System} {fs : FS} {cl : Nat → Client}
    (h : Explained cfg n start s fs cl) (g : FsGood fs) (hs : s.shared.fs.dir (cfg.path n) = none) :
    ∃ p i c r k kq j, Busy cfg n fs cl s p i c r k (.op (.rename (cfg.dst n) (cfg.path n)) kq) ∧
      s.shared.fs.dir (cfg.dst n) = some j := by
  rcases h.now with hd | ⟨p, i, c, r, k, q, hb⟩
  · rw [hd.fs] at hs
    have := h.src
    rw [hs] at this
    cases this
  · obtain ⟨D, b, hu⟩ := hb.under g h3
    have hn := on_name h.on hb.client
    have hend := body_src p cfg c r ⟨fs, s.shared.locks⟩ (by rw [hn]; exact h1) (by rw [hn]; exact h2) (by rw [hn]; exact h.src)
    rw [hn, ← hb.rest] at hend
    cases b with
    | true =>
      have := hu.after rfl
      rw [hs] at this
      cases this
    | false =>
      rcases hu.gone h.src rfl hs with rfl | ⟨kq, rfl, hk⟩
      · have hend : (s.shared.fs.dir (cfg.path n)).isSome := hend
        rw [hs] at hend
        cases hend
      · cases hj : s.shared.fs.dir (cfg.dst n) with
        | some j => exact ⟨p, i, c, r, k, kq, j, hb, rfl⟩
        | none =>
          have e : exec p (.rename (cfg.dst n) (cfg.path n)) s.shared = (false, s.shared) := by simp [exec, hj]
          rw [alone, e] at hend
          dsimp only at hend
          rw [hk] at hend
          have hend : (s.shared.fs.dir (cfg.path n)).isSome := hend
          rw [hs] at hend
          cases hend

/-- What the temporary file then holds is what the database holds after the commit. -/
theorem gone_file {cfg : Cfg} {n : Name} (h1 : cfg.path n ≠ cfg.dst n) (h2 : cfg.path n ≠ cfg.bck n)
    (h3 : cfg.dst n ≠ cfg.bck n) {start : FS × (Nat → Client)} {s : System} {fs : FS} {cl : Nat → Client}
    (h : Explained cfg n start s fs cl) (g : FsGood fs) (hs : s.shared.fs.dir (cfg.path n) = none) :
    ∃ fs' cl', AtomicSteps cfg start (fs', cl') ∧ s.shared.fs.file (cfg.dst n) = fs'.file (cfg.path n) := by
  obtain ⟨p, i, c, r, k, kq, j, hb, hj⟩ := explained_gone h1 h2 h3 h g hs
  obtain ⟨D, b, hu⟩ := hb.under g h3
  have hu' := (under_step h1 h2 h3 p _ kq s.shared D b hu).1
  have e : exec p (.rename (cfg.dst n) (cfg.path n)) s.shared =
      (true, { s.shared with fs := s.shared.fs.rename (cfg.dst n) (cfg.path n) }) := by simp [exec, hj]
  rw [e] at hu'
  have hren : (Op.rename (cfg.dst n) (cfg.path n)).renamed true b = true := by cases b <;> rfl
  have hu' := hu'.fine
  rw [hren] at hu'
  obtain ⟨ho, hfile⟩ := under_rest h2 p (kq true) { s.shared with fs := s.shared.fs.rename (cfg.dst n) (cfg.path n) } _ hu'
  have hn := on_name h.on hb.client
  obtain ⟨e1, e2⟩ := update_alone hn r h.src p s.shared.locks
  rw [← hb.rest, alone, e] at e1 e2
  obtain ⟨⟨o, w⟩, hx⟩ : ∃ y, (updateDatabaseOnFile cfg calm c r).run ⟨fs, c.conn⟩ = y := ⟨_, rfl⟩
  rw [hx] at e1 e2
  refine ⟨w.fs, upd cl p (k o), .tail _ _ _ h.steps (.commit fs cl p c r k o w hb.client hx (by
    rw [show o = _ from e1.symm]; exact ho)), ?_⟩
  rw [show w.fs = _ from e2.symm]
  refine Eq.trans ?_ hfile.symm
  simp [FS.file, FS.rename, upd, h1, hj]

/-- And it stays as it is from then on. -/
theorem gone_run {cfg : Cfg} {n : Name} (h1 : cfg.path n ≠ cfg.dst n) (h2 : cfg.path n ≠ cfg.bck n)
    (h3 : cfg.dst n ≠ cfg.bck n) {start : FS × (Nat → Client)} (hsrc : (start.1.dir (cfg.path n)).isSome)
    (hon : ∀ p, (start.2 p).On n) (g : FsGood start.1) (schedule : List Nat) : ∀ {s : System} {fs : FS} {cl : Nat → Client},
    Explained cfg n start s fs cl → Undisturbed (cfg.path n) s schedule → s.shared.fs.dir (cfg.path n) = none →
    ∀ i, s.shared.fs.dir (cfg.dst n) = some i → (s.run schedule).shared.fs.ino i = s.shared.fs.ino i := by
  induction schedule with
  | nil => intro s fs cl _ _ _ i _; rfl
  | cons q qs ih =>
    intro s fs cl h hu hs i hi
    have gfs := (atomic_good h1 h2 h3 h.steps hsrc hon g).1
    obtain ⟨p, i0, c, r, k, kq, j, hb, hj⟩ := explained_gone h1 h2 h3 h gfs hs
    obtain ⟨fs', cl', h'⟩ := explained_step h1 h2 h q hu.1
    have nolock : ¬ LocksCurrent (cfg.path n) s := by
      intro hl
      have := hl i0 p ((hb.locks i0 p).2 ⟨rfl, rfl⟩)
      rw [hs] at this
      cases this
    show ((s.step q).run qs).shared.fs.ino i = _
    by_cases hq : q = p
    · subst hq
      have e : s.step q = ⟨{ s.shared with fs := s.shared.fs.rename (cfg.dst n) (cfg.path n) },
          upd s.threads q (((kq true).bind (unlockProg i0)).bind (andThen cfg k))⟩ := by
        rw [System.step, hb.thread]
        simp [Prog.bind, exec, hj]
      have hd : (s.step q).shared.fs.dir (cfg.path n) = some i := by
        rw [e]
        simp [FS.rename, upd, h1, hi]
      have hset := settled_run h1 h2 h3 hsrc hon g qs h' hu.2 i
        (settled_src h1 h2 (explained_good h3 h' (atomic_good h1 h2 h3 h'.steps hsrc hon g).1) hd)
      rw [hset, e]
      rfl
    · have hu1 := hu.1
      unfold Undisturbing at hu1
      rcases notStarted_cases _ _ _ (hb.others q hq) with ⟨_, ht⟩ | ⟨c', r', k', hc', ht⟩ | ⟨c', r', k', i', hc', ht⟩
      · have e : s.step q = s := by rw [System.step, ht]
        rw [e] at h' ⊢
        exact ih h' (by rw [← e]; exact hu.2) hs i hi
      · rw [hc', prog_commit] at ht
        rw [ht] at hu1
        exact absurd hu1 nolock
      · rw [ht] at hu1
        exact absurd hu1.1 nolock

/-- A commit to a database that holds a content. -/
theorem sample_commit (S : Sha) : ∃ (s : State) (c : Ctx) (r : Reference), let cfg := sampleCfg S 10
    updateReference cfg c 9 = .ok r ∧ FsGood s.fs ∧ (s.fs.dir (cfg.path c.name)).isSome ∧ (∀ p, (oneCommit c r p).On c.name) ∧
    cfg.path c.name ≠ cfg.dst c.name ∧ cfg.path c.name ≠ cfg.bck c.name ∧ cfg.dst c.name ≠ cfg.bck c.name := by
  obtain ⟨s, c, h⟩ := sample_ready S 10 False
  have hn := sampleNames S 10 False
  obtain ⟨t, r, hr, hu, htouch, hfile, hne, hends, hdata, hlen⟩ := Props.ready_facts h (by decide) (by decide)
  have hinv := h.reachable.inv hn
  have hc : CtxOK (sampleCfg S 10) (sampleUsage False) s.fs c := hinv.ctxs _ (get_mem h.get)
  refine ⟨s, c, r, hr, hinv.good, ?_, ?_, ?_, ?_, ?_⟩
  · unfold FS.file at hfile
    cases e : s.fs.dir ((sampleCfg S 10).path c.name) with
    | none => rw [e] at hfile; cases hfile
    | some i => rfl
  · intro p
    unfold oneCommit
    split
    · exact ⟨rfl, fun _ => trivial⟩
    · trivial
  · rw [h.name]; simp [sampleCfg, Cfg.dst]
  · rw [h.name]; simp [sampleCfg, Cfg.bck]
  · rw [h.name]; simp [sampleCfg, Cfg.dst, Cfg.bck]

end DB

namespace Props
open DB Ref

/-- C139, what does hold: any number of processes commit to a database any number of times, in any interleaving in which no lock is
attempted on a file that has been replaced or removed, and the power is lost at any moment, in the middle of a commit or not. If names
reach the disk only after what was written before, then afterwards the database file is as it is after a whole number of commits, done
one after the other; or it is missing, and then the temporary file is there and is as the database is after a whole number of commits,
so giving it the name of the database repairs everything (missing from the full claim: other disks; that the database is there under
its own name; that it includes the commits which had reported success). -/
theorem C139_whole_commits_partial (cfg : Cfg) (n : Name) (h1 : cfg.path n ≠ cfg.dst n) (h2 : cfg.path n ≠ cfg.bck n)
    (h3 : cfg.dst n ≠ cfg.bck n) (fs : FS) (hg : FsGood fs) (hfs : (fs.dir (cfg.path n)).isSome) (cs : Nat → Client)
    (hcs : ∀ p, (cs p).On n) (schedule : List Nat) (hu : Undisturbed (cfg.path n) (System.start cfg fs cs) schedule) (after : FS)
    (hl : OrderedLoss ((System.start cfg fs cs).moments schedule) after) :
    ∃ fs' cl', AtomicSteps cfg (fs, cs) (fs', cl') ∧ (fs'.file (cfg.path n)).isSome ∧
      (after.file (cfg.path n) = fs'.file (cfg.path n) ∨
        after.file (cfg.path n) = none ∧ after.file (cfg.dst n) = fs'.file (cfg.path n)) := by
  suffices h : ∃ fs' cl', AtomicSteps cfg (fs, cs) (fs', cl') ∧ (after.file (cfg.path n) = fs'.file (cfg.path n) ∨
        after.file (cfg.path n) = none ∧ after.file (cfg.dst n) = fs'.file (cfg.path n)) by
    obtain ⟨fs', cl', q1, q2⟩ := h
    exact ⟨fs', cl', q1, by simp [FS.file, (atomic_good h1 h2 h3 q1 hfs hcs hg).2.1], q2⟩
  obtain ⟨early, f, late, hp, hd, hi⟩ := hl
  obtain ⟨a, b, rfl, hf, hb⟩ := moments_split _ _ _ _ _ hp
  obtain ⟨hu1, hu2⟩ := (undisturbed_append _ a b _).1 hu
  obtain ⟨f1, c1, e1⟩ := explained_run h1 h2 a (explained_start hfs hcs) hu1
  have g1 := (atomic_good h1 h2 h3 e1.steps hfs hcs hg).1
  have G1 := explained_good h3 e1 g1
  have same : after.file (cfg.path n) = f.file (cfg.path n) := by
    refine file_same (by rw [hd]) ?_
    intro i hdi
    refine hi i _ ?_
    intro g hg
    rw [hb] at hg
    obtain ⟨x, y, rfl, rfl⟩ := mem_moments.mp hg
    rw [hf] at hdi ⊢
    exact settled_run h1 h2 h3 hfs hcs ‹FsGood fs› x e1 ((undisturbed_append _ x y _).1 hu2).1 i (settled_src h1 h2 G1 hdi)
  rw [same]
  cases hx : f.dir (cfg.path n) with
  | none =>
    rw [hf] at hx
    obtain ⟨fs', cl', q1, q2⟩ := gone_file h1 h2 h3 e1 g1 hx
    refine ⟨fs', cl', q1, .inr ⟨by unfold FS.file; rw [hf, hx]; rfl, ?_⟩⟩
    rw [← q2, ← hf]
    refine file_same (by rw [hd]) ?_
    intro i hdi
    refine hi i _ ?_
    intro g hg
    rw [hb] at hg
    obtain ⟨x, y, rfl, rfl⟩ := mem_moments.mp hg
    rw [hf] at hdi ⊢
    exact gone_run h1 h2 h3 hfs hcs ‹FsGood fs› x e1 ((undisturbed_append _ x y _).1 hu2).1 hx i hdi
  | some i =>
    obtain ⟨fs', cl', q1, q2, _⟩ := explained_file h1 h2 h3 e1 g1 (by rw [← hf, hx]; rfl)
    exact ⟨fs', cl', q1, .inl (by rw [q2, hf])⟩

/-- A commit to a database that holds a content; the power is lost after any number of its operations, all of which reached the disk,
or none of which did. -/
example (S : Sha) : ∃ (s : State) (c : Ctx) (r : Reference), let cfg := sampleCfg S 10
    cfg.path c.name ≠ cfg.dst c.name ∧ cfg.path c.name ≠ cfg.bck c.name ∧ cfg.dst c.name ≠ cfg.bck c.name ∧
    FsGood s.fs ∧ (s.fs.dir (cfg.path c.name)).isSome ∧ (∀ p, (oneCommit c r p).On c.name) ∧
    ∀ m, Undisturbed (cfg.path c.name) (System.start cfg s.fs (oneCommit c r)) ([0, 0] ++ List.replicate m 0) ∧
      OrderedLoss ((System.start cfg s.fs (oneCommit c r)).moments ([0, 0] ++ List.replicate m 0))
        ((System.start cfg s.fs (oneCommit c r)).run ([0, 0] ++ List.replicate m 0)).shared.fs ∧
      OrderedLoss ((System.start cfg s.fs (oneCommit c r)).moments ([0, 0] ++ List.replicate m 0)) s.fs := by
  obtain ⟨s, c, r, _, h1, h2, h3, h4, h5, h6⟩ := sample_commit S
  refine ⟨s, c, r, h4, h5, h6, h1, h2, h3, fun m => ⟨oneCommit_undisturbed _ c r s.fs h2 m, ?_, ?_⟩⟩
  · have := loss_at_moment (System.start (sampleCfg S 10) s.fs (oneCommit c r)) ([0, 0] ++ List.replicate m 0) []
    rw [List.append_nil] at this
    exact this
  · exact (loss_at_moment (System.start (sampleCfg S 10) s.fs (oneCommit c r)) [] ([0, 0] ++ List.replicate m 0))

/-- C139, what does hold on any disk: in the same interleavings, files other than the database, its temporary and its backup file (so
all other databases) are as they were; and if the name of the database still stands for the file it stood for, this file is as it was. -/
theorem C139_untouched_partial (cfg : Cfg) (n : Name) (h1 : cfg.path n ≠ cfg.dst n) (h2 : cfg.path n ≠ cfg.bck n)
    (h3 : cfg.dst n ≠ cfg.bck n) (fs : FS) (hg : FsGood fs) (hfs : (fs.dir (cfg.path n)).isSome) (cs : Nat → Client)
    (hcs : ∀ p, (cs p).On n) (schedule : List Nat) (hu : Undisturbed (cfg.path n) (System.start cfg fs cs) schedule) (after : FS)
    (hl : PowerLoss ((System.start cfg fs cs).moments schedule) after) :
    (∀ p, p ≠ cfg.path n → p ≠ cfg.dst n → p ≠ cfg.bck n → after.file p = fs.file p) ∧
    (after.dir (cfg.path n) = fs.dir (cfg.path n) → after.file (cfg.path n) = fs.file (cfg.path n)) := by
  obtain ⟨f, hf, hd, hi⟩ := hl
  have e := explained_start (cfg := cfg) hfs hcs
  have settled : ∀ i, Settled (cfg.dst n) (cfg.bck n) fs i → after.ino i = fs.ino i := by
    intro i h
    refine hi i _ ?_
    intro g hg'
    obtain ⟨x, y, rfl, rfl⟩ := mem_moments.mp hg'
    exact settled_run h1 h2 h3 hfs hcs hg x e ((undisturbed_append _ x y _).1 hu).1 i h
  obtain ⟨a, b, rfl, rfl⟩ := mem_moments.mp hf
  constructor
  · intro p p1 p2 p3
    have hdp : after.dir p = fs.dir p := by
      rw [hd]
      exact avoids_run a _ fun q => client_avoids cfg p1 p2 p3 (cs q) (hcs q)
    refine file_same hdp ?_
    intro i hpi
    exact settled i ⟨hg.1 _ _ hpi, fun e => p2 (hg.2 _ _ _ hpi e), fun e => p3 (hg.2 _ _ _ hpi e)⟩
  · intro hs
    refine file_same hs ?_
    intro i hpi
    exact settled i (settled_src h1 h2 hg hpi)

/-- A commit to a database that holds a content; the power is lost after any number of its operations, all of which reached the disk,
or none of which did. -/
example (S : Sha) : ∃ (s : State) (c : Ctx) (r : Reference), let cfg := sampleCfg S 10
    cfg.path c.name ≠ cfg.dst c.name ∧ cfg.path c.name ≠ cfg.bck c.name ∧ cfg.dst c.name ≠ cfg.bck c.name ∧
    FsGood s.fs ∧ (s.fs.dir (cfg.path c.name)).isSome ∧ (∀ p, (oneCommit c r p).On c.name) ∧
    ∀ m, Undisturbed (cfg.path c.name) (System.start cfg s.fs (oneCommit c r)) ([0, 0] ++ List.replicate m 0) ∧
      PowerLoss ((System.start cfg s.fs (oneCommit c r)).moments ([0, 0] ++ List.replicate m 0))
        ((System.start cfg s.fs (oneCommit c r)).run ([0, 0] ++ List.replicate m 0)).shared.fs ∧
      PowerLoss ((System.start cfg s.fs (oneCommit c r)).moments ([0, 0] ++ List.replicate m 0)) s.fs := by
  obtain ⟨s, c, r, _, h1, h2, h3, h4, h5, h6⟩ := sample_commit S
  refine ⟨s, c, r, h4, h5, h6, h1, h2, h3, fun m => ⟨oneCommit_undisturbed _ c r s.fs h2 m, ?_, ?_⟩⟩
  · have := loss_at_moment (System.start (sampleCfg S 10) s.fs (oneCommit c r)) ([0, 0] ++ List.replicate m 0) []
    rw [List.append_nil] at this
    exact this.loss
  · exact (loss_at_moment (System.start (sampleCfg S 10) s.fs (oneCommit c r)) [] ([0, 0] ++ List.replicate m 0)).loss

/-- **C139 is false**: a database holds a content, another one is committed, the commit reports success, and then the power is lost.
If the disk had the new names but not yet the bytes of the file that was renamed (every file is as it was at some moment), the database
can be opened afterwards, without an error, and is empty: what was committed and all that was stored before is gone. -/
theorem C139_negation (S : Sha) : ∃ (cfg : Cfg) (u : Usage) (s : State) (c : Ctx) (r : Reference) (k : ContentKeys) (schedule : List Nat)
    (after : FS) (a : App),
    cfg.S = S ∧ Names cfg u ∧ Reachable cfg u s ∧ s.app.get 0 = some c ∧ contentKeys s.app 0 = .ok k ∧ k.list.length = 1 ∧
    updateReference cfg c 9 = .ok r ∧ (commit cfg calm 9 s.fs s.app 0).out = .ok () ∧
    ((System.start cfg s.fs (oneCommit c r)).run schedule).shared.fs = (commit cfg calm 9 s.fs s.app 0).fs ∧
    PowerLoss ((System.start cfg s.fs (oneCommit c r)).moments schedule) after ∧
    after.dir = (commit cfg calm 9 s.fs s.app 0).fs.dir ∧
    (∀ i, ∃ g ∈ (System.start cfg s.fs (oneCommit c r)).moments schedule, after.ino i = g.ino i) ∧
    open' cfg after [] c.name = .ok (0, a) ∧ contentKeys a 0 = .err ∧ commits a 0 = .err := by
  obtain ⟨s, c, h⟩ := sample_ready S 10 False
  have hn := sampleNames S 10 False
  obtain ⟨t, r, hr, hu, htouch, hfile, hne, hends, hdata, hlen⟩ := ready_facts h (by decide) (by decide)
  have hinv := h.reachable.inv hn
  have hc : CtxOK (sampleCfg S 10) (sampleUsage False) s.fs c := hinv.ctxs _ (get_mem h.get)
  have hw := writeDestination_calm (sampleCfg S 10) c r ⟨s.fs, c.conn⟩ h.isOpen hne hends
  obtain ⟨w', hrun, hd, hi⟩ := quiet_commit (sampleCfg S 10) calm c r s.fs hinv.good
    (hn.distinct hc.name) h.isOpen _ _ ⟨rfl, rfl, rfl, rfl, rfl, rfl, rfl, rfl⟩ rfl rfl rfl (by rw [htouch]; exact hw)
  rw [htouch] at hd
  have hcommit : commit (sampleCfg S 10) calm 9 s.fs s.app 0 = finish s.fs s.app 0 c r ((updateDatabaseOnFile (sampleCfg S 10) calm c r).run ⟨s.fs, c.conn⟩) := by
    unfold commit
    rw [h.get]
    simp only [hr]
  rw [hrun] at hcommit
  have hsome : (s.fs.dir ((sampleCfg S 10).path c.name)).isSome := by
    have := hfile
    unfold FS.file at this
    cases e : s.fs.dir ((sampleCfg S 10).path c.name) with
    | none => rw [e] at this; cases this
    | some i => rfl
  obtain ⟨q1, m, q2⟩ := oneCommit_run (sampleCfg S 10) c r s.fs hsome _ w' hrun
  obtain ⟨r0, hr0⟩ := Option.ne_none_iff_exists'.mp h.reference
  generalize hj : s.fs.createIno ((sampleCfg S 10).dst c.name) = j at hd
  have m1 : s.fs.create ((sampleCfg S 10).dst c.name) ∈
      (System.start (sampleCfg S 10) s.fs (oneCommit c r)).moments ([0, 0, 0] ++ List.replicate m 0) :=
    mem_moments.mpr ⟨_, _, rfl, q1.symm⟩
  have m2 : w'.fs ∈ (System.start (sampleCfg S 10) s.fs (oneCommit c r)).moments ([0, 0, 0] ++ List.replicate m 0) :=
    mem_moments.mpr ⟨_, [], (List.append_nil _).symm, q2.symm⟩
  refine ⟨sampleCfg S 10, sampleUsage False, s, c, r, r0.contentKeys, [0, 0, 0] ++ List.replicate m 0,
    ⟨w'.fs.dir, upd w'.fs.ino j [], w'.fs.next⟩, App.set [] 0 ⟨c.name, ⟨j, 0, true⟩, none, 0, []⟩, rfl, hn, h.reachable, h.get,
    ?_, ?_, hr, ?_, ?_, ⟨w'.fs, m2, rfl, ?_⟩, ?_, ?_, ?_, ?_, ?_⟩
  · unfold contentKeys
    rw [h.get]
    simp only [hr0]
  · have := congrArg List.length h.keys
    rw [hr0] at this
    simpa [oldKeys] using this
  · rw [hcommit]; rfl
  · rw [hcommit]; exact q2
  · intro i b hb
    dsimp only
    by_cases e : i = j
    · subst e
      rw [upd_self, ← hb _ m1, ← hj, create_ino_self]
    · rw [upd_ne _ _ e]
      exact hb _ m2
  · rw [hcommit]; rfl
  · intro i
    dsimp only
    by_cases e : i = j
    · subst e
      exact ⟨_, m1, by rw [upd_self, ← hj, create_ino_self]⟩
    · exact ⟨_, m2, upd_ne _ _ e⟩
  · unfold open' retrieveAt FS.file
    simp only [hd, List.any_nil, Bool.false_eq_true, if_false, Option.map_some, upd_self]
    rfl
  · rfl
  · rfl

end Props
end Rodkina
