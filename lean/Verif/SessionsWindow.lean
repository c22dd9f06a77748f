import Verif.SessionsProps
/-!
# C132: the moment at which a commit has removed the database
-/

namespace Rodkina
namespace DB

open Ref

/-- What is left of a program, and the shared state, after some of its operations were executed alone. -/
inductive Later {α : Type} (pid : Nat) : Prog α → Shared → Prog α → Shared → Prop where
  | now (x : Prog α) (s : Shared) : Later pid x s x s
  | step (o : Op) (k : o.Resp → Prog α) (s : Shared) (x' : Prog α) (s' : Shared) :
      Later pid (k (exec pid o s).1) (exec pid o s).2 x' s' → Later pid (.op o k) s x' s'

theorem Later.of_exec {α : Type} {pid : Nat} {o : Op} {k : o.Resp → Prog α} {s s1 : Shared} {a : o.Resp} {x' : Prog α} {s' : Shared}
    (e1 : (exec pid o s).1 = a) (e2 : (exec pid o s).2 = s1) (h : Later pid (k a) s1 x' s') : Later pid (.op o k) s x' s' := by
  subst e1 e2
  exact .step _ _ _ _ _ h

theorem Later.alone_eq {α : Type} {pid : Nat} {x x' : Prog α} {s s' : Shared} (h : Later pid x s x' s') :
    alone pid x' s' = alone pid x s := by
  induction h with
  | now => rfl
  | step o k s x' s' _ ih => exact ih

theorem Later.bind {α β : Type} {pid : Nat} {x x' : Prog α} {s s' : Shared} (h : Later pid x s x' s') (f : α → Prog β) :
    Later pid (x.bind f) s (x'.bind f) s' := by
  induction h with
  | now => exact .now _ _
  | step o k s x' s' _ ih => exact .step o _ _ _ _ ih

theorem Later.trans {α : Type} {pid : Nat} {x x1 x2 : Prog α} {s s1 s2 : Shared} (h : Later pid x s x1 s1) (h' : Later pid x1 s1 x2 s2) :
    Later pid x s x2 s2 := by
  induction h with
  | now => exact h'
  | step o k s x' s' _ ih => exact .step o _ _ _ _ (ih h')

/-- To the end of the first part. -/
theorem later_end {α β : Type} (pid : Nat) (x : Prog α) (f : α → Prog β) (s : Shared) :
    Later pid (x.bind f) s (f (alone pid x s).1) (alone pid x s).2 := by
  induction x generalizing s with
  | ret a => exact .now _ _
  | op o k ih => exact .step o _ _ _ _ (ih _ _)

/-- A schedule that gives the process these turns. -/
theorem Later.run {α : Type} {p : Nat} {x x' : Prog (Option α)} {s s' : Shared} (h : Later p x s x' s') :
    ∃ m, ∀ t : Procs α, t.threads p = x → t.shared = s → t.run (List.replicate m p) = ⟨s', upd t.threads p x'⟩ := by
  induction h with
  | now x s =>
    refine ⟨0, fun t h1 h2 => ?_⟩
    have e : upd t.threads p x = t.threads := by
      funext y
      by_cases e : y = p
      · subst e; rw [upd_self, h1]
      · rw [upd_ne _ _ e]
    rw [e, ← h2]
    rfl
  | step o k s x' s' _ ih =>
    obtain ⟨m, hm⟩ := ih
    refine ⟨m + 1, fun t h1 h2 => ?_⟩
    have e : t.step p = ⟨(exec p o s).2, upd t.threads p (k (exec p o s).1)⟩ := by
      unfold Procs.step
      rw [h1, h2]
    show (t.step p).run (List.replicate m p) = _
    rw [hm (t.step p) (by rw [e]; exact upd_self _ _ _) (by rw [e]), e]
    congr 1
    funext y
    by_cases ey : y = p
    · subst ey; rw [upd_self, upd_self]
    · show upd (upd t.threads p _) p x' y = upd t.threads p x' y
      rw [upd_ne _ _ ey, upd_ne _ _ ey, upd_ne _ _ ey]

/-- A part that must succeed for the whole to succeed. -/
theorem next_ok {α β : Type} {pid : Nat} {x : Prog (Out α)} {f : α → Prog (Out β)} {s : Shared} {b : β}
    (h : (alone pid (x.next f) s).1 = .ok b) :
    ∃ a, (alone pid x s).1 = .ok a ∧ (alone pid (f a) (alone pid x s).2).1 = .ok b ∧
      Later pid (x.next f) s (f a) (alone pid x s).2 := by
  have hl := later_end pid x (fun o => match o with
    | .ok a => f a
    | .err => .ret .err
    | .panic => .ret .panic
    | .crash => .ret .crash
    | .hang => .ret (.hang : Out β)) s
  unfold Prog.next at h ⊢
  rw [alone_bind] at h
  generalize hx : (alone pid x s).1 = o at *
  cases o with
  | ok a => exact ⟨a, rfl, h, hl⟩
  | _ => simp [alone] at h

/-- A commit that succeeds has removed the file of the database at some moment. -/
theorem body_window {pid : Nat} (cfg : Cfg) (c : Ctx) (r : Reference) (s : Shared) {v : Conn × Nat}
    (h : (alone pid (bodyProg cfg c r) s).1 = .ok v) :
    ∃ x' s', Later pid (bodyProg cfg c r) s x' s' ∧ s'.fs.dir (cfg.path c.name) = none := by
  unfold bodyProg at h ⊢
  obtain ⟨off, _, h2, l1⟩ := next_ok h
  obtain ⟨u, _, h3, l2⟩ := next_ok h2
  obtain ⟨conn, h4, _, l3⟩ := next_ok h3
  generalize (alone pid (backupProg cfg c) (alone pid (destinationProg cfg c r) s).2).2 = s2 at *
  have : ∃ x' s', Later pid (swapProg cfg c) s2 x' s' ∧ s'.fs.dir (cfg.path c.name) = none := by
    unfold swapProg at h4 ⊢
    by_cases ho : c.conn.isOpen = true
    · rw [if_pos ho] at h4 ⊢
      refine ⟨_, _, .step _ _ _ _ _ (.now _ _), ?_⟩
      by_cases hd : (s2.fs.dir (cfg.path c.name)).isSome = true
      · simp [exec, hd, FS.remove, upd]
      · simp [alone, exec, hd] at h4
    · rw [if_neg ho] at h4
      simp [alone] at h4
  obtain ⟨x', s', hl, hs⟩ := this
  exact ⟨_, s', l1.trans (l2.trans (hl.bind _)), hs⟩

theorem locked_window {pid : Nat} (cfg : Cfg) (c c' : Ctx) (r : Reference) (s : Shared)
    (h : (alone pid (lockedProg cfg c r) s).1 = some (c', true)) :
    ∃ x' s', Later pid (lockedProg cfg c r) s x' s' ∧ s'.fs.dir (cfg.path c.name) = none := by
  unfold lockedProg at h ⊢
  simp only [alone] at h
  generalize hl : (exec pid (.lockOpen (cfg.path c.name)) s).1 = i at *
  generalize hs1 : (exec pid (.lockOpen (cfg.path c.name)) s).2 = s1 at *
  generalize hs2 : (exec pid (.flock i) s1).2 = s2 at *
  generalize hg : (exec pid (.flock i) s1).1 = got at *
  cases got with
  | false => simp [alone] at h
  | true =>
    simp only [if_true] at h
    rw [alone_bind, alone_bind] at h
    have : ∃ v, (alone pid (bodyProg cfg c r) s2).1 = .ok v := by
      generalize (alone pid (bodyProg cfg c r) s2).1 = o at h
      generalize (alone pid (bodyProg cfg c r) s2).2 = s3 at h
      cases o with
      | ok v => exact ⟨v, rfl⟩
      | _ => simp [unlockProg, alone] at h
    obtain ⟨v, hv⟩ := this
    obtain ⟨x', s', h1, h2⟩ := body_window cfg c r s2 hv
    exact ⟨_, s', .of_exec hl hs1 (.of_exec hg hs2 ((h1.bind _).bind _)), h2⟩

end DB

namespace Props
open Ref DB

/-- **C132 is false whenever a database is committed to**: process `q` is about to commit to a database, whatever it holds, and the
commit would succeed; process `p` is about to create a database of the same name. There is an order of their operations in which the
commit reports success and leaves the files it would have left alone, then `New` reports that it has created the database, and
the database is empty. -/
theorem C132_every_commit {α : Type} (cfg : Cfg) (t : Procs α) (p q : Nat) (hpq : p ≠ q) (n : Name)
    (k : Bool → Session α) (a : App) (hp : t.threads p = (Session.new n k).prog cfg a)
    (id : Nat) (now : Int) (kq : Bool → Session α) (b : App) (hq : t.threads q = (Session.commit id now kq).prog cfg b)
    (c : Ctx) (hc : b.get id = some c) (hname : c.name = n) (r : Reference) (hr : updateReference cfg c now = .ok r)
    (c' : Ctx) (fs' : FS) (L' : Nat → Option Nat) (hsucc : alone q (lockedProg cfg c r) t.shared = (some (c', true), ⟨fs', L'⟩)) :
    ∃ m m', (t.run (List.replicate m q ++ p :: List.replicate m' q)).threads q = (kq true).prog cfg (b.set id c') ∧
      (t.run (List.replicate m q ++ p :: List.replicate m' q)).shared.fs = fs' ∧
      (t.run (List.replicate m q ++ p :: List.replicate m' q ++ [p])).threads p = (k true).prog cfg a ∧
      (t.run (List.replicate m q ++ p :: List.replicate m' q ++ [p])).shared.fs.file (cfg.path n) = some [] := by
  obtain ⟨x', s', hl, hs'⟩ := locked_window (pid := q) cfg c c' r t.shared (by rw [hsucc])
  let g : Option (Ctx × Bool) → Prog (Option α) := fun o => match o with
    | some (c', ok) => (kq ok).prog cfg (b.set id c')
    | none => .ret none
  have hq' : t.threads q = (lockedProg cfg c r).bind g := by
    rw [hq, Session.prog, hc]
    simp only [hr]
    rfl
  obtain ⟨m, hm⟩ := (hl.bind g).run
  have h1 := hm t hq' rfl
  have hend := later_end q x' g s'
  rw [hl.alone_eq, hsucc] at hend
  obtain ⟨m', hm'⟩ := hend.run
  have hp1 : (t.run (List.replicate m q)).threads p = (Session.new n k).prog cfg a := by
    rw [h1]
    simp only
    rw [upd_ne _ _ hpq, hp]
  have hd1 : (t.run (List.replicate m q)).shared.fs.dir (cfg.path n) = none := by
    rw [h1, ← hname]
    exact hs'
  have hstep : ((t.run (List.replicate m q)).step p).shared = s' ∧ ((t.run (List.replicate m q)).step p).threads q = x'.bind g := by
    unfold Procs.step
    rw [hp1]
    simp only [Session.prog, exec]
    rw [upd_ne _ _ (Ne.symm hpq), h1]
    exact ⟨rfl, upd_self _ _ _⟩
  have h2 := hm' ((t.run (List.replicate m q)).step p) hstep.2 hstep.1
  have e : t.run (List.replicate m q ++ p :: List.replicate m' q) = ((t.run (List.replicate m q)).step p).run (List.replicate m' q) := by
    simp only [Procs.run, List.foldl_append, List.foldl_cons]
  have e' : t.run (List.replicate m q ++ p :: List.replicate m' q ++ [p]) =
      (((t.run (List.replicate m q)).step p).run (List.replicate m' q)).step p := by
    simp only [Procs.run, List.foldl_append, List.foldl_cons, List.foldl_nil]
  obtain ⟨c1, c2⟩ := C132_emptied cfg (t.run (List.replicate m q)) p n k a hp1 hd1 (List.replicate m' q)
    (fun h => hpq (List.eq_of_mem_replicate h))
  refine ⟨m, m', ?_, ?_, ?_, ?_⟩
  · rw [e, h2]
    exact upd_self _ _ _
  · rw [e, h2]
  · rw [e']; exact c1
  · rw [e']; exact c2

/-- A database that holds five bytes, to which a process is about to commit two more. -/
example (S : Sha) : ∃ (cfg : Cfg) (t : Procs Bool) (b : App) (c : Ctx) (r : Reference) (c' : Ctx) (fs' : FS) (L' : Nat → Option Nat),
    cfg.S = S ∧ t.threads 0 = (Session.new ['a'] fun ok => .done ok).prog cfg [] ∧
    t.threads 1 = (Session.commit 0 9 fun ok => .done ok).prog cfg b ∧ b.get 0 = some c ∧ c.name = ['a'] ∧
    (∃ d, t.shared.fs.file (cfg.path ['a']) = some d ∧ [1, 2, 3, 4, 5] <:+ d) ∧
    updateReference cfg c 9 = .ok r ∧ alone 1 (lockedProg cfg c r) t.shared = (some (c', true), ⟨fs', L'⟩) := by
  obtain ⟨s, c, h⟩ := sample_ready S 10000 True
  obtain ⟨hok, _, tt, r, j, _, _, _, _, _, hr, _⟩ := h.commit (by simp [contentY]) (by decide) (fun _ => by decide)
  have hd : (sampleCfg S 10000).Distinct c.name := by
    rw [h.name]
    exact (sampleNames S 10000 True).distinct (by simp [sampleUsage])
  obtain ⟨L, hL, _, _⟩ := locked_alone 1 (sampleCfg S 10000) c r s.fs hd
  unfold commit at hok
  rw [h.get] at hok
  simp only [hr] at hok
  obtain ⟨⟨out, w⟩, hx⟩ : ∃ y, (updateDatabaseOnFile (sampleCfg S 10000) calm c r).run ⟨s.fs, c.conn⟩ = y := ⟨_, rfl⟩
  rw [hx] at hok hL
  cases out with
  | ok v =>
    obtain ⟨conn, off⟩ := v
    refine ⟨sampleCfg S 10000, ⟨⟨s.fs, fun _ => none⟩, fun p => if p = 0 then (Session.new ['a'] fun ok => .done ok).prog _ [] else
      (Session.commit 0 9 fun ok => .done ok).prog _ s.app⟩, s.app, c, r, _, w.fs, L, rfl, rfl, rfl, h.get, h.name, ?_, hr, hL⟩
    have hlink : s.fs.dir ((sampleCfg S 10000).path ['a']) = some c.conn.ino := h.linked
    refine ⟨s.fs.ino c.conn.ino, ?_, ?_⟩
    · simp [FS.file, hlink]
    · rw [← h.data]
      exact List.drop_suffix _ _
  | _ => simp [finish] at hok

end Props
end Rodkina
