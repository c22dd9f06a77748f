import Verif.SessionsSample
/-!
# C131: processes working on different databases; C132: creating a database while others use it
-/

namespace Rodkina
namespace Props

open DB Ref

/-- C131: any number of processes call the functions of the database on databases whose files are different files, each with its
own parameters; their file operations are interleaved in any order. Then every process finishes once it was given some number of
turns, whatever the others do, unless it would panic or hang alone; and when it has finished, what its calls have returned to it
and the files of its databases are what they are when its calls are executed one after the other and no other process exists. -/
theorem C131_apart {α : Type} (cfg : Nat → Cfg) (N : Nat → Name → Prop) (fs : FS) (hg : FsGood fs) (ss : Nat → Session α)
    (huses : ∀ p, (ss p).Uses (N p)) (hdistinct : ∀ p n, N p n → (cfg p).Distinct n)
    (hapart : ∀ p q x, (cfg p).Owns (N p) x → (cfg q).Owns (N q) x → p = q)
    (hsmall : ∀ p, (ss p).Small (cfg p) fs []) (p : Nat) :
    (∃ n, ∀ L : List Nat, n ≤ L.count p → ∃ a, ((Procs.start cfg fs ss).run L).threads p = .ret a) ∧
    ∀ L a, ((Procs.start cfg fs ss).run L).threads p = .ret a →
      a = ((ss p).seq (cfg p) fs []).1 ∧
      ∀ x, (cfg p).Owns (N p) x → ((Procs.start cfg fs ss).run L).shared.fs.file x = ((ss p).seq (cfg p) fs []).2.file x := by
  have hfilter : ∀ L : List Nat, L.filter (· == p) = List.replicate (L.count p) p := fun L => List.filter_beq p
  have hpar := fun L => parallel_run hapart L (parallel_start cfg N fs hg ss huses hapart)
  have hseq := session_alone (N := N p) p (cfg p) (hdistinct p) (ss p) fs [] (huses p) (fun _ h => by cases h) (hsmall p)
  constructor
  · refine ⟨steps p ((Procs.start cfg fs ss).threads p) (Procs.start cfg fs ss).shared, fun L hL => ?_⟩
    obtain ⟨F, _, h⟩ := hpar L
    have h := (h p).1
    simp only at h
    rw [hfilter, run_replicate p _ _ hL] at h
    simp only [upd_self] at h
    generalize ((Procs.start cfg fs ss).run L).threads p = y at h
    cases h with
    | ret h => exact ⟨_, rfl⟩
  · intro L a ha
    obtain ⟨F, _, h⟩ := hpar L
    obtain ⟨h1, h2⟩ := h p
    simp only at h1 h2
    rw [hfilter] at h1 h2
    have e := alone_run p (L.count p) (Procs.start cfg fs ss)
    rw [ha] at h1
    generalize (Procs.start cfg fs ss).run (List.replicate (L.count p) p) = s at h1 h2 e
    obtain ⟨sh, th⟩ := s
    simp only at h1 h2 e
    generalize th p = y at h1 e
    cases h1 with
    | ret hab =>
      simp only [alone] at e
      have e' : alone p ((ss p).prog (cfg p) []) ⟨fs, fun _ => none⟩ = (_, sh) := e.symm
      rw [e'] at hseq
      refine ⟨hab.symm.trans hseq.1, fun x hx => ?_⟩
      rw [← hseq.2]
      unfold FS.file
      have hd := h2.dir x hx
      cases hs : sh.fs.dir x with
      | none =>
        cases ht : ((Procs.start cfg fs ss).run L).shared.fs.dir x with
        | none => rfl
        | some j => rw [hs, ht] at hd; cases hd
      | some i =>
        cases ht : ((Procs.start cfg fs ss).run L).shared.fs.dir x with
        | none => rw [hs, ht] at hd; cases hd
        | some j =>
          rw [hs, ht] at hd
          cases hd with
          | some hij => simp only [Option.map_some, h2.ino hij]

/-- C132, what does hold: process `p` calls `New`; any operations of other processes come between its looking for the file
and its creating it. If the file is there when it looks, `New` fails and nothing has changed. If it is not there when it looks
and is not there when it creates it either, `New` succeeds, the database is an empty file and all other files are as they were
(missing: that the file does not appear meanwhile). -/
theorem C132_partial {α : Type} (cfg : Cfg) (t : Procs α) (p : Nat) (n : Name) (k : Bool → Session α) (a : App)
    (ht : t.threads p = (Session.new n k).prog cfg a) (L : List Nat) (hL : p ∉ L) :
    ((t.shared.fs.dir (cfg.path n)).isSome →
      (t.step p).threads p = (k false).prog cfg a ∧ (t.step p).shared = t.shared) ∧
    (t.shared.fs.dir (cfg.path n) = none → ((t.step p).run L).shared.fs.dir (cfg.path n) = none →
      (((t.step p).run L).step p).threads p = (k true).prog cfg a ∧
      (((t.step p).run L).step p).shared.fs.file (cfg.path n) = some [] ∧
      ∀ x, x ≠ cfg.path n → FsGood ((t.step p).run L).shared.fs →
        (((t.step p).run L).step p).shared.fs.file x = ((t.step p).run L).shared.fs.file x) := by
  have keep : ∀ (M : List Nat) (s : Procs α), p ∉ M → (s.run M).threads p = s.threads p := by
    intro M
    induction M with
    | nil => intro s _; rfl
    | cons q M ih =>
      intro s hM
      simp only [List.mem_cons, not_or] at hM
      show ((s.step q).run M).threads p = _
      rw [ih _ hM.2, Procs.step_eq]
      exact upd_ne _ _ hM.1
  constructor
  · intro h
    rw [Procs.step_eq, ht]
    simp only [Session.prog, Prog.step, exec, upd_self, h, if_true]
    exact ⟨trivial, trivial⟩
  · intro h h'
    have e : (t.step p).threads p = .op (.create (cfg.path n)) (fun _ => (k true).prog cfg a) := by
      rw [Procs.step_eq, ht]
      simp only [Session.prog, Prog.step, exec, upd_self, h]
      rfl
    have e2 := (keep L _ hL).trans e
    generalize (t.step p).run L = u at h' e2 ⊢
    rw [Procs.step_eq, e2]
    simp only [Prog.step, exec, upd_self]
    refine ⟨trivial, ?_, fun x hx hg => ?_⟩
    · simp only [FS.file, FS.create, h', upd_self, Option.map_some]
    · simp only [FS.file, FS.create, h', upd_ne _ _ hx]
      cases hd : u.shared.fs.dir x with
      | none => rfl
      | some i =>
        have := hg.1 _ _ hd
        simp only [Option.map_some]
        rw [upd_ne _ _ (by omega)]

/-- **C132 is false** in every interleaving in which the file appears between the two operations of `New`: whatever the other
processes did meanwhile (`L`), `New` reports that it has created the database, and the database is then empty. -/
theorem C132_emptied {α : Type} (cfg : Cfg) (t : Procs α) (p : Nat) (n : Name) (k : Bool → Session α) (a : App)
    (ht : t.threads p = (Session.new n k).prog cfg a) (hdir : t.shared.fs.dir (cfg.path n) = none) (L : List Nat) (hL : p ∉ L) :
    (((t.step p).run L).step p).threads p = (k true).prog cfg a ∧
    (((t.step p).run L).step p).shared.fs.file (cfg.path n) = some [] := by
  have keep : ∀ (M : List Nat) (s : Procs α), p ∉ M → (s.run M).threads p = s.threads p := by
    intro M
    induction M with
    | nil => intro s _; rfl
    | cons q M ih =>
      intro s hM
      simp only [List.mem_cons, not_or] at hM
      show ((s.step q).run M).threads p = _
      rw [ih _ hM.2, Procs.step_eq]
      exact upd_ne _ _ hM.1
  have e : (t.step p).threads p = .op (.create (cfg.path n)) (fun _ => (k true).prog cfg a) := by
    rw [Procs.step_eq, ht]
    simp only [Session.prog, Prog.step, exec, upd_self, hdir]
    rfl
  have e2 := (keep L _ hL).trans e
  generalize (t.step p).run L = u at e2 ⊢
  rw [Procs.step_eq, e2]
  simp only [Prog.step, exec, upd_self]
  refine ⟨trivial, ?_⟩
  unfold FS.file FS.create
  cases h : u.shared.fs.dir (cfg.path n) with
  | none => simp only [upd_self, Option.map_some]
  | some i => simp only [h, upd_self, Option.map_some]

/-- **C132 is false**: two processes create the database "a". One of them has written a content and committed it, and all its
calls have reported success, before the other, which had already looked for the file, creates it. Both have reported success, and the
database, in which the committed content was stored, is empty. -/
theorem C132_negation (S : Sha) : ∃ (cfg : Cfg) (L : List Nat) (content : Bytes),
    let start := Procs.start (fun _ => cfg) fs0 fun p => if p = 0 then .new ['a'] fun ok => .done ok else if p = 1 then storeX else .done false
    cfg.S = S ∧ cfg.Distinct ['a'] ∧
    (∃ a, (start.run (0 :: L)).threads 1 = .ret (some a) ∧ a = true) ∧
    (start.run (0 :: L)).shared.fs.file (cfg.path ['a']) = some content ∧
    contentX.data <:+ content ∧
    (∃ b, (start.run (0 :: (L ++ [0]))).threads 0 = .ret (some b) ∧ b = true) ∧
    (start.run (0 :: (L ++ [0]))).shared.fs.file (cfg.path ['a']) = some [] := by
  obtain ⟨_, _, t, r, j, _, _, _, hdir, hino, _⟩ := sWritten_commit S 10000 True
  have hn := sampleNames S 10000 True
  have hd : (sampleCfg S 10000).Distinct ['a'] := hn.distinct (by simp [sampleUsage])
  obtain ⟨start, hstart⟩ : ∃ x : Procs Bool, x = Procs.start (fun _ => sampleCfg S 10000) fs0 fun p => if p = 0 then
    .new ['a'] fun ok => .done ok else if p = 1 then storeX else .done false := ⟨_, rfl⟩
  have ht0 : start.threads 0 = (Session.new ['a'] fun ok => .done ok).prog (sampleCfg S 10000) [] := by rw [hstart]; rfl
  have ht1 : (start.step 0).threads 1 = storeX.prog (sampleCfg S 10000) [] := by rw [hstart]; rfl
  have hs1 : (start.step 0).shared = ⟨fs0, fun _ => none⟩ := by rw [hstart]; rfl
  have hsh : start.shared.fs.dir ((sampleCfg S 10000).path ['a']) = none := by rw [hstart]; rfl
  have hrun := run_replicate 1 _ (start.step 0) (Nat.le_refl _)
  obtain ⟨m, hm⟩ : ∃ m, m = steps 1 ((start.step 0).threads 1) (start.step 0).shared := ⟨_, rfl⟩
  rw [← hm, ht1, hs1] at hrun
  have huse : storeX.Uses (· = ['a']) := by
    unfold storeX
    refine ⟨rfl, fun ok => ?_⟩
    cases ok
    · trivial
    · refine ⟨rfl, fun id => ?_⟩
      cases id with
      | none => trivial
      | some id =>
        intro ok
        cases ok
        · trivial
        · exact fun ok => trivial
  obtain ⟨q1, q2⟩ := session_alone (N := (· = ['a'])) 1 (sampleCfg S 10000) (fun n hn => by subst hn; exact hd) storeX fs0 [] huse
    (fun _ h => by cases h) (storeX_small S)
  rw [storeX_seq] at q1 q2
  refine ⟨sampleCfg S 10000, List.replicate m 1, newFile (sampleCfg S 10000) ctxX r [], rfl, hd, ?_⟩
  rw [← hstart]
  have e0 : start.run (0 :: List.replicate m 1) = (start.step 0).run (List.replicate m 1) := rfl
  have e1 : start.run (0 :: (List.replicate m 1 ++ [0])) = ((start.step 0).run (List.replicate m 1)).step 0 := by
    show (start.step 0).run (List.replicate m 1 ++ [0]) = _
    simp only [Procs.run, List.foldl_append]
    rfl
  obtain ⟨c1, c2⟩ := C132_emptied (sampleCfg S 10000) start 0 ['a'] (fun ok => .done ok) [] ht0 hsh (List.replicate m 1)
    (by intro h; have := List.eq_of_mem_replicate h; omega)
  rw [e0, e1, c1, c2, hrun]
  simp only [upd_self]
  refine ⟨⟨true, by rw [q1], rfl⟩, ?_, ?_, ⟨true, rfl, rfl⟩, trivial⟩
  · rw [q2]
    unfold FS.file
    rw [show (sCommitted S 10000).fs.dir ((sampleCfg S 10000).path ['a']) = some j from hdir, ← hino]
    rfl
  · unfold newFile
    refine ⟨refData r ++ carried (sampleCfg S 10000) ctxX [], ?_⟩
    simp [ctxX]

/-- The hypotheses of `C131_apart`: process `p` creates and fills the database whose name is the letter "x" `p + 1` times; the paths
are different files. -/
example (S : Sha) : let cfg := sampleCfg S 10000
    let N (p : Nat) (n : Name) := n = List.replicate (p + 1) 'x'
    let ss (p : Nat) := storeIn (List.replicate (p + 1) 'x')
    FsGood fs0 ∧ (∀ p, (ss p).Uses (N p)) ∧ (∀ p n, N p n → cfg.Distinct n) ∧
    (∀ p q x, cfg.Owns (N p) x → cfg.Owns (N q) x → p = q) ∧ ∀ p, (ss p).Small cfg fs0 [] := by
  intro cfg N ss
  have hdot : ∀ p, '.' ∉ List.replicate (p + 1) 'x' := fun p h => by
    have := List.eq_of_mem_replicate h
    revert this
    decide
  refine ⟨⟨by simp [fs0], by simp [fs0]⟩, fun p => ?_, fun p n hn => ?_, ?_, fun p => ?_⟩
  · refine ⟨rfl, fun _ => ⟨rfl, fun id => ?_⟩⟩
    cases id with
    | none => trivial
    | some id => exact fun _ _ _ => trivial
  · subst hn
    exact (sampleNames S 10000 True).distinct (hdot p)
  · have key : ∀ (m : Nat) (p q : Nat) (u v : Name), List.replicate (p + 1) 'x' ++ u = List.replicate (q + 1) 'x' ++ v →
        (u = [] ∨ ∃ u', u = '.' :: u') → (v = [] ∨ ∃ v', v = '.' :: v') → p = q := by
      intro _ p
      induction p with
      | zero =>
        intro q u v h hu hv
        cases q with
        | zero => rfl
        | succ q =>
          rcases hu with rfl | ⟨u', rfl⟩ <;> simp [List.replicate_succ] at h
      | succ p ih =>
        intro q u v h hu hv
        cases q with
        | zero => rcases hv with rfl | ⟨u', rfl⟩ <;> simp [List.replicate_succ] at h
        | succ q =>
          have := ih q u v (by simpa [List.replicate_succ] using h) hu hv
          omega
    have form : ∀ p x, cfg.Owns (N p) x → ∃ u, x = List.replicate (p + 1) 'x' ++ u ∧ (u = [] ∨ ∃ u', u = '.' :: u') := by
      rintro p x ⟨n, hn, h⟩
      rcases h with h | h | h <;> rw [h, hn]
      · exact ⟨[], by simp [cfg, sampleCfg], .inl rfl⟩
      · exact ⟨_, rfl, .inr ⟨_, rfl⟩⟩
      · exact ⟨_, rfl, .inr ⟨_, rfl⟩⟩
    intro p q x hp hq
    obtain ⟨u, hu, hu'⟩ := form p x hp
    obtain ⟨v, hv, hv'⟩ := form q x hq
    exact key 0 p q u v (hu.symm.trans hv) hu' hv'
  · have e1 : DB.new' cfg fs0 (List.replicate (p + 1) 'x') = .ok (fs0.create (List.replicate (p + 1) 'x')) := rfl
    have e4 : (fs0.create (List.replicate (p + 1) 'x')).file (cfg.path (List.replicate (p + 1) 'x')) = some [] := by
      simp [FS.file, FS.create, fs0, cfg, sampleCfg, upd]
    simp only [ss, storeIn, Session.Small, e1, e4]
    refine ⟨fun b hb => by cases hb; decide, ?_⟩
    repeat' split
    all_goals trivial

/-- The hypotheses of `C132_partial` and `C132_emptied`: a process that is about to create a database that is not there. -/
example (S : Sha) : let cfg := sampleCfg S 10000
    let t := Procs.start (fun _ => cfg) fs0 fun p => if p = 0 then .new ['a'] fun ok => .done ok else storeX
    t.threads 0 = (Session.new ['a'] fun ok => .done ok).prog cfg [] ∧ t.shared.fs.dir (cfg.path ['a']) = none ∧ 0 ∉ [1, 1] := by
  refine ⟨rfl, rfl, by decide⟩

end Props
end Rodkina
