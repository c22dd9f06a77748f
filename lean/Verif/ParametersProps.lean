import Verif.DatabaseProps3
/-! Property theorems for the file database, C142: applications with different parameters. -/

namespace Rodkina
namespace Props

open Ref DB

/-- C142, reading: an open context of an application shows a database; the bytes of its file, wherever they were copied to, are opened
by any other application, whatever its chunk size, extensions, mining value, directory and open databases, and show the same: the same
contents, commits and bytes. -/
theorem C142_any_parameters (cfg : Cfg) (u : Usage) (hn : Names cfg u) (s : State) (hs : Reachable cfg u s) (id : Nat) (c : Ctx)
    (hg : s.app.get id = some c) (hopen : c.conn.isOpen = true)
    (cfg' : Cfg) (hS : cfg'.S = cfg.S) (hchunk : 0 < cfg'.readChunkSize) (fs' : FS) (a' : App) (n : Name)
    (hclosed : a'.any (fun e => e.2.name == n) = false) (hcopy : fs'.file (cfg'.path n) = some (s.fs.ino c.conn.ino)) :
    ∃ id2 a2, open' cfg' fs' a' n = .ok (id2, a2) ∧ SameView s.fs s.app id fs' a2 id2 := by
  have hc : CtxOK cfg u s.fs c := (hs.inv hn).ctxs _ (get_mem hg)
  have hh : Holds cfg' u (s.fs.ino c.conn.ino) c.reference c.dataOffset := hc.holds.other hS.symm (fun h => h)
  unfold FS.file at hcopy
  obtain ⟨j, hj, e⟩ := Option.map_eq_some_iff.mp hcopy
  refine ⟨a'.length, a'.set a'.length ⟨n, ⟨j, 0, true⟩, c.reference, c.dataOffset, []⟩, ?_, ?_⟩
  · unfold open' retrieveAt
    simp only [hclosed, FS.file, hj, Option.map_some, e, hh.retrieve hchunk]
    rfl
  · exact sameView_of hg (get_set_self _ _ _) rfl rfl hopen.symm e

/-- A database with one commit, copied to another name for an application with another chunk size, mining value and extensions. -/
example (S : Sha) : ∃ (cfg : Cfg) (u : Usage) (s : State) (c : Ctx) (cfg' : Cfg) (fs' : FS), cfg.S = S ∧ Names cfg u ∧ Reachable cfg u s ∧ s.app.get 0 = some c ∧
    c.conn.isOpen = true ∧ c.reference ≠ none ∧ cfg'.S = cfg.S ∧ 0 < cfg'.readChunkSize ∧ cfg'.readChunkSize ≠ cfg.readChunkSize ∧
    cfg'.miningValue ≠ cfg.miningValue ∧ fs'.file (cfg'.path ['b']) = some (s.fs.ino c.conn.ino) := by
  obtain ⟨s, c, h⟩ := sample_ready S 10 True
  refine ⟨_, _, s, c, ⟨S, 7, id, "new".toList, "old".toList, 3, fun _ => []⟩,
    ⟨fun p => if p = ['b'] then some 0 else none, fun _ => s.fs.ino c.conn.ino, 1⟩, rfl, sampleNames S 10 True, h.reachable, h.get,
    h.isOpen, h.reference, rfl, Nat.succ_pos 2, by simp [sampleCfg], by simp [sampleCfg], by simp [FS.file]⟩

/-- One database through the hands of several applications, each with parameters of its own: the first takes it from one state to
another, and every further one starts, on any files, finding the bytes the one before left, under any name. -/
inductive Turns (S : Sha) : Cfg → Usage → State → Name → Cfg → Usage → State → Name → Prop
  | first (cfg : Cfg) (u : Usage) (s t : State) (n : Name) (hS : cfg.S = S) (hn : Names cfg u) (hl : u.lossless) (ht : u.tidy)
      (hchunk : 0 < cfg.readChunkSize) (hu : u.names n) (hs : Reachable cfg u s)
      (hst : StepsIf cfg u (fun _ b => exists' cfg b.fs n = true) s t) : Turns S cfg u s n cfg u t n
  | next (cfg : Cfg) (u : Usage) (s : State) (n : Name) (cfg1 : Cfg) (u1 : Usage) (t1 : State) (n1 : Name)
      (cfg2 : Cfg) (u2 : Usage) (s2 t2 : State) (n2 : Name) (h : Turns S cfg u s n cfg1 u1 t1 n1)
      (hS : cfg2.S = S) (hn : Names cfg2 u2) (hl : u2.lossless) (ht : u2.tidy)
      (hchunk : 0 < cfg2.readChunkSize) (hu : u2.names n2) (hs : Reachable cfg2 u2 s2)
      (hfile : s2.fs.file (cfg2.path n2) = t1.fs.file (cfg1.path n1))
      (hst : StepsIf cfg2 u2 (fun _ b => exists' cfg2 b.fs n2 = true) s2 t2) : Turns S cfg u s n cfg2 u2 t2 n2

theorem continues_other {cfg cfg' : Cfg} {u : Usage} {f f' : Bytes} (hS : cfg.S = cfg'.S) (h1 : 0 < cfg.readChunkSize)
    (h2 : 0 < cfg'.readChunkSize) (hf : ∃ r off, Holds cfg u f r off) (hf' : ∃ r off, Holds cfg u f' r off) (h : Continues cfg f f') :
    Continues cfg' f f' := by
  obtain ⟨r, off, hh⟩ := hf
  obtain ⟨r', off', hh'⟩ := hf'
  obtain ⟨o1, f1, o2, f2, e1, e2, k1, m1, d1⟩ := h
  rw [hh.retrieve h1] at e1
  rw [hh'.retrieve h1] at e2
  cases e1
  cases e2
  exact ⟨_, _, _, _, (hh.other hS (fun h => h)).retrieve h2, (hh'.other hS (fun h => h)).retrieve h2, k1, m1, d1⟩

theorem exists_file {cfg : Cfg} {u : Usage} {s t : State} {n : Name} (h : StepsIf cfg u (fun _ b => exists' cfg b.fs n = true) s t)
    {f : Bytes} (hf : s.fs.file (cfg.path n) = some f) : ∃ g, t.fs.file (cfg.path n) = some g := by
  cases h with
  | refl => exact ⟨f, hf⟩
  | tail t' _ _ _ hp =>
    unfold exists' at hp
    cases hd : t.fs.dir (cfg.path n) with
    | none => rw [hd] at hp; cases hp
    | some i => exact ⟨t.fs.ino i, by unfold FS.file; rw [hd]; rfl⟩

/-- C142, writing: through the hands of any number of applications with different parameters, a database only grows: what the first
application finds in the last file lists all that it had, first and in the same order, and has all its data first. -/
theorem C142_taking_turns (S : Sha) (cfg : Cfg) (u : Usage) (s : State) (n : Name) (cfg' : Cfg) (u' : Usage) (t : State) (n' : Name)
    (h : Turns S cfg u s n cfg' u' t n') (f : Bytes) (hf : s.fs.file (cfg.path n) = some f) :
    ∃ f', t.fs.file (cfg'.path n') = some f' ∧ Continues cfg f f' := by
  have key : ∃ f', t.fs.file (cfg'.path n') = some f' ∧ Continues cfg f f' ∧ cfg.S = S ∧ 0 < cfg.readChunkSize := by
    induction h with
    | first t n hS hn hl ht hchunk hu hs hst =>
      obtain ⟨g, hg⟩ := exists_file hst hf
      exact ⟨g, hg, C70_history_only_appends cfg u hn hl ht hchunk s t hs n hu hst f g hf hg, hS, hchunk⟩
    | next n cfg1 u1 t1 n1 cfg2 u2 s2 t2 n2 _ hS hn hl ht hchunk hu hs hfile hst ih =>
      obtain ⟨g, hg, hc, hS', hchunk'⟩ := ih hf
      rw [← hfile] at hg
      obtain ⟨g', hg'⟩ := exists_file hst hg
      have := C70_history_only_appends cfg2 u2 hn hl ht hchunk s2 t2 hs n2 hu hst g g' hg hg'
      refine ⟨g', hg', continues_trans hc ?_, hS', hchunk'⟩
      exact continues_other (hS.trans hS'.symm) hchunk hchunk' ((hs.inv hn).files n2 hu g hg)
        (((reachable_steps hs hst.steps).inv hn).files n2 hu g' hg') this
  obtain ⟨f', h1, h2, _⟩ := key
  exact ⟨f', h1, h2⟩

/-- An application with chunk size 10 commits; after it an application with chunk size 7 opens the database, writes and commits. -/
example (S : Sha) : ∃ (cfg cfg' : Cfg) (u u' : Usage) (s t : State) (f f' : Bytes), cfg.readChunkSize ≠ cfg'.readChunkSize ∧
    Turns S cfg u s ['a'] cfg' u' t ['a'] ∧ s.fs.file (cfg.path ['a']) = some f ∧ t.fs.file (cfg'.path ['a']) = some f' ∧
    (∃ r off, retrieveReference cfg f = .ok (some r, off) ∧ r.commits.list.length = 1) ∧
    (∃ r off, retrieveReference cfg f' = .ok (some r, off) ∧ r.commits.list.length = 2) := by
  obtain ⟨c, h⟩ := sCommitted_ready S 10 True
  obtain ⟨s, hse⟩ : ∃ s, s = sCommitted S 10 := ⟨_, rfl⟩
  rw [← hse] at h
  have hinv := h.reachable.inv (sampleNames S 10 True)
  have hc : CtxOK (sampleCfg S 10) (sampleUsage True) s.fs c := hinv.ctxs _ (get_mem h.get)
  have hh : Holds (sampleCfg S 7) (sampleUsage True) (s.fs.ino c.conn.ino) c.reference c.dataOffset := hc.holds.other rfl (fun h => h)
  have hname : (sampleUsage True).names ['a'] := by simp [sampleUsage]
  have hstart : Started (sampleCfg S 7) (sampleUsage True) ⟨s.fs, []⟩ := by
    obtain ⟨s0, h0, hst⟩ := h.reachable
    exact .found _ _ _ rfl hinv.good (fun _ => sampleCfg S 10) (fun _ => sampleUsage True) (fun _ => s0) (fun _ => s) id
      (fun _ _ _ _ => h0) (fun _ _ _ _ => hst) (fun _ _ _ hf => hf) (fun n _ hn _ => ⟨hn, sampleNames S 10 True, rfl, fun h => h⟩)
  have hfile : s.fs.file ['a'] = some (s.fs.ino c.conn.ino) := by unfold FS.file; rw [h.linked]; rfl
  have h7 : 0 < (sampleCfg S 7).readChunkSize := by show 0 < 7; decide
  let c1 : Ctx := ⟨['a'], ⟨c.conn.ino, 0, true⟩, c.reference, c.dataOffset, []⟩
  let c2 : Ctx := ⟨['a'], ⟨c.conn.ino, 0, true⟩, c.reference, c.dataOffset, [contentY]⟩
  have hopen : DB.open' (sampleCfg S 7) s.fs [] ['a'] = .ok (0, [(0, c1)]) := by
    unfold DB.open' retrieveAt
    have : s.fs.dir ((sampleCfg S 7).path ['a']) = some c.conn.ino := h.linked
    simp only [FS.file, this, Option.map_some, hh.retrieve h7]
    rfl
  have hs1 : Step (sampleCfg S 7) (sampleUsage True) ⟨s.fs, []⟩ ⟨s.fs, [(0, c1)]⟩ := .open' _ ['a'] 0 _ hname hopen
  have hs2 : Step (sampleCfg S 7) (sampleUsage True) ⟨s.fs, [(0, c1)]⟩ ⟨s.fs, [(0, c2)]⟩ :=
    .write _ 0 contentY.hash contentY.data 4 _ (by simp [contentY]) (by decide) rfl
  have hr2 : Reachable (sampleCfg S 7) (sampleUsage True) ⟨s.fs, [(0, c2)]⟩ :=
    ⟨_, hstart, .tail _ _ _ (.tail _ _ _ (.refl _) hs1) hs2⟩
  have h2 : ReadyWith (sampleCfg S 7) (sampleUsage True) ⟨s.fs, [(0, c2)]⟩ c2 [contentY] :=
    ⟨hr2, rfl, rfl, rfl, rfl, rfl, h.data, h.keys, h.commits, h.small, h.reference, h.offset, h.linked⟩
  obtain ⟨_, hfit, tt, r, j, hu, _, ha, hd, hi, _⟩ := h2.commit (by decide) (by decide) (by decide)
  have hr3 : Reachable (sampleCfg S 7) (sampleUsage True)
      ⟨(commit (sampleCfg S 7) calm 9 s.fs [(0, c2)] 0).fs, (commit (sampleCfg S 7) calm 9 s.fs [(0, c2)] 0).app⟩ :=
    ⟨_, hstart, .tail _ _ _ (.tail _ _ _ (.tail _ _ _ (.refl _) hs1) hs2) (.commit _ 0 c2 calm 9 rfl hfit)⟩
  have hg3 : (commit (sampleCfg S 7) calm 9 s.fs [(0, c2)] 0).app.get 0 =
      some { c2 with conn := ⟨j, 0, true⟩, reference := some r, dataOffset := (refData r).length } := by
    rw [show (commit (sampleCfg S 7) calm 9 s.fs [(0, c2)] 0).app = _ from ha, get_set_self]
  have hc3 : CtxOK (sampleCfg S 7) (sampleUsage True) _ _ := (hr3.inv (sampleNames S 7 True)).ctxs _ (get_mem hg3)
  have hex : ∀ fs : FS, fs.dir ['a'] ≠ none → exists' (sampleCfg S 7) fs ['a'] = true := by
    intro fs hfs
    unfold exists'
    rw [show (sampleCfg S 7).path ['a'] = ['a'] from rfl]
    cases h : fs.dir ['a'] with
    | none => exact absurd h hfs
    | some i => rfl
  have he := hex s.fs (by rw [h.linked]; simp)
  refine ⟨sampleCfg S 10, sampleCfg S 7, sampleUsage True, sampleUsage True, s,
    ⟨(commit (sampleCfg S 7) calm 9 s.fs [(0, c2)] 0).fs, (commit (sampleCfg S 7) calm 9 s.fs [(0, c2)] 0).app⟩, s.fs.ino c.conn.ino,
    (commit (sampleCfg S 7) calm 9 s.fs [(0, c2)] 0).fs.ino j, by simp [sampleCfg],
    .next _ _ _ _ (sampleCfg S 10) (sampleUsage True) s ['a'] _ _ ⟨s.fs, []⟩ _ _
      (.first _ _ s s _ rfl (sampleNames S 10 True) trivial trivial (Nat.succ_pos 9) hname h.reachable (.refl _))
      rfl (sampleNames S 7 True) trivial trivial h7 hname ⟨_, hstart, .refl _⟩ rfl
      (.tail _ _ _ (.tail _ _ _ (.tail _ _ _ (.refl _) hs1 he) hs2 he) (.commit _ 0 c2 calm 9 rfl hfit) (hex _ ?_)), hfile, ?_, ?_, ?_⟩
  · rw [show (commit (sampleCfg S 7) calm 9 s.fs [(0, c2)] 0).fs.dir ['a'] = _ from hd]; simp
  · unfold FS.file
    rw [show (commit (sampleCfg S 7) calm 9 s.fs [(0, c2)] 0).fs.dir ((sampleCfg S 7).path ['a']) = some j from hd]
    rfl
  · cases hr : c.reference with
    | none => exact absurd hr h.reference
    | some r0 =>
      have := hc.holds.retrieve (show 0 < (sampleCfg S 10).readChunkSize from Nat.succ_pos 9)
      rw [hr] at this
      have h1 := h.commits
      rw [hr] at h1
      exact ⟨r0, _, this, h1⟩
  · refine ⟨r, _, ((hc3.holds.other (cfg' := sampleCfg S 10) rfl (fun h => h)).retrieve (Nat.succ_pos 9)), ?_⟩
    rw [hu.commits, List.length_append]
    rw [show (oldCommits c2.reference).length = 1 from h.commits]
    rfl

end Props
end Rodkina
