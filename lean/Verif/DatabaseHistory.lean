import Verif.DatabaseLemmas4
/-! Histories of calls on one application (specification side; the calls themselves are those of Database.lean). -/

namespace Rodkina
namespace DB

open Ref

/-- The files and the open contexts. -/
structure State where
  fs : FS
  app : App

/-- How an application is used: which database names, whether every commit keeps all data (`lossless`), and whether open
databases are left alone by `Delete` (`tidy`). -/
structure Usage where
  names : Name → Prop
  lossless : Prop
  tidy : Prop

/-- The files of different databases, and the temporary files, have different paths. -/
structure Names (cfg : Cfg) (u : Usage) : Prop where
  inj : ∀ n m, u.names n → u.names m → cfg.path n = cfg.path m → n = m
  dst : ∀ n m, u.names n → u.names m → cfg.path n ≠ cfg.dst m
  bck : ∀ n m, u.names n → u.names m → cfg.path n ≠ cfg.bck m
  scratch : ∀ n, u.names n → cfg.dst n ≠ cfg.bck n

/-- The read chunk size is at least `n` or divides it. -/
def ChunkFits (cfg : Cfg) (n : Nat) : Prop := n ≤ cfg.readChunkSize ∨ cfg.readChunkSize ∣ n

/-- What is assumed of a commit in a history: the clock and all sizes fit in 64 bits signed; and when the usage is
`lossless`, no file operation whose error the code ignores fails and the chunk size suits the stored data. -/
structure CommitFits (cfg : Cfg) (u : Usage) (o : Pt → Fault) (now : Int) (fs : FS) (a : App) (id : Nat) (c : Ctx) : Prop where
  timeLo : -2 ^ 63 ≤ now
  timeHi : now < 2 ^ 63
  data : total (oldKeys c.reference) + (allData c.contentList).length < 2 ^ 63
  file : ∀ f, (commit cfg o now fs a id).fs.file (cfg.path c.name) = some f → f.length < 2 ^ 63
  noIgnored : u.lossless → NoIgnoredFailure o
  chunk : u.lossless → ChunkFits cfg (total (oldKeys c.reference))

/-- One call. A commit may fail or stop anywhere (`o`), with any outcome; `restart` is a new process on the same files. Calls
that return an error without changing anything are not listed. -/
inductive Step (cfg : Cfg) (u : Usage) : State → State → Prop
  | new (s : State) (n : Name) (fs' : FS) (hn : u.names n) (h : new' cfg s.fs n = .ok fs') : Step cfg u s ⟨fs', s.app⟩
  | delete (s : State) (n : Name) (fs' : FS) (hn : u.names n) (ht : u.tidy → ∀ e ∈ s.app, e.2.name ≠ n)
      (h : delete' cfg s.fs n = .ok fs') : Step cfg u s ⟨fs', s.app⟩
  | open' (s : State) (n : Name) (id : Nat) (a' : App) (hn : u.names n) (h : DB.open' cfg s.fs s.app n = .ok (id, a')) :
      Step cfg u s ⟨s.fs, a'⟩
  | close (s : State) (id : Nat) (a' : App) (h : close s.app id = .ok a') : Step cfg u s ⟨s.fs, a'⟩
  | write (s : State) (id : Nat) (h data : Bytes) (kind : Nat) (a' : App) (hh : h.length = 64) (hk : kind < 2 ^ 64)
      (he : write s.app id h data kind = .ok a') : Step cfg u s ⟨s.fs, a'⟩
  | cancel (s : State) (id : Nat) (a' : App) (h : cancel s.app id = .ok a') : Step cfg u s ⟨s.fs, a'⟩
  | commit (s : State) (id : Nat) (c : Ctx) (o : Pt → Fault) (now : Int) (hc : s.app.get id = some c)
      (hf : CommitFits cfg u o now s.fs s.app id c) :
      Step cfg u s ⟨(DB.commit cfg o now s.fs s.app id).fs, (DB.commit cfg o now s.fs s.app id).app⟩
  | restart (s : State) : Step cfg u s ⟨s.fs, []⟩

/-- Histories. -/
inductive Steps (cfg : Cfg) (u : Usage) : State → State → Prop
  | refl (s : State) : Steps cfg u s s
  | tail (s t v : State) (h : Steps cfg u s t) (hs : Step cfg u t v) : Steps cfg u s v

/-- Before the first call: no context, no database. -/
structure Init (cfg : Cfg) (u : Usage) (s : State) : Prop where
  app : s.app = []
  good : FsGood s.fs
  none : ∀ n, u.names n → s.fs.dir (cfg.path n) = none

/-- A new process (`createApplication`, libs/databases/infrastructure/files/application.go:39-76) with any files in its directory: no
database of the names it uses is there, or each one that is there was left by some application, with parameters of its own (chunk size,
extensions, mining value, directory, names) but the same hash function, at some moment of its history, and was copied, moved or
restored to where it is found. -/
inductive Started : Cfg → Usage → State → Prop
  | fresh (cfg : Cfg) (u : Usage) (s : State) (h : Init cfg u s) : Started cfg u s
  | found (cfg : Cfg) (u : Usage) (s : State) (app : s.app = []) (good : FsGood s.fs)
      (C : Name → Cfg) (U : Name → Usage) (A B : Name → State) (m : Name → Name)
      (started : ∀ n f, u.names n → s.fs.file (cfg.path n) = some f → Started (C n) (U n) (A n))
      (steps : ∀ n f, u.names n → s.fs.file (cfg.path n) = some f → Steps (C n) (U n) (A n) (B n))
      (left : ∀ n f, u.names n → s.fs.file (cfg.path n) = some f → (B n).fs.file ((C n).path (m n)) = some f)
      (uses : ∀ n f, u.names n → s.fs.file (cfg.path n) = some f → (U n).names (m n) ∧ Names (C n) (U n) ∧ (C n).S = cfg.S ∧
        (u.lossless → (U n).lossless)) : Started cfg u s

/-- The states an application can get into. -/
def Reachable (cfg : Cfg) (u : Usage) (s : State) : Prop := ∃ s0, Started cfg u s0 ∧ Steps cfg u s0 s

/-- A file that holds the database with this reference, its data starting at this offset. -/
def Holds (cfg : Cfg) (u : Usage) (f : Bytes) : Option Reference → Nat → Prop
  | none, off => f = [] ∧ off = 0
  | some r, off => RefOK cfg r ∧ off = (refData r).length ∧ f.length < 2 ^ 63 ∧
      ∃ d, f = refData r ++ d ∧ (u.lossless → d.length = total r.contentKeys.list)

/-- What is true of every context in a history. -/
structure CtxOK (cfg : Cfg) (u : Usage) (fs : FS) (c : Ctx) : Prop where
  name : u.names c.name
  pending : ∀ x ∈ c.contentList, x.WF
  lt : c.conn.ino < fs.next
  only : ∀ p, fs.dir p = some c.conn.ino → p = cfg.path c.name
  holds : Holds cfg u (fs.ino c.conn.ino) c.reference c.dataOffset
  linked : u.tidy → c.conn.isOpen = true → fs.dir (cfg.path c.name) = some c.conn.ino

/-- What is true of every state in a history. -/
structure Inv (cfg : Cfg) (u : Usage) (s : State) : Prop where
  good : FsGood s.fs
  ctxs : ∀ e ∈ s.app, CtxOK cfg u s.fs e.2
  names : (s.app.map (·.2.name)).Nodup
  files : ∀ n, u.names n → ∀ f, s.fs.file (cfg.path n) = some f → ∃ r off, Holds cfg u f r off

/-! ### Contexts -/

theorem get_mem {a : App} {id : Nat} {c : Ctx} (h : a.get id = some c) : (id, c) ∈ a := by
  unfold App.get at h
  cases hf : a.find? (fun e => e.1 == id) with
  | none => rw [hf] at h; cases h
  | some e =>
    rw [hf] at h
    have h1 := List.find?_some hf
    have h2 := List.mem_of_find?_eq_some hf
    simp at h h1
    obtain ⟨i, d⟩ := e
    simp at h h1
    subst h h1
    exact h2

theorem get_set_self (a : App) (id : Nat) (c : Ctx) : (a.set id c).get id = some c := by
  simp [App.get, App.set]

theorem get_set_ne (a : App) {id id' : Nat} (c : Ctx) (h : id' ≠ id) : (a.set id c).get id' = a.get id' := by
  have h' : ¬ id = id' := fun e => h e.symm
  simp only [App.get, App.set, List.find?_cons]
  rw [show (id == id') = false by simp [h']]
  simp only
  congr 1
  induction a with
  | nil => rfl
  | cons e es ih =>
    by_cases he : e.1 = id
    · simp [he, h', ih]
    · rw [List.filter_cons_of_pos (by simp [he]), List.find?_cons, List.find?_cons, ih]

theorem get_delete_self (a : App) (id : Nat) : (a.delete id).get id = none := by
  unfold App.get App.delete
  simp

theorem mem_set {a : App} {id : Nat} {c : Ctx} {e : Nat × Ctx} (h : e ∈ a.set id c) : e = (id, c) ∨ (e ∈ a ∧ e.1 ≠ id) := by
  simpa [App.set] using h

theorem mem_delete {a : App} {id : Nat} {e : Nat × Ctx} (h : e ∈ a.delete id) : e ∈ a := by
  simp [App.delete] at h; exact h.1

/-- Two entries of the contexts with the same name are the same one. -/
theorem names_inj {a : App} (h : (a.map (·.2.name)).Nodup) {e e' : Nat × Ctx} (he : e ∈ a) (he' : e' ∈ a)
    (hn : e.2.name = e'.2.name) : e = e' :=
  List.inj_on_of_nodup_map h he he' hn

theorem names_set {a : App} (h : (a.map (·.2.name)).Nodup) (id : Nat) (c : Ctx)
    (hc : ∀ e ∈ a, e.1 ≠ id → e.2.name ≠ c.name) : ((a.set id c).map (·.2.name)).Nodup := by
  unfold App.set
  rw [List.map_cons, List.nodup_cons]
  constructor
  · intro hm
    rw [List.mem_map] at hm
    obtain ⟨e, he, hn⟩ := hm
    simp at he
    exact hc e he.1 he.2 hn
  · exact (h.sublist ((List.filter_sublist).map _))

theorem names_update {a : App} (h : (a.map (·.2.name)).Nodup) {id : Nat} {c : Ctx} (hg : a.get id = some c) (c' : Ctx)
    (hn : c'.name = c.name) : ((a.set id c').map (·.2.name)).Nodup := by
  apply names_set h
  intro e he hne hname
  have := names_inj h he (get_mem hg) (by rw [hname, hn])
  rw [this] at hne
  exact hne rfl

/-! ### Every step keeps the invariant -/

theorem Names.distinct {cfg : Cfg} {u : Usage} (hn : Names cfg u) {n : Name} (h : u.names n) : cfg.Distinct n :=
  ⟨hn.dst n n h h, hn.bck n n h h, hn.scratch n h⟩

theorem kept_eq (cfg : Cfg) (d : Bytes) (h : ChunkFits cfg d.length) : kept cfg d = d := by
  unfold kept
  apply List.take_of_length_le
  unfold makeChunkSize
  by_cases h0 : d.length = 0
  · omega
  split
  · rw [Nat.div_self (by omega)]; omega
  · rcases h with h | h
    · rw [show cfg.readChunkSize = d.length by omega, Nat.div_self (by omega)]; omega
    · rw [Nat.div_mul_cancel h]

theorem Holds.ref {cfg : Cfg} {u : Usage} {f : Bytes} {o : Option Reference} {off : Nat} (h : Holds cfg u f o off) :
    ∀ r, o = some r → RefOK cfg r := by
  rintro r rfl; exact h.1

theorem Holds.bounds {cfg : Cfg} {u : Usage} {f : Bytes} {o : Option Reference} {off : Nat} (h : Holds cfg u f o off) :
    o ≠ none → off ≤ f.length ∧ f.length < 2 ^ 63 := by
  intro hne
  cases o with
  | none => exact absurd rfl hne
  | some r =>
    obtain ⟨_, rfl, h1, d, rfl, _⟩ := h
    refine ⟨by simp, h1⟩

/-- Opening a file that holds a database gives that database. -/
theorem Holds.retrieve {cfg : Cfg} {u : Usage} {f : Bytes} {o : Option Reference} {off : Nat} (h : Holds cfg u f o off)
    (hc : 0 < cfg.readChunkSize) : retrieveReference cfg f = .ok (o, off) := by
  cases o with
  | none => obtain ⟨rfl, rfl⟩ := h; exact retrieveReference_nil cfg
  | some r =>
    obtain ⟨h0, rfl, h1, d, rfl, _⟩ := h
    exact retrieveReference_refData cfg hc r h0.wf d

theorem retrieve_zero {cfg : Cfg} {f : Bytes} (hc : cfg.readChunkSize = 0) {x : Option Reference × Nat}
    (h : retrieveReference cfg f = .ok x) : x = (none, 0) := by
  unfold retrieveReference at h
  have h0 : ∀ n, makeChunkSize cfg n = 0 := by intro n; unfold makeChunkSize; rw [hc]; split <;> omega
  simp only [h0, if_true] at h
  split at h
  · cases h
  · injection h with h; exact h.symm

theorem Holds.unique {cfg : Cfg} {u : Usage} {f : Bytes} {o : Option Reference} {off : Nat} (h : Holds cfg u f o off)
    {x : Option Reference × Nat} (hx : retrieveReference cfg f = .ok x) : x = (o, off) := by
  by_cases hc : 0 < cfg.readChunkSize
  · rw [h.retrieve hc] at hx; injection hx with hx; exact hx.symm
  · have hx' := retrieve_zero (by omega) hx
    cases o with
    | none => obtain ⟨rfl, rfl⟩ := h; exact hx'
    | some r =>
      exfalso
      obtain ⟨h0, rfl, h1, d, rfl, _⟩ := h
      have h0' : ∀ n, makeChunkSize cfg n = 0 := by intro n; unfold makeChunkSize; split <;> omega
      unfold retrieveReference at hx
      rw [readAt_ok _ _ _ (by simp only [List.length_append, refData_length]; omega)] at hx
      simp [h0'] at hx

/-- What a commit writes is a database again. -/
theorem Wrote.holds {cfg : Cfg} {u : Usage} {o : Pt → Fault} {now : Int} {c : Ctx} {r : Reference} {old x : Bytes}
    {t : HashTree.Tree} (hu : Updated cfg c now t r) (hp : ∀ x ∈ c.contentList, x.WF)
    (hold : Holds cfg u old c.reference c.dataOffset) (hlo : -2 ^ 63 ≤ now) (hhi : now < 2 ^ 63)
    (hdata : total (oldKeys c.reference) + (allData c.contentList).length < 2 ^ 63) (hlen : x.length < 2 ^ 63)
    (hno : u.lossless → NoIgnoredFailure o) (hch : u.lossless → ChunkFits cfg (total (oldKeys c.reference)))
    (hx : Wrote cfg o c r old x) : Holds cfg u x (some r) (refData r).length := by
  obtain ⟨⟨d, rfl⟩, hfull⟩ := hx
  have hsm : (referenceToContent r).length < 2 ^ 63 := by
    simp only [List.length_append, refData_length] at hlen; omega
  refine ⟨hu.refOK hp hold.ref hlo hhi hdata hsm, rfl, hlen, d, rfl, ?_⟩
  intro hl
  obtain ⟨_, he⟩ := hfull (hno hl) hold.bounds
  unfold newFile at he
  have he := List.append_cancel_left he
  rw [he, List.length_append, hu.keys, total_append, total_keysFrom]
  congr 1
  unfold carried
  cases hr : c.reference with
  | none => rfl
  | some r0 =>
    rw [hr] at hold
    obtain ⟨_, h2, _, d0, rfl, h5⟩ := hold
    have hch := hch hl
    rw [hr] at hch
    simp only [h2, List.drop_left]
    rw [kept_eq cfg d0 (by rw [h5 hl]; exact hch), h5 hl]
    rfl

/-- Contexts are not affected by changes to files other than their own. -/
theorem CtxOK.frame {cfg : Cfg} {u : Usage} {fs fs' : FS} {c : Ctx} (h : CtxOK cfg u fs c) (hnext : fs.next ≤ fs'.next)
    (hdir : fs'.dir (cfg.path c.name) = fs.dir (cfg.path c.name))
    (hino : fs'.ino c.conn.ino = fs.ino c.conn.ino)
    (honly : ∀ p, p ≠ cfg.path c.name → fs'.dir p ≠ some c.conn.ino) : CtxOK cfg u fs' c := by
  refine ⟨h.name, h.pending, Nat.lt_of_lt_of_le h.lt hnext, ?_, by rw [hino]; exact h.holds,
    fun ht ho => by rw [hdir]; exact h.linked ht ho⟩
  intro p hp
  by_contra hne
  exact honly p hne hp

/-- The invariant when only one file of the databases changes and the contexts do not. -/
theorem inv_new {cfg : Cfg} {u : Usage} {s : State} (h : Inv cfg u s) {n : Name} {fs' : FS} (hs : new' cfg s.fs n = .ok fs') : Inv cfg u ⟨fs', s.app⟩ := by
  unfold new' at hs
  split at hs
  · cases hs
  rename_i hnone
  injection hs with hs
  subst hs
  have hnone : s.fs.dir (cfg.path n) = none := by simpa using hnone
  have hI : s.fs.createIno (cfg.path n) = s.fs.next := by simp [FS.createIno, hnone]
  refine ⟨create_good h.good _, ?_, h.names, ?_⟩
  · intro e he
    have hc := h.ctxs e he
    have hlt := hc.lt
    by_cases hp : cfg.path e.2.name = cfg.path n
    · refine ⟨hc.name, hc.pending, Nat.lt_of_lt_of_le hlt (create_next _ _), ?_, ?_, ?_⟩
      · intro p hd
        by_cases hpn : p = cfg.path n
        · rw [hpn, hp]
        · exact hc.only p (by rw [← create_dir_ne s.fs hpn]; exact hd)
      · rw [create_ino_ne _ (by rw [hI]; omega)]; exact hc.holds
      · intro ht ho
        have := hc.linked ht ho
        rw [hp, hnone] at this
        cases this
    · apply hc.frame (create_next _ _) (create_dir_ne _ hp) (create_ino_ne _ (by rw [hI]; omega))
      intro p hne hd
      by_cases hpn : p = cfg.path n
      · rw [hpn, create_dir_self, hI] at hd
        injection hd with hd
        omega
      · rw [create_dir_ne _ hpn] at hd
        exact hne (hc.only p hd)
  · intro m hm f hf
    by_cases hp : cfg.path m = cfg.path n
    · rw [hp] at hf
      simp only [FS.file, create_dir_self, Option.map_some, Option.some.injEq] at hf
      rw [create_ino_self] at hf
      exact ⟨none, 0, hf.symm, rfl⟩
    · have : (s.fs.create (cfg.path n)).file (cfg.path m) = s.fs.file (cfg.path m) :=
        (create_touches s.fs (cfg.path n) (· = cfg.path n) (· = cfg.path n) rfl rfl).file h.good _ hp
          (fun q hq he => hp (he.symm.trans hq))
      simp only at hf
      rw [this] at hf
      exact h.files m hm f hf

theorem inv_delete {cfg : Cfg} {u : Usage} (hn : Names cfg u) {s : State} (h : Inv cfg u s) {n : Name} {fs' : FS}
    (hu : u.names n) (ht : u.tidy → ∀ e ∈ s.app, e.2.name ≠ n) (hs : delete' cfg s.fs n = .ok fs') :
    Inv cfg u ⟨fs', s.app⟩ := by
  unfold delete' at hs
  split at hs
  case isFalse => cases hs
  injection hs with hs
  subst hs
  refine ⟨remove_good h.good _, ?_, h.names, ?_⟩
  · intro e he
    have hc := h.ctxs e he
    refine ⟨hc.name, hc.pending, hc.lt, ?_, hc.holds, ?_⟩
    · intro p hd
      by_cases hpn : p = cfg.path n
      · subst hpn; simp [FS.remove, upd] at hd
      · simp only [FS.remove] at hd; rw [upd_ne _ _ hpn] at hd; exact hc.only p hd
    · intro t ho
      have hne : cfg.path e.2.name ≠ cfg.path n := fun hp => ht t e he (hn.inj _ _ hc.name hu hp)
      simp only [FS.remove]
      rw [upd_ne _ _ hne]
      exact hc.linked t ho
  · intro m hm f hf
    by_cases hp : cfg.path m = cfg.path n
    · rw [hp] at hf
      simp [FS.file, FS.remove, upd] at hf
    · simp only [FS.file, FS.remove] at hf
      rw [upd_ne _ _ hp] at hf
      exact h.files m hm f hf

theorem inv_open {cfg : Cfg} {u : Usage} {s : State} (h : Inv cfg u s) {n : Name} {id : Nat} {a' : App}
    (hu : u.names n) (hs : open' cfg s.fs s.app n = .ok (id, a')) : Inv cfg u ⟨s.fs, a'⟩ := by
  unfold open' at hs
  split at hs
  · cases hs
  rename_i hnot
  obtain ⟨x, hx, hs⟩ := Res.bind_eq_ok.mp hs
  simp only [Res.pure_eq, Res.ok.injEq, Prod.mk.injEq] at hs
  obtain ⟨rfl, rfl⟩ := hs
  unfold retrieveAt at hx
  cases hd : s.fs.dir (cfg.path n) with
  | none => simp [FS.file, hd] at hx
  | some i =>
    have hfile : s.fs.file (cfg.path n) = some (s.fs.ino i) := by simp [FS.file, hd]
    rw [hfile] at hx
    simp only at hx
    obtain ⟨r, off, hh⟩ := h.files n hu _ hfile
    have := hh.unique hx
    subst this
    refine ⟨h.good, ?_, ?_, h.files⟩
    · intro e he
      rcases mem_set he with rfl | ⟨he, _⟩
      · refine ⟨hu, by simp, ?_, ?_, ?_, ?_⟩
        · simp only [Option.getD_some]; exact h.good.1 _ _ hd
        · intro p hp
          simp only [Option.getD_some] at hp
          exact h.good.2 _ _ _ hp hd
        · simp only [Option.getD_some]; exact hh
        · intro _ _; simp only [Option.getD_some]; exact hd
      · exact h.ctxs e he
    · apply names_set h.names
      intro e he _ hname
      apply hnot
      simp only [List.any_eq_true, beq_iff_eq]
      exact ⟨e, he, hname⟩

theorem inv_close {cfg : Cfg} {u : Usage} {s : State} (h : Inv cfg u s) {id : Nat} {a' : App}
    (hs : close s.app id = .ok a') : Inv cfg u ⟨s.fs, a'⟩ := by
  unfold close at hs
  cases hg : s.app.get id with
  | none => rw [hg] at hs; cases hs
  | some c =>
    rw [hg] at hs
    simp only at hs
    split at hs
    case isFalse => cases hs
    injection hs with hs
    subst hs
    exact ⟨h.good, fun e he => h.ctxs e (mem_delete he), h.names.sublist ((List.filter_sublist).map _), h.files⟩

theorem inv_update {cfg : Cfg} {u : Usage} {s : State} (h : Inv cfg u s) {id : Nat} {c : Ctx} (hg : s.app.get id = some c)
    (L : List Content) (hL : ∀ x ∈ L, x.WF) : Inv cfg u ⟨s.fs, s.app.set id { c with contentList := L }⟩ := by
  refine ⟨h.good, ?_, names_update h.names hg _ rfl, h.files⟩
  intro e he
  rcases mem_set he with rfl | ⟨he, _⟩
  · have hc := h.ctxs _ (get_mem hg)
    exact ⟨hc.name, hL, hc.lt, hc.only, hc.holds, hc.linked⟩
  · exact h.ctxs e he

theorem inv_write {cfg : Cfg} {u : Usage} {s : State} (h : Inv cfg u s) {id : Nat} {hash data : Bytes} {kind : Nat} {a' : App}
    (hh : hash.length = 64) (hk : kind < 2 ^ 64) (hs : write s.app id hash data kind = .ok a') : Inv cfg u ⟨s.fs, a'⟩ := by
  unfold write at hs
  cases hg : s.app.get id with
  | none => rw [hg] at hs; cases hs
  | some c =>
    rw [hg] at hs
    obtain ⟨x, hx, hs⟩ := Res.bind_eq_ok.mp hs
    simp only [Res.pure_eq, Res.ok.injEq] at hs
    subst hs
    apply inv_update h hg
    intro y hy
    rcases List.mem_append.mp hy with hy | hy
    · exact (h.ctxs _ (get_mem hg)).pending y hy
    · simp only [List.mem_singleton] at hy
      subst hy
      unfold contentNow at hx
      split at hx
      · cases hx
      rename_i hne
      injection hx with hx
      subst hx
      exact ⟨hh, by simpa using hne, hk⟩

theorem inv_cancel {cfg : Cfg} {u : Usage} {s : State} (h : Inv cfg u s) {id : Nat} {a' : App}
    (hs : cancel s.app id = .ok a') : Inv cfg u ⟨s.fs, a'⟩ := by
  unfold cancel at hs
  cases hg : s.app.get id with
  | none => rw [hg] at hs; cases hs
  | some c =>
    rw [hg] at hs
    simp only [Res.ok.injEq] at hs
    subst hs
    exact inv_update h hg [] (by simp)

theorem updateReference_nonempty {cfg : Cfg} {c : Ctx} {now : Int} {r : Reference}
    (h : updateReference cfg c now = .ok r) : c.contentList ≠ [] := by
  intro he
  unfold updateReference at h
  obtain ⟨p, _, h⟩ := Res.bind_eq_ok.mp h
  rw [he, List.map_nil, Props.C04_empty_list_panics] at h
  cases h

theorem updateReference_spec {cfg : Cfg} {c : Ctx} {now : Int} {r : Reference} (hp : ∀ x ∈ c.contentList, x.WF)
    (href : ∀ r, c.reference = some r → RefOK cfg r)
    (hfit : total (oldKeys c.reference) + (allData c.contentList).length < 2 ^ 63)
    (h : updateReference cfg c now = .ok r) : ∃ t, Updated cfg c now t r := by
  obtain ⟨t, r', h', hu⟩ := updateReference_ok cfg c now (updateReference_nonempty h) hp href hfit
  rw [h] at h'
  injection h' with h'
  subst h'
  exact ⟨t, hu⟩

/-- What a commit did, whatever failed. -/
theorem commit_cases (cfg : Cfg) (o : Pt → Fault) (now : Int) (fs : FS) (a : App) (id : Nat) (c : Ctx)
    (hc : a.get id = some c) :
    ((commit cfg o now fs a id).fs = fs ∧ (commit cfg o now fs a id).app = a ∧
      ∀ r, updateReference cfg c now ≠ .ok r) ∨
    ∃ r, updateReference cfg c now = .ok r ∧
      commit cfg o now fs a id = finish fs a id c r ((updateDatabaseOnFile cfg o c r).run ⟨fs, c.conn⟩) := by
  unfold commit
  rw [hc]
  simp only
  cases h : updateReference cfg c now with
  | ok r => right; exact ⟨r, rfl, rfl⟩
  | err => left; exact ⟨rfl, rfl, by simp⟩
  | panic => left; exact ⟨rfl, rfl, by simp⟩

/-- The context after a commit that reached the files. -/
def finishCtx (c : Ctx) (r : Reference) (x : Out (Conn × Nat) × World) : Ctx :=
  match x with
  | (.ok (conn, off), _) => { c with conn := conn, reference := some r, dataOffset := off }
  | (_, w) => { c with conn := w.conn }

theorem finish_eq (fs : FS) (a : App) (id : Nat) (c : Ctx) (r : Reference) (x : Out (Conn × Nat) × World) :
    (finish fs a id c r x).fs = x.2.fs ∧ (finish fs a id c r x).app = a.set id (finishCtx c r x) := by
  rcases x with ⟨out, w⟩
  cases out with
  | ok v => rcases v with ⟨conn, off⟩; exact ⟨rfl, rfl⟩
  | err => exact ⟨rfl, rfl⟩
  | panic => exact ⟨rfl, rfl⟩
  | crash => exact ⟨rfl, rfl⟩
  | hang => exact ⟨rfl, rfl⟩

theorem finishCtx_stop (c : Ctx) (r : Reference) {out : Out (Conn × Nat)} (h : out.stop) (w : World) :
    finishCtx c r (out, w) = { c with conn := w.conn } := by
  cases out <;> first | rfl | exact absurd h (by simp [Out.stop])

theorem finish_out (fs : FS) (a : App) (id : Nat) (c : Ctx) (r : Reference) {out : Out (Conn × Nat)} (h : out.stop) (w : World) :
    (finish fs a id c r (out, w)).out = out.cast := by
  cases out <;> first | rfl | exact absurd h (by simp [Out.stop])

theorem CtxOK.dst_ne {cfg : Cfg} {u : Usage} (hn : Names cfg u) {fs : FS} {d : Ctx} (h : CtxOK cfg u fs d) {n : Name}
    (hu : u.names n) : ∀ p, Scratch cfg n p → fs.dir p ≠ some d.conn.ino := by
  rintro p (rfl | rfl) hd
  · exact hn.dst _ _ h.name hu (h.only _ hd).symm
  · exact hn.bck _ _ h.name hu (h.only _ hd).symm

theorem inv_commit {cfg : Cfg} {u : Usage} (hn : Names cfg u) {s : State} (h : Inv cfg u s) {id : Nat} {c : Ctx}
    {o : Pt → Fault} {now : Int} (hg : s.app.get id = some c) (hf : CommitFits cfg u o now s.fs s.app id c) :
    Inv cfg u ⟨(commit cfg o now s.fs s.app id).fs, (commit cfg o now s.fs s.app id).app⟩ := by
  have hfile := hf.file
  rcases commit_cases cfg o now s.fs s.app id c hg with ⟨h1, h2, _⟩ | ⟨r, hr, he⟩
  · rw [h1, h2]; exact h
  have hc := h.ctxs _ (get_mem hg)
  obtain ⟨t, hu⟩ := updateReference_spec hc.pending hc.holds.ref hf.data hr
  obtain ⟨ht, hi, hp⟩ := updateDatabase_any cfg o c r s.fs h.good (hn.distinct hc.name) hc.lt
    (hc.dst_ne hn hc.name _ (.inl rfl))
  rw [he] at hfile ⊢
  obtain ⟨e1, e2⟩ := finish_eq s.fs s.app id c r ((updateDatabaseOnFile cfg o c r).run ⟨s.fs, c.conn⟩)
  rw [e1] at hfile ⊢
  rw [e2]
  clear he e1 e2
  generalize (updateDatabaseOnFile cfg o c r).run ⟨s.fs, c.conn⟩ = x at *
  obtain ⟨out, w⟩ := x
  simp only at ht hi hp hfile ⊢
  -- frames for all contexts
  have hino : ∀ d, CtxOK cfg u s.fs d → w.fs.ino d.conn.ino = s.fs.ino d.conn.ino :=
    fun d hd => ht.ino _ hd.lt (hd.dst_ne hn hc.name)
  have honly : ∀ d, CtxOK cfg u s.fs d → ∀ p, p ≠ cfg.path d.name → w.fs.dir p ≠ some d.conn.ino := by
    intro d hd p hne hdir
    by_cases hown : Own cfg c.name p
    swap
    · rw [ht.dir p hown] at hdir; exact hne (hd.only p hdir)
    rcases hown with rfl | hsc
    swap
    · rcases ht.src p hsc _ hdir with ⟨q, hq, hd'⟩ | hlt
      · exact hd.dst_ne hn hc.name q hq hd'
      · have := hd.lt; omega
    have hlt := hd.lt
    have hj : ∀ j, (s.fs.next ≤ j ∨ s.fs.dir (cfg.dst c.name) = some j) → some j ≠ some d.conn.ino := by
      intro j hj hjd
      injection hjd with hjd
      subst hjd
      rcases hj with hj | hj
      · omega
      · exact hd.dst_ne hn hc.name _ (.inl rfl) hj
    cases hp with
    | old _ _ _ hdo _ =>
      rcases hdo with hdo | ⟨_, i, hi1, hi2, _⟩
      · rw [hdo] at hdir; exact hne (hd.only _ hdir)
      · rw [hi2] at hdir; injection hdir with hdir; omega
    | gone _ _ _ _ hdo => rw [hdo] at hdir; cases hdir
    | late _ _ j _ hdo hfr => rw [hdo] at hdir; exact hj j hfr hdir
    | new _ j hdo hfr => rw [hdo] at hdir; exact hj j hfr hdir
  have hother : ∀ d, CtxOK cfg u s.fs d → d.name ≠ c.name → CtxOK cfg u w.fs d := by
    intro d hd hne
    apply hd.frame ht.next _ (hino d hd) (honly d hd)
    apply ht.dir
    rintro (hp | hp | hp)
    · exact hne (hn.inj _ _ hd.name hc.name hp)
    · exact hn.dst _ _ hd.name hc.name hp
    · exact hn.bck _ _ hd.name hc.name hp
  have hwrote : ∀ x, Wrote cfg o c r (s.fs.ino c.conn.ino) x → x.length < 2 ^ 63 →
      Holds cfg u x (some r) (refData r).length := fun x hx hl =>
    hx.holds hu hc.pending hc.holds hf.timeLo hf.timeHi hf.data hl hf.noIgnored hf.chunk
  -- the context of the commit when it stopped
  have hself : ∀ conn : Conn, conn.ino = c.conn.ino →
      (u.tidy → conn.isOpen = true → w.fs.dir (cfg.path c.name) = some c.conn.ino) → CtxOK cfg u w.fs { c with conn := conn } := by
    intro conn hci hl
    refine ⟨hc.name, hc.pending, ?_, ?_, ?_, ?_⟩
    · simp only [hci]; exact Nat.lt_of_lt_of_le hc.lt ht.next
    · intro p hp
      simp only [hci] at hp
      by_contra hne
      exact honly c hc p hne hp
    · simp only [hci]; rw [hino c hc]; exact hc.holds
    · intro t o'; simp only [hci]; exact hl t o'
  have hctx : CtxOK cfg u w.fs (finishCtx c r (out, w)) := by
    cases hp with
    | old _ _ hs hdo hconn =>
      rw [finishCtx_stop c r hs]
      apply hself _ hi
      intro tt ho
      have hopen : c.conn.isOpen = true := by
        rcases hconn with hconn | ⟨hconn, _⟩
        · rw [← hconn]; exact ho
        · rw [hconn] at ho; cases ho
      have hl := hc.linked tt hopen
      rcases hdo with hdo | ⟨hno, _⟩
      · rw [hdo]; exact hl
      · rw [hno] at hl; cases hl
    | gone _ _ _ hs _ _ _ hcl =>
      rw [finishCtx_stop c r hs]
      exact hself _ hi (fun _ ho => by rw [hcl] at ho; cases ho)
    | late _ _ j hs _ _ _ hcl =>
      rw [finishCtx_stop c r hs]
      exact hself _ hi (fun _ ho => by rw [hcl] at ho; cases ho)
    | new _ j hdo hfr hx =>
      refine ⟨hc.name, hc.pending, (ht.good h.good).1 _ _ hdo, fun p hp => (ht.good h.good).2 _ _ _ hp hdo, ?_, fun _ _ => hdo⟩
      exact hwrote (w.fs.ino j) hx (hfile (w.fs.ino j) (by simp only [FS.file, hdo, Option.map_some]))
  refine ⟨ht.good h.good, ?_, names_update h.names hg _ ?_, ?_⟩
  · intro e hm
    rcases mem_set hm with rfl | ⟨hm, hne⟩
    · exact hctx
    · apply hother _ (h.ctxs e hm)
      intro hname
      have := names_inj h.names hm (get_mem hg) hname
      rw [this] at hne
      exact hne rfl
  · unfold finishCtx
    split <;> rfl
  · intro n hnn f hfn
    by_cases hne : n = c.name
    · subst hne
      cases hp with
      | old _ _ _ hdo _ =>
        rcases hdo with hdo | ⟨_, i, hi1, hi2, hi3⟩
        · have hfn' : s.fs.file (cfg.path c.name) = some f := by
            rw [← hfn]
            simp only [FS.file, hdo]
            cases hdd : s.fs.dir (cfg.path c.name) with
            | none => rfl
            | some i =>
              simp only [Option.map_some, Option.some.injEq]
              refine (ht.ino i (h.good.1 _ _ hdd) ?_).symm
              intro q hq hqd
              have := h.good.2 _ _ _ hqd hdd
              rcases hq with hq | hq
              · exact hn.dst _ _ hc.name hc.name (this.symm.trans hq)
              · exact hn.bck _ _ hc.name hc.name (this.symm.trans hq)
          exact h.files _ hnn f hfn'
        · simp only [FS.file, hi2, Option.map_some, hi3, Option.some.injEq] at hfn
          exact ⟨none, 0, hfn.symm, rfl⟩
      | gone _ _ _ _ hdo => simp [FS.file, hdo] at hfn
      | late _ _ j _ hdo hfr hx =>
        have := hfile f hfn
        simp only [FS.file, hdo, Option.map_some, Option.some.injEq] at hfn
        subst hfn
        exact ⟨some r, _, hwrote _ hx this⟩
      | new _ j hdo hfr hx =>
        have := hfile f hfn
        simp only [FS.file, hdo, Option.map_some, Option.some.injEq] at hfn
        subst hfn
        exact ⟨some r, _, hwrote _ hx this⟩
    · have hfile' : w.fs.file (cfg.path n) = s.fs.file (cfg.path n) := by
        apply ht.file h.good
        · rintro (hp | hp | hp)
          · exact hne (hn.inj _ _ hnn hc.name hp)
          · exact hn.dst _ _ hnn hc.name hp
          · exact hn.bck _ _ hnn hc.name hp
        · rintro q (hq | hq) hp
          · exact hn.dst _ _ hnn hc.name (hp.symm.trans hq)
          · exact hn.bck _ _ hnn hc.name (hp.symm.trans hq)
      simp only at hfn
      rw [hfile'] at hfn
      exact h.files n hnn f hfn

theorem inv_step {cfg : Cfg} {u : Usage} (hn : Names cfg u) {s t : State} (h : Inv cfg u s) (hs : Step cfg u s t) :
    Inv cfg u t := by
  cases hs with
  | new n fs' hu he => exact inv_new h he
  | delete n fs' hu ht he => exact inv_delete hn h hu ht he
  | open' n id a' hu he => exact inv_open h hu he
  | close id a' he => exact inv_close h he
  | write id hash data kind a' hh hk he => exact inv_write h hh hk he
  | cancel id a' he => exact inv_cancel h he
  | commit id c o now hc hf => exact inv_commit hn h hc hf
  | restart => exact ⟨h.good, by simp, by simp, h.files⟩

theorem inv_steps {cfg : Cfg} {u : Usage} (hn : Names cfg u) {s t : State} (h : Inv cfg u s) (hs : Steps cfg u s t) :
    Inv cfg u t := by
  induction hs with
  | refl => exact h
  | tail t v _ hs ih => exact inv_step hn ih hs

theorem Init.inv {cfg : Cfg} {u : Usage} {s : State} (h : Init cfg u s) : Inv cfg u s := by
  refine ⟨h.good, by rw [h.app]; simp, by rw [h.app]; simp, ?_⟩
  intro n hn f hf
  simp [FS.file, h.none n hn] at hf

/-- References made by `Commit` are the same for every mining value. -/
theorem RefOK.other {cfg cfg' : Cfg} {r : Reference} (h : RefOK cfg r) (hS : cfg.S = cfg'.S) : RefOK cfg' r := by
  obtain ⟨⟨w1, w2, w3, w4, w5⟩, h2, h3, h4, h5, h6, h7⟩ := h
  refine ⟨⟨w1, w2, w3, fun c hc => ?_, w5⟩, h2, h3, h4, h5, by rw [← hS]; exact h6, h7⟩
  obtain ⟨b, v2, v3, v4, v5, v6, v7⟩ := w4 c hc
  refine ⟨?_, v2, v3, v4, v5, v6, v7⟩
  rw [h7 c hc, hS] at b
  rw [h7 c hc]
  exact b

theorem Holds.other {cfg cfg' : Cfg} {u u' : Usage} {f : Bytes} {r : Option Reference} {off : Nat} (h : Holds cfg u f r off)
    (hS : cfg.S = cfg'.S) (hl : u'.lossless → u.lossless) : Holds cfg' u' f r off := by
  cases r with
  | none => exact h
  | some r =>
    obtain ⟨h1, h2, h3, d, h4, h5⟩ := h
    exact ⟨h1.other hS, h2, h3, d, h4, fun h => h5 (hl h)⟩

theorem Started.app {cfg : Cfg} {u : Usage} {s : State} (h : Started cfg u s) : s.app = [] := by
  cases h with
  | fresh _ _ _ h => exact h.app
  | found _ _ _ app => exact app

theorem Started.inv {cfg : Cfg} {u : Usage} {s : State} (h : Started cfg u s) : Inv cfg u s := by
  induction h with
  | fresh _ _ _ h => exact h.inv
  | found cfg u s app good C U A B m _ steps left uses ih =>
    refine ⟨good, by rw [app]; simp, by rw [app]; simp, ?_⟩
    intro n hn f hf
    obtain ⟨h1, h2, h3, h4⟩ := uses n f hn hf
    obtain ⟨r, off, hh⟩ := (inv_steps h2 (ih n f hn hf) (steps n f hn hf)).files (m n) h1 f (left n f hn hf)
    exact ⟨r, off, hh.other h3 h4⟩

/-- Every state of every history satisfies the invariant. -/
theorem Reachable.inv {cfg : Cfg} {u : Usage} (hn : Names cfg u) {s : State} (h : Reachable cfg u s) : Inv cfg u s := by
  obtain ⟨s0, h0, hs⟩ := h
  exact inv_steps hn h0.inv hs

end DB
end Rodkina
