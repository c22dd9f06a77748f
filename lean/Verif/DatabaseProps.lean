import Verif.DatabaseSample
/-! Property theorems for the file database, C23-C39 and C66-C69. -/

namespace Rodkina
namespace Props

open Ref DB

/-! ### C23 -/

theorem keysFrom_append (h : Bytes) (off : Nat) (a b : List Content) :
    keysFrom h off (a ++ b) = keysFrom h off a ++ keysFrom h (off + (allData a).length) b := by
  induction a generalizing off with
  | nil => simp [keysFrom, allData]
  | cons x xs ih => simp [keysFrom, allData, ih, Nat.add_assoc]

theorem keysFrom_hash (h : Bytes) (off : Nat) (a : List Content) :
    (keysFrom h off a).map (fun k => (k.hash, k.kind, k.content.length)) = a.map (fun x => (x.hash, x.kind, x.data.length)) := by
  induction a generalizing off with
  | nil => rfl
  | cons x xs ih => simp [keysFrom, ih]

theorem keysFrom_hash_mem (h : Bytes) (off : Nat) (a : List Content) (P : Bytes → Prop) (hP : ∀ x ∈ a, P x.hash) :
    ∀ k ∈ keysFrom h off a, P k.hash := by
  induction a generalizing off with
  | nil => simp [keysFrom]
  | cons x xs ih =>
    intro k hk
    rcases List.mem_cons.mp hk with rfl | hk
    · exact hP x (by simp)
    · exact ih _ (fun y hy => hP y (by simp [hy])) k hk

/-- C23: after a successful commit (with whatever faults the code notices), reading any content that was pending by its hash
gives exactly the bytes written; of contents with the same hash, the last one. `lossless` says no file error was ignored and
the chunk size condition of C25 holds. -/
theorem C23_commit_makes_pending_readable (cfg : Cfg) (u : Usage) (hn : Names cfg u) (hl : u.lossless) (s : State)
    (hs : Reachable cfg u s) (id : Nat) (c : Ctx) (o : Pt → Fault) (now : Int) (hg : s.app.get id = some c)
    (hf : CommitFits cfg u o now s.fs s.app id c) (hok : (commit cfg o now s.fs s.app id).out = .ok ())
    (x : Content) (hx : IsLast (fun y => y.hash = x.hash) c.contentList x) :
    readByHash (commit cfg o now s.fs s.app id).fs (commit cfg o now s.fs s.app id).app id x.hash = .ok x.data := by
  have hinv := hs.inv hn
  have hc : CtxOK cfg u s.fs c := hinv.ctxs _ (get_mem hg)
  obtain ⟨t, r, j, d, S⟩ := commit_success hn hinv hg hf hok
  obtain ⟨before, after, hL, _, hafter⟩ := hx
  have hd := S.data hl
  have hlen := (hc.holds.length hl).1
  have hget : (commit cfg o now s.fs s.app id).app.get id =
      some { c with conn := ⟨j, 0, true⟩, reference := some r, dataOffset := (refData r).length } := by
    rw [S.app, get_set_self]
  have hkeys := S.updated.keys
  rw [hL, keysFrom_append] at hkeys
  simp only [keysFrom] at hkeys
  have hfetch := (C14_keys_fetch _ _ S.updated.keysBuilt x.hash).1
    ⟨x.hash, x.kind, ⟨total (oldKeys c.reference) + (allData before).length, x.data.length⟩,
      (commitNow cfg.S cfg.miningValue t now (lastHash c.reference) none).hash⟩
  have hfetch := hfetch.mpr ⟨oldKeys c.reference ++ keysFrom _ (total (oldKeys c.reference)) before, _, by
    rw [hkeys, List.append_assoc], rfl, keysFrom_hash_mem _ _ _ (fun h => ¬ h = x.hash) hafter⟩
  unfold readByHash contentKeys
  rw [hget]
  simp only [Res.bind_ok]
  rw [hfetch]
  simp only [Res.bind_ok]
  have hx0 : 0 < x.data.length := List.length_pos_iff.mpr (hc.pending x (by rw [hL]; simp)).2.1
  have hsz := S.size
  have hall : allData c.contentList = allData before ++ (x.data ++ allData after) := by
    rw [hL]; simp [allData]
  rw [List.length_append] at hsz
  rw [hd, hall] at hsz
  simp only [List.length_append] at hsz
  unfold dataOf at hsz
  rw [hlen] at hsz
  rw [read_ok hget S.content rfl S.size rfl hx0 (by simp only; omega)]
  rw [hd, hall]
  constructor
  · simp only [List.length_append]; unfold dataOf; rw [hlen]; omega
  · simp only
    unfold dataOf
    rw [← hlen, ← List.length_append, ← List.append_assoc, List.drop_left, List.take_left]

/-- The hypotheses of C23 and C24 hold for a database with one commit and a second content pending. -/
example (S : Sha) : ∃ cfg u s c, cfg.S = S ∧ Names cfg u ∧ u.lossless ∧ Reachable cfg u s ∧ s.app.get 0 = some c ∧
    CommitFits cfg u calm 9 s.fs s.app 0 c ∧ (commit cfg calm 9 s.fs s.app 0).out = .ok () ∧
    IsLast (fun y => y.hash = contentY.hash) c.contentList contentY ∧ c.reference ≠ none ∧
    read s.fs s.app 0 ⟨0, 5⟩ = .ok [1, 2, 3, 4, 5] := by
  obtain ⟨s, c, h⟩ := sample_ready S 10 True
  obtain ⟨h1, h2, _⟩ := h.commit (by decide) (by decide) (by decide)
  refine ⟨_, _, s, c, rfl, sampleNames S 10 True, trivial, h.reachable, h.get, h2, h1, ?_, h.reference, ?_⟩
  · rw [h.pending]; exact ⟨[], [], rfl, rfl, by simp⟩
  · have hc : CtxOK (sampleCfg S 10) (sampleUsage True) s.fs c :=
      (h.reachable.inv (sampleNames S 10 True)).ctxs _ (get_mem h.get)
    rw [read_ok h.get (List.take_append_drop c.dataOffset _).symm
      (by rw [List.length_take, Nat.min_eq_left (hc.holds.length trivial).2])
      (by rw [List.take_append_drop]; exact (hc.holds.bounds h.reference).2) h.isOpen (by decide) (by decide)]
    have := h.data
    unfold dataOf at this
    rw [this]
    decide

/-! ### C24 -/

/-- C24: a successful commit keeps everything: what could be read can still be read with the same bytes, the old keys and
commits are still listed first and in the same order, followed by one key per pending content (same hash, kind and length,
pointing to the new commit) and exactly one new commit. Pointers are those the API can build (a length of at least one) with
an offset below 2^63; beyond that the addition of offsets wraps. -/
theorem C24_commit_keeps_everything (cfg : Cfg) (u : Usage) (hn : Names cfg u) (hl : u.lossless) (s : State)
    (hs : Reachable cfg u s) (id : Nat) (c : Ctx) (o : Pt → Fault) (now : Int) (hg : s.app.get id = some c)
    (hf : CommitFits cfg u o now s.fs s.app id c) (hok : (commit cfg o now s.fs s.app id).out = .ok ()) :
    (∀ (p : Pointer) (b : Bytes), 0 < p.length → p.from' < 2 ^ 63 → read s.fs s.app id p = .ok b →
      read (commit cfg o now s.fs s.app id).fs (commit cfg o now s.fs s.app id).app id p = .ok b) ∧
    ∃ (k : ContentKeys) (m : Commits) (new : List ContentKey) (last : Commit),
      contentKeys (commit cfg o now s.fs s.app id).app id = .ok k ∧
      commits (commit cfg o now s.fs s.app id).app id = .ok m ∧
      k.list = oldKeys c.reference ++ new ∧ m.list = oldCommits c.reference ++ [last] ∧
      new.map (fun k => (k.hash, k.kind, k.content.length)) = c.contentList.map (fun x => (x.hash, x.kind, x.data.length)) ∧
      (∀ k ∈ new, k.commit = last.hash) := by
  have hinv := hs.inv hn
  have hc : CtxOK cfg u s.fs c := hinv.ctxs _ (get_mem hg)
  obtain ⟨t, r, j, d, S⟩ := commit_success hn hinv hg hf hok
  have hd := S.data hl
  have hlen := hc.holds.length hl
  have hget : (commit cfg o now s.fs s.app id).app.get id =
      some { c with conn := ⟨j, 0, true⟩, reference := some r, dataOffset := (refData r).length } := by
    rw [S.app, get_set_self]
  constructor
  · intro p b h0 hp hb
    have hbound : (s.fs.ino c.conn.ino).length < 2 ^ 63 := by
      cases hcr : c.reference with
      | none => have := hc.holds; rw [hcr] at this; rw [this.1]; simp
      | some r0 => exact (hc.holds.bounds (by rw [hcr]; simp)).2
    have hsplit : s.fs.ino c.conn.ino = (s.fs.ino c.conn.ino).take c.dataOffset ++ dataOf s.fs c :=
      (List.take_append_drop _ _).symm
    rw [read_ok hg hsplit (by rw [List.length_take, Nat.min_eq_left hlen.2]) (by rw [← hsplit]; exact hbound) S.wasOpen h0 hp] at hb
    rw [read_ok hget S.content rfl S.size rfl h0 hp, hd]
    refine ⟨by rw [List.length_append]; omega, ?_⟩
    rw [hb.2, List.drop_append_of_le_length (by omega), List.take_append_of_le_length (by rw [List.length_drop]; omega)]
  · refine ⟨r.contentKeys, r.commits, _, _, ?_, ?_, S.updated.keys, S.updated.commits, ?_, ?_⟩
    · unfold contentKeys; rw [hget]
    · unfold commits; rw [hget]
    · exact keysFrom_hash _ _ _
    · intro k hk
      exact (keysFrom_wf _ (commitNow_hash_length _ _ _ _ _ _) _ _ hc.pending hf.data k hk).2

/-! ### C25 -/

/-- C25 is false of the code: with a read chunk size of 3 and five stored bytes, a successful fault-free commit replaces the
stored bytes `[4, 5]` by the first bytes of the content being committed. -/
theorem C25_copy_loses_data (S : Sha) : ∃ cfg u s c, cfg.S = S ∧ cfg.readChunkSize = 3 ∧ Names cfg u ∧ Reachable cfg u s ∧
    s.app.get 0 = some c ∧ CommitFits cfg u calm 9 s.fs s.app 0 c ∧ (commit cfg calm 9 s.fs s.app 0).out = .ok () ∧
    read s.fs s.app 0 ⟨3, 2⟩ = .ok [4, 5] ∧
    read (commit cfg calm 9 s.fs s.app 0).fs (commit cfg calm 9 s.fs s.app 0).app 0 ⟨3, 2⟩ = .ok [6, 7] := by
  obtain ⟨s, c, h⟩ := sample_ready S 3 False
  obtain ⟨h1, h2, _⟩ := h.commit (by decide) (by decide) (by decide)
  have hinv := h.reachable.inv (sampleNames S 3 False)
  have hc : CtxOK (sampleCfg S 3) (sampleUsage False) s.fs c := hinv.ctxs _ (get_mem h.get)
  refine ⟨_, _, s, c, rfl, rfl, sampleNames S 3 False, h.reachable, h.get, h2, h1, ?_, ?_⟩
  · rw [read_ok h.get (List.take_append_drop c.dataOffset _).symm
      (by rw [List.length_take, Nat.min_eq_left (hc.holds.bounds h.reference).1])
      (by rw [List.take_append_drop]; exact (hc.holds.bounds h.reference).2) h.isOpen (by decide) (by decide)]
    have := h.data
    unfold dataOf at this
    rw [this]
    decide
  · obtain ⟨t, r, j, d, T⟩ := commit_success (sampleNames S 3 False) hinv h.get h2 h1
    rw [read_ok (by rw [T.app, get_set_self]) T.content rfl T.size rfl (by decide) (by decide)]
    rw [(T.exact calm_noIgnored).2, h.data, h.pending]
    have : kept (sampleCfg S 3) [1, 2, 3, 4, 5] = [1, 2, 3] := by
      simp [kept, makeChunkSize, sampleCfg]
    rw [this]
    decide

/-- C25, what does hold: a successful commit in which no ignored file operation failed keeps exactly the longest prefix of the
stored data whose size is a multiple of the chunk actually used (the configured chunk size, or the data size if smaller),
followed by the pending contents; so it keeps all stored data exactly when the chunk size is at least the size of the stored
data or divides it. Missing from the full claim: every other chunk size. -/
theorem C25_copy_keeps_whole_chunks_partial (cfg : Cfg) (u : Usage) (hn : Names cfg u) (s : State) (hs : Reachable cfg u s)
    (id : Nat) (c : Ctx) (o : Pt → Fault) (now : Int) (hg : s.app.get id = some c)
    (hf : CommitFits cfg u o now s.fs s.app id c) (hno : NoIgnoredFailure o)
    (hok : (commit cfg o now s.fs s.app id).out = .ok ()) :
    ∃ c', (commit cfg o now s.fs s.app id).app.get id = some c' ∧
      dataOf (commit cfg o now s.fs s.app id).fs c' =
        (dataOf s.fs c).take ((dataOf s.fs c).length / min cfg.readChunkSize (dataOf s.fs c).length *
          min cfg.readChunkSize (dataOf s.fs c).length) ++ allData c.contentList ∧
      (dataOf (commit cfg o now s.fs s.app id).fs c' = dataOf s.fs c ++ allData c.contentList ↔
        ((dataOf s.fs c).length ≤ cfg.readChunkSize ∨ cfg.readChunkSize ∣ (dataOf s.fs c).length)) := by
  obtain ⟨t, r, j, d, T⟩ := commit_success hn (hs.inv hn) hg hf hok
  have he := (T.exact hno).2
  have hchunk : makeChunkSize cfg (dataOf s.fs c).length = min cfg.readChunkSize (dataOf s.fs c).length := by
    unfold makeChunkSize; split <;> omega
  have hd : dataOf (commit cfg o now s.fs s.app id).fs
      { c with conn := ⟨j, 0, true⟩, reference := some r, dataOffset := (refData r).length } = d := by
    unfold dataOf; simp only [T.content, List.drop_left]
  refine ⟨_, by rw [T.app, get_set_self], ?_, ?_⟩
  · rw [hd, he]; unfold kept; rw [hchunk]
  · rw [hd, he, List.append_cancel_right_eq]
    constructor
    · intro h
      have hl := congrArg List.length h
      unfold kept at hl
      rw [hchunk, List.length_take] at hl
      by_cases hle : (dataOf s.fs c).length ≤ cfg.readChunkSize
      · left; exact hle
      · right
        rw [Nat.min_eq_left (a := cfg.readChunkSize) (by omega)] at hl
        have h1 := Nat.div_mul_le_self (dataOf s.fs c).length cfg.readChunkSize
        exact Nat.dvd_of_mod_eq_zero (by
          have := Nat.div_add_mod' (dataOf s.fs c).length cfg.readChunkSize
          omega)
    · exact fun h => kept_eq cfg _ h

/-- The hypotheses hold for a chunk size that loses data and for one that does not. -/
example (S : Sha) (chunk : Nat) (h0 : 0 < chunk) : ∃ cfg u s c, cfg.readChunkSize = chunk ∧ Names cfg u ∧ Reachable cfg u s ∧
    s.app.get 0 = some c ∧ CommitFits cfg u calm 9 s.fs s.app 0 c ∧ NoIgnoredFailure calm ∧
    (commit cfg calm 9 s.fs s.app 0).out = .ok () ∧ (dataOf s.fs c).length = 5 := by
  obtain ⟨s, c, h⟩ := sample_ready S chunk False
  obtain ⟨h1, h2, _⟩ := h.commit (by decide) h0 (fun h => h.elim)
  exact ⟨_, _, s, c, rfl, sampleNames S chunk False, h.reachable, h.get, h2, calm_noIgnored, h1, by rw [h.data]; rfl⟩

/-! ### C26 -/

/-- What an application can see of an open context. -/
structure SameView (fs : FS) (a : App) (id : Nat) (fs' : FS) (a' : App) (id' : Nat) : Prop where
  keys : contentKeys a' id' = contentKeys a id
  byKind : ∀ k, contentKeysByKind a' id' k = contentKeysByKind a id k
  commits : commits a' id' = commits a id
  byHash : ∀ h, commitByHash a' id' h = commitByHash a id h
  read : ∀ p, read fs' a' id' p = read fs a id p
  readByHash : ∀ h, readByHash fs' a' id' h = readByHash fs a id h
  readAll : ∀ L, readAll fs' a' id' L = readAll fs a id L
  readAllByHashes : ∀ L, readAllByHashes fs' a' id' L = readAllByHashes fs a id L

theorem sameView_of {fs fs' : FS} {a a' : App} {id id' : Nat} {c c' : Ctx} (h : a.get id = some c) (h' : a'.get id' = some c')
    (hr : c'.reference = c.reference) (ho : c'.dataOffset = c.dataOffset) (hopen : c'.conn.isOpen = c.conn.isOpen)
    (hi : fs'.ino c'.conn.ino = fs.ino c.conn.ino) : SameView fs a id fs' a' id' := by
  have hk : DB.contentKeys a' id' = DB.contentKeys a id := by unfold DB.contentKeys; rw [h, h']; simp only [hr]
  have hm : DB.commits a' id' = DB.commits a id := by unfold DB.commits; rw [h, h']; simp only [hr]
  have hrd : ∀ p, DB.read fs' a' id' p = DB.read fs a id p := by
    intro p; unfold DB.read connRead; rw [h, h']; simp only [ho, hopen, hi]
  have hrh : ∀ x, DB.readByHash fs' a' id' x = DB.readByHash fs a id x := by
    intro x; unfold DB.readByHash; simp only [hk, hrd]
  refine ⟨hk, ?_, hm, ?_, hrd, hrh, ?_, ?_⟩
  · intro k; unfold contentKeysByKind; rw [hk]
  · intro x; unfold commitByHash; rw [hm]
  · intro L
    induction L with
    | nil => rfl
    | cons p ps ih => unfold DB.readAll; rw [hrd, ih]
  · intro L
    induction L with
    | nil => rfl
    | cons p ps ih => unfold DB.readAllByHashes; rw [hrh, ih]

theorem get_delete_names {cfg : Cfg} {u : Usage} {s : State} (h : Inv cfg u s) {id : Nat} {c : Ctx} (hg : s.app.get id = some c) :
    (s.app.delete id).any (fun e => e.2.name == c.name) = false := by
  rw [List.any_eq_false]
  intro e he
  simp only [App.delete, List.mem_filter, Bool.not_eq_true', beq_eq_false_iff_ne, ne_eq] at he
  simp only [beq_iff_eq]
  intro hname
  have := names_inj h.names he.1 (get_mem hg) hname
  rw [this] at he
  exact he.2 rfl

/-- C26: whatever the history, closing an open database and opening it again under its name works, and everything that can be
listed or read is the same as before; the same holds when a new process opens it instead. Assumes a positive chunk size and
that open databases are not deleted (`tidy`). -/
theorem C26_reopen_recovers (cfg : Cfg) (u : Usage) (hn : Names cfg u) (ht : u.tidy) (hchunk : 0 < cfg.readChunkSize) (s : State)
    (hs : Reachable cfg u s) (id : Nat) (c : Ctx) (hg : s.app.get id = some c) (hopen : c.conn.isOpen = true) :
    (∃ a1 id2 a2, close s.app id = .ok a1 ∧ a1.get id = none ∧ open' cfg s.fs a1 c.name = .ok (id2, a2) ∧
      SameView s.fs s.app id s.fs a2 id2) ∧
    (∃ id2 a2, open' cfg s.fs [] c.name = .ok (id2, a2) ∧ SameView s.fs s.app id s.fs a2 id2) := by
  have hinv := hs.inv hn
  have hc : CtxOK cfg u s.fs c := hinv.ctxs _ (get_mem hg)
  have hl := hc.linked ht hopen
  have key : ∀ a1 : App, a1.any (fun e => e.2.name == c.name) = false →
      ∃ id2 a2, open' cfg s.fs a1 c.name = .ok (id2, a2) ∧ SameView s.fs s.app id s.fs a2 id2 := by
    intro a1 ha
    refine ⟨a1.length, a1.set a1.length ⟨c.name, ⟨c.conn.ino, 0, true⟩, c.reference, c.dataOffset, []⟩, ?_, ?_⟩
    · unfold open' retrieveAt
      simp only [ha, FS.file, hl, Option.map_some, hc.holds.retrieve hchunk]
      rfl
    · exact sameView_of hg (get_set_self _ _ _) rfl rfl hopen.symm rfl
  refine ⟨?_, key [] rfl⟩
  obtain ⟨id2, a2, h1, h2⟩ := key (s.app.delete id) (get_delete_names hinv hg)
  refine ⟨s.app.delete id, id2, a2, ?_, get_delete_self _ _, h1, h2⟩
  unfold close
  rw [hg]
  simp [hopen]

/-- The hypotheses hold for a database with one commit. -/
example (S : Sha) : ∃ cfg u s c, cfg.S = S ∧ Names cfg u ∧ u.tidy ∧ 0 < cfg.readChunkSize ∧ Reachable cfg u s ∧
    s.app.get 0 = some c ∧ c.conn.isOpen = true ∧ c.reference ≠ none := by
  obtain ⟨s, c, h⟩ := sample_ready S 3 False
  exact ⟨_, _, s, c, rfl, sampleNames S 3 False, trivial, by simp [sampleCfg], h.reachable, h.get, h.isOpen, h.reference⟩

/-! ### C27 -/

theorem set_set (a : App) (id : Nat) (c c' : Ctx) : (a.set id c).set id c' = a.set id c' := by
  simp [App.set, List.filter_filter]

/-- Any number of `Write` calls on one context; a failing call changes nothing. -/
def writes (a : App) (id : Nat) : List (Bytes × Bytes × Nat) → App
  | [] => a
  | (h, d, k) :: L =>
    match write a id h d k with
    | .ok a' => writes a' id L
    | _ => writes a id L

theorem write_ok {a a' : App} {id : Nat} {h d : Bytes} {k : Nat} (e : write a id h d k = .ok a') :
    ∃ c x, a.get id = some c ∧ a' = a.set id { c with contentList := c.contentList ++ [x] } := by
  unfold write at e
  cases hg : a.get id with
  | none => rw [hg] at e; cases e
  | some c =>
    rw [hg] at e
    obtain ⟨x, _, e⟩ := Res.bind_eq_ok.mp e
    simp only [Res.pure_eq, Res.ok.injEq] at e
    exact ⟨c, x, rfl, e.symm⟩

theorem cancel_ok {a a' : App} {id : Nat} (e : cancel a id = .ok a') :
    ∃ c, a.get id = some c ∧ a' = a.set id { c with contentList := [] } := by
  unfold cancel at e
  cases hg : a.get id with
  | none => rw [hg] at e; cases e
  | some c => rw [hg] at e; injection e with e; exact ⟨c, rfl, e.symm⟩

theorem sameView_refl (fs : FS) (a : App) (id : Nat) : SameView fs a id fs a id :=
  ⟨rfl, fun _ => rfl, rfl, fun _ => rfl, fun _ => rfl, fun _ => rfl, fun _ => rfl, fun _ => rfl⟩

theorem sameView_get {fs fs' : FS} {a a' : App} {id : Nat} (h : a'.get id = a.get id)
    (hi : ∀ c, a.get id = some c → fs'.ino c.conn.ino = fs.ino c.conn.ino) : SameView fs a id fs' a' id := by
  cases hg : a.get id with
  | none =>
    rw [hg] at h
    have hk : DB.contentKeys a' id = DB.contentKeys a id := by unfold DB.contentKeys; rw [h, hg]
    have hm : DB.commits a' id = DB.commits a id := by unfold DB.commits; rw [h, hg]
    have hrd : ∀ p, DB.read fs' a' id p = DB.read fs a id p := by intro p; unfold DB.read; rw [h, hg]
    have hrh : ∀ x, DB.readByHash fs' a' id x = DB.readByHash fs a id x := by
      intro x; unfold DB.readByHash; simp only [hk, hrd]
    refine ⟨hk, ?_, hm, ?_, hrd, hrh, ?_, ?_⟩
    · intro k; unfold contentKeysByKind; rw [hk]
    · intro x; unfold commitByHash; rw [hm]
    · intro L
      induction L with
      | nil => rfl
      | cons p ps ih => unfold DB.readAll; rw [hrd, ih]
    · intro L
      induction L with
      | nil => rfl
      | cons p ps ih => unfold DB.readAllByHashes; rw [hrh, ih]
  | some c => exact sameView_of hg (by rw [h, hg]) rfl rfl rfl (hi c hg)

theorem sameView_pending {fs : FS} {a : App} {id : Nat} {c : Ctx} (hg : a.get id = some c) (L : List Content) (id' : Nat) :
    SameView fs a id' fs (a.set id { c with contentList := L }) id' := by
  by_cases h : id' = id
  · subst h; exact sameView_of hg (get_set_self _ _ _) rfl rfl rfl rfl
  · exact sameView_get (get_set_ne _ _ h) (fun _ _ => rfl)

/-- C27: `Write` and `Cancel` change nothing any context can list or read (they have no access to the files), and after any
number of writes a `Cancel` leaves exactly the state a `Cancel` without them leaves, so nothing cancelled can ever show. -/
theorem C27_pending_invisible (fs : FS) (a : App) (id : Nat) :
    (∀ h d k a', write a id h d k = .ok a' → ∀ id', SameView fs a id' fs a' id') ∧
    (∀ a', cancel a id = .ok a' → ∀ id', SameView fs a id' fs a' id') ∧
    (∀ L, cancel (writes a id L) id = cancel a id) := by
  refine ⟨?_, ?_, ?_⟩
  · intro h d k a' e id'
    obtain ⟨c, x, hg, rfl⟩ := write_ok e
    exact sameView_pending hg _ id'
  · intro a' e id'
    obtain ⟨c, hg, rfl⟩ := cancel_ok e
    exact sameView_pending hg _ id'
  · intro L
    induction L generalizing a with
    | nil => rfl
    | cons x L ih =>
      obtain ⟨h, d, k⟩ := x
      unfold writes
      cases e : write a id h d k with
      | err => exact ih a
      | panic => exact ih a
      | ok a' =>
        rw [ih a']
        obtain ⟨c, x, hg, rfl⟩ := write_ok e
        unfold cancel
        rw [hg, get_set_self]
        simp only [set_set]

/-- The pending contents are those written since the last `Cancel`, in order: each successful `Write` appends the content it was
given. -/
theorem C27_write_appends (a : App) (id : Nat) (c : Ctx) (hg : a.get id = some c) (h d : Bytes) (k : Nat) (hd : d ≠ []) : ∃ a' c', write a id h d k = .ok a' ∧ a'.get id = some c' ∧
      c'.contentList = c.contentList ++ [⟨h, d, k⟩] ∧ ∀ id', id' ≠ id → a'.get id' = a.get id' := by
  unfold write
  rw [hg]
  have : contentNow h d k = .ok ⟨h, d, k⟩ := by unfold contentNow; simp [hd]
  simp only [this, Res.bind_ok, Res.pure_eq]
  exact ⟨_, _, rfl, get_set_self _ _ _, rfl, fun id' hne => get_set_ne _ _ hne⟩

example : ∃ a a' id c, write a id contentY.hash contentY.data 4 = .ok a' ∧ cancel a id = .ok (a.set id c) ∧
    a.get id = some ctxX := ⟨sWritten.app, _, 0, _, rfl, rfl, rfl⟩

/-! ### C28 -/

theorem chainFrom_index {p : Option Bytes} {L : List Commit} (h : chainFrom p L) :
    (∀ c, L[0]? = some c → c.parent = p) ∧
    ∀ i a b, L[i]? = some a → L[i + 1]? = some b → b.parent = some a.hash := by
  induction L generalizing p with
  | nil => simp
  | cons c cs ih =>
    obtain ⟨h1, h2⟩ := h
    obtain ⟨i1, i2⟩ := ih h2
    refine ⟨by simp; exact h1, ?_⟩
    intro i a b ha hb
    cases i with
    | zero =>
      simp at ha hb
      subst ha
      exact i1 b (by simpa using hb)
    | succ i => exact i2 i a b (by simpa using ha) (by simpa using hb)

/-- C28: in every history, with any faults, the commits an open database lists form a chain: there is a first one, without
parent, and every other one names the one just before it as its parent. -/
theorem C28_commits_form_a_chain (cfg : Cfg) (u : Usage) (hn : Names cfg u) (s : State) (hs : Reachable cfg u s) (id : Nat)
    (k : Commits) (hk : commits s.app id = .ok k) :
    k.list ≠ [] ∧ (∀ c, k.list[0]? = some c → c.parent = none) ∧
    ∀ i a b, k.list[i]? = some a → k.list[i + 1]? = some b → b.parent = some a.hash := by
  unfold commits at hk
  cases hg : s.app.get id with
  | none => rw [hg] at hk; cases hk
  | some c =>
    rw [hg] at hk
    have hc : CtxOK cfg u s.fs c := (hs.inv hn).ctxs _ (get_mem hg)
    cases hr : c.reference with
    | none => simp only [hr] at hk; cases hk
    | some r =>
      simp only [hr, Res.ok.injEq] at hk
      subst hk
      have := hc.holds.ref r hr
      exact ⟨(commitsNow_ok this.wf.commitsBuilt).1, chainFrom_index this.chain⟩

/-- There is a history with two commits. -/
example (S : Sha) : ∃ cfg u s k, cfg.S = S ∧ Names cfg u ∧ Reachable cfg u s ∧ commits s.app 0 = .ok k ∧ k.list.length = 2 := by
  obtain ⟨s, c, h⟩ := sample_ready S 3 False
  obtain ⟨h1, h2, t, r, j, hu, _, ha, _⟩ := h.commit (by decide) (by decide) (by decide)
  obtain ⟨s0, h0, hst⟩ := h.reachable
  refine ⟨_, _, _, r.commits, rfl, sampleNames S 3 False, ⟨s0, h0, .tail _ _ _ hst (.commit s 0 c calm 9 h.get h2)⟩, ?_, ?_⟩
  · unfold commits; rw [ha, get_set_self]
  · rw [hu.commits]; simp [h.commits]

/-! ### C29 and C69 -/

theorem total_sum (L : List ContentKey) : total L = (L.map (·.content.length)).sum := by
  induction L with
  | nil => rfl
  | cons k ks ih => simp [total, ih]

theorem tiledFrom_index {off : Nat} {L : List ContentKey} (h : tiledFrom off L) :
    ∀ i k, L[i]? = some k → k.content.from' = off + total (L.take i) := by
  induction L generalizing off with
  | nil => simp
  | cons c cs ih =>
    obtain ⟨h1, h2⟩ := h
    intro i k hk
    cases i with
    | zero => simp at hk; subst hk; simpa [total] using h1
    | succ i =>
      rw [ih h2 i k (by simpa using hk)]
      simp [total, Nat.add_assoc]

theorem keys_ctx {a : App} {id : Nat} {k : ContentKeys} (hk : contentKeys a id = .ok k) :
    ∃ c r, a.get id = some c ∧ c.reference = some r ∧ r.contentKeys = k := by
  unfold contentKeys at hk
  cases hg : a.get id with
  | none => rw [hg] at hk; cases hk
  | some c =>
    rw [hg] at hk
    cases hr : c.reference with
    | none => simp only [hr] at hk; cases hk
    | some r => simp only [hr, Res.ok.injEq] at hk; exact ⟨c, r, rfl, hr, hk⟩

/-- C29: in every history (lossless), the stored contents lie one after the other from the start of the data area, in the order
they are listed, without gap or overlap, and their total size is the size of the data area. -/
theorem C29_contents_tile_the_data (cfg : Cfg) (u : Usage) (hn : Names cfg u) (hl : u.lossless) (s : State)
    (hs : Reachable cfg u s) (id : Nat) (k : ContentKeys) (hk : contentKeys s.app id = .ok k) :
    (∀ i x, k.list[i]? = some x → x.content.from' = ((k.list.take i).map (·.content.length)).sum ∧ 0 < x.content.length) ∧
    ∃ c, s.app.get id = some c ∧ (s.fs.ino c.conn.ino).length = c.dataOffset + (k.list.map (·.content.length)).sum := by
  obtain ⟨c, r, hg, hr, rfl⟩ := keys_ctx hk
  have hc : CtxOK cfg u s.fs c := (hs.inv hn).ctxs _ (get_mem hg)
  have hok := hc.holds.ref r hr
  constructor
  · intro i x hx
    refine ⟨by rw [tiledFrom_index hok.tiled i x hx, ← total_sum]; omega, ?_⟩
    have := (hok.wf.keys x (List.mem_of_getElem? hx)).2.2.1.2.2
    omega
  · refine ⟨c, hg, ?_⟩
    obtain ⟨h1, h2⟩ := hc.holds.length hl
    rw [List.length_drop, hr, total_sum] at h1
    simp only [oldKeys] at h1
    omega

theorem total_take_le (L : List ContentKey) (i : Nat) (k : ContentKey) (h : L[i]? = some k) :
    total (L.take i) + k.content.length ≤ total L := by
  induction L generalizing i with
  | nil => simp at h
  | cons c cs ih =>
    cases i with
    | zero => simp at h; subst h; simp [total]
    | succ i =>
      have := ih i (by simpa using h)
      simp only [List.take_succ_cons, total]
      omega

/-- C69: in every history (lossless), everything an open database lists can be read: the pointer of each listed content reads
exactly as many bytes as it says, and reading by any listed hash succeeds. -/
theorem C69_listed_contents_are_readable (cfg : Cfg) (u : Usage) (hn : Names cfg u) (hl : u.lossless) (s : State)
    (hs : Reachable cfg u s) (id : Nat) (c : Ctx) (hg : s.app.get id = some c) (hopen : c.conn.isOpen = true) (k : ContentKeys)
    (hk : contentKeys s.app id = .ok k) (x : ContentKey) (hx : x ∈ k.list) :
    (∃ b, read s.fs s.app id x.content = .ok b ∧ b.length = x.content.length) ∧
    ∃ b, readByHash s.fs s.app id x.hash = .ok b := by
  obtain ⟨c', r, hg', hr, rfl⟩ := keys_ctx hk
  rw [hg] at hg'
  injection hg' with hg'
  subst hg'
  have hc : CtxOK cfg u s.fs c := (hs.inv hn).ctxs _ (get_mem hg)
  have hok := hc.holds.ref r hr
  have all : ∀ x ∈ r.contentKeys.list, ∃ b, read s.fs s.app id x.content = .ok b ∧ b.length = x.content.length := by
    intro x hx
    obtain ⟨i, hi⟩ := List.mem_iff_getElem?.mp hx
    have h1 := tiledFrom_index hok.tiled i x hi
    have h2 := total_take_le _ i x hi
    have h3 := (hok.wf.keys x hx).2.2.1.2.2
    have h4 := hok.fits
    obtain ⟨h5, h6⟩ := hc.holds.length hl
    rw [hr] at h5
    simp only [oldKeys] at h5
    refine ⟨((dataOf s.fs c).drop x.content.from').take x.content.length, ?_, ?_⟩
    · rw [read_ok hg (List.take_append_drop c.dataOffset _).symm (by rw [List.length_take, Nat.min_eq_left h6])
        (by rw [List.take_append_drop]; exact (hc.holds.bounds (by rw [hr]; simp)).2) hopen (by omega) (by omega)]
      exact ⟨by rw [h5]; omega, rfl⟩
    · unfold dataOf
      rw [List.length_take, List.length_drop, h5]
      omega
  refine ⟨all x hx, ?_⟩
  have hf := C14_keys_fetch _ _ hok.wf.keysBuilt x.hash
  unfold readByHash
  rw [hk]
  simp only [Res.bind_ok]
  cases he : r.contentKeys.fetch x.hash with
  | ok y =>
    obtain ⟨b, a, hL, _⟩ := (hf.1 y).mp he
    obtain ⟨bs, hb, _⟩ := all y (by rw [hL]; simp)
    exact ⟨bs, by simpa using hb⟩
  | err => exact absurd rfl ((hf.2.1.mp he) x hx)
  | panic => exact absurd he hf.2.2

/-- The hypotheses of C29 and C69 hold for a database with one content. -/
example (S : Sha) : ∃ cfg u s c k, cfg.S = S ∧ Names cfg u ∧ u.lossless ∧ Reachable cfg u s ∧ s.app.get 0 = some c ∧
    c.conn.isOpen = true ∧ contentKeys s.app 0 = .ok k ∧ k.list.length = 1 := by
  obtain ⟨s, c, h⟩ := sample_ready S 10 True
  cases hr : c.reference with
  | none => exact absurd hr h.reference
  | some r =>
    refine ⟨_, _, s, c, r.contentKeys, rfl, sampleNames S 10 True, trivial, h.reachable, h.get, h.isOpen, ?_, ?_⟩
    · unfold contentKeys; rw [h.get]; simp only [hr]
    · have := congrArg List.length h.keys
      simpa [oldKeys, hr] using this

end Props
end Rodkina
