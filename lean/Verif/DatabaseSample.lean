import Verif.DatabaseLemmas5
/-! Concrete histories showing that the hypotheses of the database theorems can be met. -/

namespace Rodkina
namespace DB

open Ref

/-! ### Sizes of references made by small commits -/

theorem build_one_length (S : Sha) (h : Bytes) (t : HashTree.Tree) (hb : HashTree.build S (some [h]) = .ok t) :
    (HashTree.toContent t).length = 200 := by
  have e : HashTree.build S (some [h]) = HashTree.build S (some [h, []]) := by simp [HashTree.build]
  rw [e, Props.build_two] at hb
  injection hb with hb
  subst hb
  simp [HashTree.toContent, HashTree.parentToContent, HashTree.leafToContent, Hash.fromBytes_length, S.len]

theorem build_two_length (S : Sha) (h h' : Bytes) (t : HashTree.Tree) (hb : HashTree.build S (some [h, h']) = .ok t) :
    (HashTree.toContent t).length = 200 := by
  rw [Props.build_two] at hb
  injection hb with hb
  subst hb
  simp [HashTree.toContent, HashTree.parentToContent, HashTree.leafToContent, Hash.fromBytes_length, S.len]

theorem keysFrom_length (h : Bytes) (off : Nat) (l : List Content) : (keysFrom h off l).length = l.length := by
  induction l generalizing off with
  | nil => rfl
  | cons x xs ih => simp [keysFrom, ih]

/-- Every commit takes at most 281 bytes. -/
def SmallCommits (L : List Commit) : Prop := ∀ c ∈ L, (commitToContent c).length ≤ 281

theorem commits_length {L : List Commit} (h : SmallCommits L) :
    (L.flatMap (fun x => le64 (commitToContent x).length ++ commitToContent x)).length ≤ 289 * L.length := by
  induction L with
  | nil => simp
  | cons c cs ih =>
    have h1 := h c (by simp)
    have h2 := ih (fun x hx => h x (by simp [hx]))
    simp only [List.flatMap_cons, List.length_append, le64_length, List.length_cons] at h2 ⊢
    omega

theorem refData_length_le {r : Reference} (hk : ∀ k ∈ r.contentKeys.list, k.WF) (h : SmallCommits r.commits.list) :
    (refData r).length ≤ 32 + 152 * r.contentKeys.list.length + 289 * r.commits.list.length := by
  have h1 := commits_length h
  have h2 := flatMap_contentKey_length _ hk
  rw [refData_length]
  simp only [referenceToContent, contentKeysToContent, commitsToContent, List.length_append, le64_length] at h1 h2 ⊢
  omega

theorem smallCommits_new {S : Sha} {mv : UInt8} {t : HashTree.Tree} {now : Int} {p : Option Bytes}
    (ht : (HashTree.toContent t).length = 200) (hp : ∀ x, p = some x → x.length = 64) :
    (commitToContent (commitNow S mv t now p none)).length ≤ 281 := by
  have : (parentPart p).length ≤ 65 := by
    cases p with
    | none => simp [parentPart]
    | some x => simp [parentPart, hp x rfl]
  simp only [commitToContent, commitNow, List.length_append, le64_length, ht, Option.map_none, proofPart, List.length_nil]
  omega

/-- A fault-free commit of one or two small contents on a small database succeeds and meets the size assumptions. -/
theorem small_commits {cfg : Cfg} {u : Usage} (hn : Names cfg u) {s : State} (h : Inv cfg u s) {id : Nat} {c : Ctx} {now : Int}
    (hg : s.app.get id = some c) (hopen : c.conn.isOpen = true) (hlo : -2 ^ 63 ≤ now) (hhi : now < 2 ^ 63)
    (hne : c.contentList ≠ []) (hp : c.contentList.length ≤ 2) (hx : (allData c.contentList).length ≤ 2 ^ 32) (hfile : (s.fs.ino c.conn.ino).length ≤ 2 ^ 32)
    (htot : total (oldKeys c.reference) ≤ 2 ^ 32)
    (hk : (oldKeys c.reference).length ≤ 2 ^ 32) (hm : (oldCommits c.reference).length ≤ 2 ^ 32)
    (hsm : SmallCommits (oldCommits c.reference)) (hends : CopyEnds cfg c (s.fs.ino c.conn.ino))
    (hch : u.lossless → ChunkFits cfg (total (oldKeys c.reference))) :
    (commit cfg calm now s.fs s.app id).out = .ok () ∧ CommitFits cfg u calm now s.fs s.app id c ∧
    ∃ t r j, Updated cfg c now t r ∧ SmallCommits r.commits.list ∧
      (commit cfg calm now s.fs s.app id).app =
        s.app.set id { c with conn := ⟨j, 0, true⟩, reference := some r, dataOffset := (refData r).length } ∧
      (commit cfg calm now s.fs s.app id).fs.dir (cfg.path c.name) = some j ∧
      (commit cfg calm now s.fs s.app id).fs.ino j = newFile cfg c r (s.fs.ino c.conn.ino) ∧
      updateReference cfg c now = .ok r ∧ (newFile cfg c r (s.fs.ino c.conn.ino)).length < 2 ^ 63 := by
  have hc : CtxOK cfg u s.fs c := h.ctxs _ (get_mem hg)
  have hdata : total (oldKeys c.reference) + (allData c.contentList).length < 2 ^ 63 := by omega
  obtain ⟨t, r, hr, hu⟩ := updateReference_ok cfg c now hne hc.pending hc.holds.ref hdata
  obtain ⟨w', j, he, E⟩ := updateDatabase_calm cfg c r s.fs h.good (hn.distinct hc.name) hopen hc.lt
    (hc.dst_ne hn hc.name _ (.inl rfl)) hends
  have htree := hu.tree
  have hsize : (HashTree.toContent t).length = 200 := by
    match hL : c.contentList, hne, hp with
    | [x], _, _ => rw [hL] at htree; exact build_one_length _ _ _ htree
    | [x, y], _, _ => rw [hL] at htree; exact build_two_length _ _ _ _ htree
    | _ :: _ :: _ :: _, _, h => simp at h
  have hsmr : SmallCommits r.commits.list := by
    intro y hy
    rw [hu.commits] at hy
    rcases List.mem_append.mp hy with hy | hy
    · exact hsm y hy
    · simp only [List.mem_singleton] at hy
      subst hy
      exact smallCommits_new hsize (lastHash_length cfg _ hc.holds.ref)
  have hkeys : ∀ k ∈ r.contentKeys.list, k.WF := by
    intro k hk
    rw [hu.keys] at hk
    rcases List.mem_append.mp hk with hk | hk
    · cases hcr : c.reference with
      | none => rw [hcr] at hk; cases hk
      | some r0 => rw [hcr] at hk; exact (hc.holds.ref r0 hcr).wf.keys k hk
    · exact (keysFrom_wf _ (commitNow_hash_length _ _ _ _ _ _) _ _ hc.pending hdata k hk).1
  have hlen := refData_length_le hkeys hsmr
  rw [hu.keys, hu.commits] at hlen
  simp only [List.length_append, keysFrom_length, List.length_cons, List.length_nil] at hlen
  have hcom : commit cfg calm now s.fs s.app id = finish s.fs s.app id c r (.ok (⟨j, 0, true⟩, (refData r).length), w') := by
    unfold commit
    rw [hg]
    simp only [hr, he]
  have hcar : (carried cfg c (s.fs.ino c.conn.ino)).length ≤ 2 ^ 32 := by
    unfold carried
    cases c.reference with
    | none => simp
    | some r0 =>
      simp only [kept]
      refine Nat.le_trans (List.length_take_le' _ _) (Nat.le_trans ?_ hfile)
      simp
  have hnew : (newFile cfg c r (s.fs.ino c.conn.ino)).length < 2 ^ 63 := by
    have hfm : (c.contentList.flatMap (fun x => x.data)).length = (allData c.contentList).length := rfl
    simp only [newFile, List.length_append]
    omega
  refine ⟨by rw [hcom]; rfl, ⟨hlo, hhi, hdata, ?_, fun _ => calm_noIgnored, hch⟩, t, r, j, hu, hsmr, by rw [hcom]; rfl,
    by rw [hcom]; exact E.dir, by rw [hcom]; exact E.content, hr, hnew⟩
  intro f hf
  rw [hcom] at hf
  simp only [finish, FS.file, E.dir, Option.map_some, E.content, Option.some.injEq] at hf
  subst hf
  exact hnew

/-- The same for one content. -/
theorem small_commit {cfg : Cfg} {u : Usage} (hn : Names cfg u) {s : State} (h : Inv cfg u s) {id : Nat} {c : Ctx} {now : Int}
    (hg : s.app.get id = some c) (hopen : c.conn.isOpen = true) (hlo : -2 ^ 63 ≤ now) (hhi : now < 2 ^ 63)
    {x : Content} (hp : c.contentList = [x]) (hx : x.data.length ≤ 2 ^ 32) (hfile : (s.fs.ino c.conn.ino).length ≤ 2 ^ 32)
    (htot : total (oldKeys c.reference) ≤ 2 ^ 32)
    (hk : (oldKeys c.reference).length ≤ 2 ^ 32) (hm : (oldCommits c.reference).length ≤ 2 ^ 32)
    (hsm : SmallCommits (oldCommits c.reference)) (hends : CopyEnds cfg c (s.fs.ino c.conn.ino))
    (hch : u.lossless → ChunkFits cfg (total (oldKeys c.reference))) :
    (commit cfg calm now s.fs s.app id).out = .ok () ∧ CommitFits cfg u calm now s.fs s.app id c ∧
    ∃ t r j, Updated cfg c now t r ∧ SmallCommits r.commits.list ∧
      (commit cfg calm now s.fs s.app id).app =
        s.app.set id { c with conn := ⟨j, 0, true⟩, reference := some r, dataOffset := (refData r).length } ∧
      (commit cfg calm now s.fs s.app id).fs.dir (cfg.path c.name) = some j ∧
      (commit cfg calm now s.fs s.app id).fs.ino j = newFile cfg c r (s.fs.ino c.conn.ino) ∧
      updateReference cfg c now = .ok r ∧ (newFile cfg c r (s.fs.ino c.conn.ino)).length < 2 ^ 63 :=
  small_commits hn h hg hopen hlo hhi (by rw [hp]; simp) (by rw [hp]; simp) (by rw [hp]; simpa [allData] using hx) hfile htot hk hm hsm
    hends hch

/-! ### A history -/

/-- A configuration: the database `n` is the file `n`. -/
def sampleCfg (S : Sha) (chunk : Nat) : Cfg := ⟨S, 0, id, "dst".toList, "bck".toList, chunk, fun _ => []⟩

/-- Database names without a dot, open databases not deleted, no data lost. -/
def sampleUsage (lossless : Prop) : Usage := ⟨fun n => '.' ∉ n, lossless, True⟩

theorem sampleNames (S : Sha) (chunk : Nat) (l : Prop) : Names (sampleCfg S chunk) (sampleUsage l) := by
  refine ⟨fun n m _ _ h => h, ?_, ?_, ?_⟩
  · intro n m hn _ h
    apply hn
    rw [show n = _ from h]
    simp [sampleCfg, Cfg.dst, Cfg.bck]
  · intro n m hn _ h
    apply hn
    rw [show n = _ from h]
    simp [sampleCfg, Cfg.dst, Cfg.bck]
  · intro n _ h
    simp only [Cfg.dst, Cfg.bck, sampleCfg, id] at h
    have := List.append_cancel_left h
    revert this
    decide

/-- No file at all. -/
def fs0 : FS := ⟨fun _ => none, fun _ => [], 0⟩

/-- The content written first. -/
def contentX : Content := ⟨List.replicate 64 1, [1, 2, 3, 4, 5], 3⟩
/-- The content written second. -/
def contentY : Content := ⟨List.replicate 64 2, [6, 7], 4⟩

/-- The database "a" exists and is open with nothing pending. -/
def sOpen : State := ⟨fs0.create ['a'], [(0, ⟨['a'], ⟨0, 0, true⟩, none, 0, []⟩)]⟩
/-- The context of `sWritten`. -/
def ctxX : Ctx := ⟨['a'], ⟨0, 0, true⟩, none, 0, [contentX]⟩
/-- The first content is pending. -/
def sWritten : State := ⟨fs0.create ['a'], [(0, ctxX)]⟩

theorem init0 (S : Sha) (chunk : Nat) (l : Prop) : Started (sampleCfg S chunk) (sampleUsage l) ⟨fs0, []⟩ :=
  .fresh _ _ _ ⟨rfl, ⟨by simp [fs0], by simp [fs0]⟩, by simp [fs0]⟩

theorem sOpen_reachable (S : Sha) (chunk : Nat) (l : Prop) : Reachable (sampleCfg S chunk) (sampleUsage l) sOpen := by
  refine ⟨_, init0 S chunk l, ?_⟩
  refine .tail _ ⟨fs0.create ['a'], []⟩ _ (.tail _ _ _ (.refl _) (.new _ ['a'] _ (by simp [sampleUsage]) rfl)) ?_
  exact .open' ⟨fs0.create ['a'], []⟩ ['a'] 0 _ (by simp [sampleUsage]) rfl

theorem sWritten_reachable (S : Sha) (chunk : Nat) (l : Prop) : Reachable (sampleCfg S chunk) (sampleUsage l) sWritten := by
  obtain ⟨s0, h0, h⟩ := sOpen_reachable S chunk l
  exact ⟨s0, h0, .tail _ _ _ h (.write sOpen 0 contentX.hash contentX.data 3 _ (by simp [contentX]) (by decide) rfl)⟩

/-- The state after the first commit. -/
def sCommitted (S : Sha) (chunk : Nat) : State :=
  ⟨(commit (sampleCfg S chunk) calm 5 sWritten.fs sWritten.app 0).fs, (commit (sampleCfg S chunk) calm 5 sWritten.fs sWritten.app 0).app⟩

theorem sWritten_commit (S : Sha) (chunk : Nat) (l : Prop) :
    (commit (sampleCfg S chunk) calm 5 sWritten.fs sWritten.app 0).out = .ok () ∧
    CommitFits (sampleCfg S chunk) (sampleUsage l) calm 5 sWritten.fs sWritten.app 0 ctxX ∧
    ∃ t r j, Updated (sampleCfg S chunk) ctxX 5 t r ∧ SmallCommits r.commits.list ∧
      (sCommitted S chunk).app =
        sWritten.app.set 0 { ctxX with conn := ⟨j, 0, true⟩, reference := some r, dataOffset := (refData r).length } ∧
      (sCommitted S chunk).fs.dir ['a'] = some j ∧
      (sCommitted S chunk).fs.ino j = newFile (sampleCfg S chunk) ctxX r [] ∧
      updateReference (sampleCfg S chunk) ctxX 5 = .ok r ∧ (newFile (sampleCfg S chunk) ctxX r []).length < 2 ^ 63 := by
  have h := (sWritten_reachable S chunk l).inv (sampleNames S chunk l)
  exact small_commit (sampleNames S chunk l) h (c := ctxX) rfl rfl (by decide) (by decide) rfl (by decide)
    (by decide) (by decide) (by decide) (by decide) (by simp [SmallCommits, oldCommits, ctxX]) (.inl rfl)
    (fun _ => .inl (by simp [ctxX, oldKeys, total]))

theorem sCommitted_reachable (S : Sha) (chunk : Nat) (l : Prop) :
    Reachable (sampleCfg S chunk) (sampleUsage l) (sCommitted S chunk) := by
  obtain ⟨s0, h0, h⟩ := sWritten_reachable S chunk l
  exact ⟨s0, h0, .tail _ _ _ h (.commit sWritten 0 ctxX calm 5 rfl (sWritten_commit S chunk l).2.1)⟩

/-- The database "a" with one commit of `contentX`, the context 0 open on it, and `L` pending. -/
structure ReadyWith (cfg : Cfg) (u : Usage) (s : State) (c : Ctx) (L : List Content) : Prop where
  reachable : Reachable cfg u s
  get : s.app.get 0 = some c
  only : s.app.length = 1
  name : c.name = ['a']
  isOpen : c.conn.isOpen = true
  pending : c.contentList = L
  data : dataOf s.fs c = [1, 2, 3, 4, 5]
  keys : (oldKeys c.reference).map (fun k => (k.hash, k.kind, k.content.from', k.content.length)) = [(contentX.hash, 3, 0, 5)]
  commits : (oldCommits c.reference).length = 1
  small : SmallCommits (oldCommits c.reference)
  reference : c.reference ≠ none
  offset : c.dataOffset ≤ 600
  linked : s.fs.dir ['a'] = some c.conn.ino

theorem sCommitted_ready (S : Sha) (chunk : Nat) (l : Prop) :
    ∃ c, ReadyWith (sampleCfg S chunk) (sampleUsage l) (sCommitted S chunk) c [contentX] := by
  obtain ⟨h1, h2, t, r, j, hu, hs, ha, hd, hi, _⟩ := sWritten_commit S chunk l
  have hk := hu.keys
  have hm := hu.commits
  have hinv := (sCommitted_reachable S chunk l).inv (sampleNames S chunk l)
  have hget : (sCommitted S chunk).app.get 0 =
      some { ctxX with conn := ⟨j, 0, true⟩, reference := some r, dataOffset := (refData r).length } := by
    rw [ha, get_set_self]
  have hc : CtxOK (sampleCfg S chunk) (sampleUsage l) (sCommitted S chunk).fs _ := hinv.ctxs _ (get_mem hget)
  have hlen := refData_length_le (hc.holds.1).wf.keys hs
  refine ⟨_, sCommitted_reachable S chunk l, hget, by rw [ha]; rfl, rfl, rfl, rfl, ?_, ?_, ?_, hs, by simp, ?_, hd⟩
  · unfold dataOf
    simp only [hi, newFile, List.drop_left]
    rfl
  · simp only [oldKeys, hk]
    rfl
  · simp only [oldCommits, hm]
    rfl
  · rw [hk, hm] at hlen
    simp only [List.length_append, List.length_cons, List.length_nil] at hlen
    have e1 : (oldKeys ctxX.reference).length = 0 := rfl
    have e2 : (oldCommits ctxX.reference).length = 0 := rfl
    have e3 : ∀ h o, (keysFrom h o ctxX.contentList).length = 1 := fun _ _ => rfl
    rw [e1, e2, e3] at hlen
    show (refData r).length ≤ 600
    omega

/-- Replacing the pending contents by `contentY`: `Cancel` and then `Write`. -/
theorem sample_ready (S : Sha) (chunk : Nat) (l : Prop) :
    ∃ s c, ReadyWith (sampleCfg S chunk) (sampleUsage l) s c [contentY] := by
  obtain ⟨c, h⟩ := sCommitted_ready S chunk l
  obtain ⟨s0, h0, hst⟩ := h.reachable
  refine ⟨⟨(sCommitted S chunk).fs, ((sCommitted S chunk).app.set 0 { c with contentList := [] }).set 0
      { c with contentList := [contentY] }⟩, { c with contentList := [contentY] },
    ⟨s0, h0, .tail _ ⟨(sCommitted S chunk).fs, (sCommitted S chunk).app.set 0 { c with contentList := [] }⟩ _
      (.tail _ _ _ hst (.cancel _ 0 _ ?_)) (.write _ 0 contentY.hash contentY.data 4 _ (by simp [contentY]) (by decide) ?_)⟩,
    get_set_self _ _ _, ?_, h.name, h.isOpen, rfl, h.data, h.keys, h.commits, h.small, h.reference, h.offset, h.linked⟩
  · unfold cancel; rw [h.get]
  · unfold write; rw [get_set_self]; rfl
  · simp only [App.set, List.filter_cons, beq_self_eq_true, Bool.not_true, Bool.false_eq_true, if_false, List.length_cons,
      List.filter_filter]
    have := h.only
    have hg := get_mem h.get
    obtain ⟨e, he⟩ := List.length_eq_one_iff.mp this
    rw [he] at hg ⊢
    simp only [List.mem_singleton] at hg
    subst hg
    simp

theorem ReadyWith.commit {S : Sha} {chunk : Nat} {l : Prop} {s : State} {c : Ctx} {x : Content}
    (h : ReadyWith (sampleCfg S chunk) (sampleUsage l) s c [x]) (hx : x.data.length ≤ 2 ^ 32) (h0 : 0 < chunk)
    (hl : l → 5 ≤ chunk) :
    (commit (sampleCfg S chunk) calm 9 s.fs s.app 0).out = .ok () ∧
    CommitFits (sampleCfg S chunk) (sampleUsage l) calm 9 s.fs s.app 0 c ∧
    ∃ t r j, Updated (sampleCfg S chunk) c 9 t r ∧ SmallCommits r.commits.list ∧
      (commit (sampleCfg S chunk) calm 9 s.fs s.app 0).app =
        s.app.set 0 { c with conn := ⟨j, 0, true⟩, reference := some r, dataOffset := (refData r).length } ∧
      (commit (sampleCfg S chunk) calm 9 s.fs s.app 0).fs.dir ['a'] = some j ∧
      (commit (sampleCfg S chunk) calm 9 s.fs s.app 0).fs.ino j = newFile (sampleCfg S chunk) c r (s.fs.ino c.conn.ino) ∧
      updateReference (sampleCfg S chunk) c 9 = .ok r ∧
      (newFile (sampleCfg S chunk) c r (s.fs.ino c.conn.ino)).length < 2 ^ 63 := by
  have hinv := h.reachable.inv (sampleNames S chunk l)
  have hlen : (s.fs.ino c.conn.ino).length = c.dataOffset + 5 := by
    have e := congrArg List.length h.data
    unfold dataOf at e
    simp only [List.length_drop, List.length_cons, List.length_nil] at e
    omega
  have hoff := h.offset
  have hkeys := h.keys
  have ht : total (oldKeys c.reference) = 5 ∧ (oldKeys c.reference).length = 1 := by
    obtain ⟨k, hk, e⟩ := List.map_eq_singleton_iff.mp hkeys
    rw [hk]
    simp at e
    simp [total, e.2.2.2]
  have hname := h.name
  obtain ⟨q1, q2, t, r, j, q3, q4, q5, q6, q7⟩ := small_commit (now := 9) (sampleNames S chunk l) hinv h.get h.isOpen (by decide) (by decide) h.pending hx (by rw [hlen]; omega)
    (by rw [ht.1]; decide) (by rw [ht.2]; decide) (by rw [h.commits]; decide) h.small
    (.inr ⟨h0, by omega, by omega⟩) (fun hh => .inl (by rw [ht.1]; exact hl hh))
  exact ⟨q1, q2, t, r, j, q3, q4, q5, by rw [hname] at q6; exact q6, q7⟩

/-! ### Commits with one fault -/

theorem copyLoop_congr {o o' : Pt → Fault} (h : ∀ k, o (.copyRead k) = o' (.copyRead k) ∧ o (.copySeek k) = o' (.copySeek k) ∧
    o (.copyWrite k) = o' (.copyWrite k)) (chunk i : Nat) : ∀ fuel k ro wo,
    copyLoop o chunk i fuel k ro wo = copyLoop o' chunk i fuel k ro wo := by
  intro fuel
  induction fuel with
  | zero => intros; rfl
  | succ n ih =>
    intro k ro wo
    unfold copyLoop copyStep
    rw [(h k).1, (h k).2.1, (h k).2.2, ih]

theorem writeContents_congr {o o' : Pt → Fault} (h : ∀ k, o (.dataSeek k) = o' (.dataSeek k) ∧ o (.dataWrite k) = o' (.dataWrite k))
    (i : Nat) : ∀ L k wo, writeContents o i k wo L = writeContents o' i k wo L := by
  intro L
  induction L with
  | nil => intros; rfl
  | cons x xs ih =>
    intro k wo
    unfold writeContents
    rw [(h k).1, (h k).2, ih]

theorem writeDestination_congr {cfg : Cfg} {o o' : Pt → Fault} {c : Ctx} {r : Reference}
    (h1 : ∀ k, o (.copyRead k) = o' (.copyRead k) ∧ o (.copySeek k) = o' (.copySeek k) ∧ o (.copyWrite k) = o' (.copyWrite k))
    (h2 : ∀ k, o (.dataSeek k) = o' (.dataSeek k) ∧ o (.dataWrite k) = o' (.dataWrite k))
    (h3 : o .createDst = o' .createDst) (h4 : o .writeRef = o' .writeRef) :
    writeDestination cfg o c r = writeDestination cfg o' c r := by
  unfold writeDestination copyOld
  rw [h3, h4]
  have e : copyFrom cfg o = copyFrom cfg o' := by
    funext a b d e
    rw [copyFrom, copyFrom, copyLoop_congr h1]
  simp only [e, writeContents_congr h2]

/-- One fault at one point. -/
def oneFault (p : Pt) (f : Fault) : Pt → Fault := fun q => if q = p then f else .none

/-- When the first read of the old data fails, the copy of the old data is skipped and the rest is written as usual. -/
theorem writeDestination_readFails (cfg : Cfg) (c : Ctx) (r : Reference) (w : World) (hopen : w.conn.isOpen = true)
    (hi : w.conn.ino ≠ w.fs.createIno (cfg.dst c.name)) (hne : c.reference ≠ none) (he : CopyEnds cfg c (w.fs.ino w.conn.ino)) :
    (writeDestination cfg (oneFault (.copyRead 0) (.fail 0)) c r).run w =
      (.ok (refData r).length,
       ⟨(w.fs.create (cfg.dst c.name)).setIno (w.fs.createIno (cfg.dst c.name)) (refData r ++ allData c.contentList),
        w.conn⟩) := by
  unfold writeDestination
  rw [bind_ok_eq (inoOf_run _ w)]
  rw [bind_ok_eq (x := createOp (oneFault (.copyRead 0) (.fail 0) .createDst) (cfg.dst c.name)) (createOp_none _ w)]
  generalize hI : w.fs.createIno (cfg.dst c.name) = i at *
  have hnil : (w.fs.create (cfg.dst c.name)).ino i = [] := by rw [← hI]; exact create_ino_self _ _
  have hsrc : (w.fs.create (cfg.dst c.name)).ino w.conn.ino = w.fs.ino w.conn.ino := create_ino_ne _ (by rw [hI]; exact hi)
  generalize hF : w.fs.create (cfg.dst c.name) = F at *
  have hw : F.write i 0 (refData r) = F.setIno i (refData r) := by
    have := write_end F i (refData r)
    rw [hnil] at this
    simpa using this
  have h1 : (writeOp (oneFault (.copyRead 0) (.fail 0) .writeRef) i 0 (refData r)).run ⟨F, w.conn⟩ =
      (.ok (), ⟨F.setIno i (refData r), w.conn⟩) := by
    rw [show oneFault (.copyRead 0) (.fail 0) .writeRef = .none from rfl, writeOp_none, ← hw]
  rw [bind_ok_eq h1]
  have hsrc' : (F.setIno i (refData r)).ino w.conn.ino = w.fs.ino w.conn.ino := by
    rw [setIno_ino_ne _ _ hi, hsrc]
  have h2 : (copyOld cfg (oneFault (.copyRead 0) (.fail 0)) c i (refData r).length).run ⟨F.setIno i (refData r), w.conn⟩ =
      (.ok (refData r).length, ⟨F.setIno i (refData r), w.conn⟩) := by
    unfold copyOld
    cases hcr : c.reference with
    | none => exact absurd hcr hne
    | some r0 =>
      rcases he with he | ⟨hc, hlt, hsmall⟩
      · exact absurd he hne
      simp only
      have hs : statSize.run ⟨F.setIno i (refData r), w.conn⟩ =
          (.ok (w.fs.ino w.conn.ino).length, ⟨F.setIno i (refData r), w.conn⟩) := by
        unfold statSize; simp [hopen, hsrc']
      rw [bind_ok_eq hs, copyFrom, sub64_eq (by omega) hsmall, copyFuel,
        if_neg (by have := makeChunkSize_pos cfg hc (n := (w.fs.ino w.conn.ino).length - c.dataOffset) (by omega); omega)]
      rfl
  rw [bind_ok_eq h2]
  have h3 := writeContents_calm i 0 (refData r).length c.contentList ⟨F.setIno i (refData r), w.conn⟩ (by simp [setIno_ino])
  rw [writeContents_congr (o := oneFault (.copyRead 0) (.fail 0)) (o' := calm) (fun k => ⟨rfl, rfl⟩), bind_ok_eq h3]
  simp only [setIno_ino, setIno_setIno, pure_run, allData]

theorem refData_grows {cfg : Cfg} {u : Usage} {fs : FS} {c : Ctx} (hc : CtxOK cfg u fs c) {r0 : Reference}
    (hr : c.reference = some r0) {now : Int} {t : HashTree.Tree} {r : Reference} (hu : Updated cfg c now t r)
    (hdata : total (oldKeys c.reference) + (allData c.contentList).length < 2 ^ 63) (hne : c.contentList ≠ []) :
    (refData r0).length + 152 ≤ (refData r).length := by
  have hk0 := (hc.holds.ref r0 hr).wf.keys
  have hk1 := keysFrom_wf (commitNow cfg.S cfg.miningValue t now (lastHash c.reference) none).hash
    (commitNow_hash_length _ _ _ _ _ _) _ _ hc.pending hdata
  have e1 := flatMap_contentKey_length _ hk0
  have e2 := flatMap_contentKey_length _ (fun k hk => (hk1 k hk).1)
  have hlen : ∀ h off (L : List Content), (keysFrom h off L).length = L.length := by
    intro h off L
    induction L generalizing off with
    | nil => rfl
    | cons x xs ih => simp [keysFrom, ih]
  rw [hlen] at e2
  have hpos := List.length_pos_iff.mpr hne
  rw [refData_length, refData_length]
  simp only [referenceToContent, contentKeysToContent, commitsToContent, List.length_append, le64_length, hu.keys, hu.commits,
    List.flatMap_append, e1, e2, hr, oldKeys, oldCommits]
  rw [hr] at e2
  simp only [oldKeys] at e2
  rw [e2]
  omega

end DB
end Rodkina
