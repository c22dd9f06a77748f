import Verif.DatabaseLemmas2
import Verif.ReferencesProps
/-! The specification of a stored database (regions, commit chain) and what `updateReference` and `retrieveReference` do. -/

namespace Rodkina
namespace DB

open Ref

/-! ### Specification -/

/-- The regions of the keys start at `off` and follow each other without gap or overlap. -/
def tiledFrom : Nat → List ContentKey → Prop
  | _, [] => True
  | off, k :: ks => k.content.from' = off ∧ tiledFrom (off + k.content.length) ks

/-- The number of bytes the keys describe. -/
def total : List ContentKey → Nat
  | [] => 0
  | k :: ks => k.content.length + total ks

/-- Every commit's parent is the hash of the commit before it; the first one's is `p`. -/
def chainFrom : Option Bytes → List Commit → Prop
  | _, [] => True
  | p, c :: cs => c.parent = p ∧ chainFrom (some c.hash) cs

/-- The contents of the keys were stored by the commits, in order: those of each commit name it, and its tree is that of their
hashes. -/
def storedBy (S : Sha) : List Commit → List ContentKey → Prop
  | [], ks => ks = []
  | c :: cs, ks => ∃ own rest, ks = own ++ rest ∧ own ≠ [] ∧ (∀ k ∈ own, k.commit = c.hash) ∧
      HashTree.build S (some (own.map (·.hash))) = .ok c.values ∧ storedBy S cs rest

/-- A reference as a history of commits leaves it. -/
structure RefOK (cfg : Cfg) (r : Reference) : Prop where
  wf : r.WF cfg.S cfg.miningValue
  tiled : tiledFrom 0 r.contentKeys.list
  chain : chainFrom none r.commits.list
  known : ∀ k ∈ r.contentKeys.list, ∃ c ∈ r.commits.list, c.hash = k.commit
  fits : total r.contentKeys.list < 2 ^ 63
  stored : storedBy cfg.S r.commits.list r.contentKeys.list
  unmined : ∀ c ∈ r.commits.list, c.mine = none

/-- The keys of contents stored one after the other from `off`. -/
def keysFrom (commit : Bytes) : Nat → List Content → List ContentKey
  | _, [] => []
  | off, x :: xs => ⟨x.hash, x.kind, ⟨off, x.data.length⟩, commit⟩ :: keysFrom commit (off + x.data.length) xs

/-- The bytes of all contents, one after the other. -/
def allData (L : List Content) : Bytes := L.flatMap (·.data)

/-! ### Lemmas -/

theorem tiledFrom_append (off : Nat) (a b : List ContentKey) :
    tiledFrom off (a ++ b) ↔ tiledFrom off a ∧ tiledFrom (off + total a) b := by
  induction a generalizing off with
  | nil => simp [tiledFrom, total]
  | cons k ks ih => simp [tiledFrom, total, ih, and_assoc, Nat.add_assoc]

theorem total_append (a b : List ContentKey) : total (a ++ b) = total a + total b := by
  induction a with
  | nil => simp [total]
  | cons k ks ih => simp [total, ih, Nat.add_assoc]

theorem tiledFrom_keysFrom (h : Bytes) (off : Nat) (L : List Content) : tiledFrom off (keysFrom h off L) := by
  induction L generalizing off with
  | nil => trivial
  | cons x xs ih => exact ⟨rfl, ih _⟩

theorem total_keysFrom (h : Bytes) (off : Nat) (L : List Content) : total (keysFrom h off L) = (allData L).length := by
  induction L generalizing off with
  | nil => rfl
  | cons x xs ih => simp [keysFrom, total, ih, allData]

theorem chainFrom_append (p : Option Bytes) (a : List Commit) (c : Commit) :
    chainFrom p (a ++ [c]) ↔ chainFrom p a ∧ c.parent = (match a.getLast? with | some x => some x.hash | none => p) := by
  induction a generalizing p with
  | nil => simp [chainFrom]
  | cons x xs ih =>
    simp only [List.cons_append, chainFrom, ih, and_assoc]
    cases xs with
    | nil => simp
    | cons y ys =>
      simp only [List.getLast?_cons_cons]
      cases h : (y :: ys).getLast? with
      | none => simp at h
      | some z => simp

theorem storedBy_append (S : Sha) {c : Commit} {own : List ContentKey} (h1 : own ≠ []) (h2 : ∀ k ∈ own, k.commit = c.hash)
    (h3 : HashTree.build S (some (own.map (·.hash))) = .ok c.values) : ∀ {cs : List Commit} {ks : List ContentKey},
    storedBy S cs ks → storedBy S (cs ++ [c]) (ks ++ own) := by
  intro cs
  induction cs with
  | nil =>
    intro ks h
    have h : ks = [] := h
    subst h
    exact ⟨own, [], by simp, h1, h2, h3, rfl⟩
  | cons c' cs ih =>
    rintro ks ⟨own', rest, rfl, a1, a2, a3, a4⟩
    exact ⟨own', rest ++ own, List.append_assoc .., a1, a2, a3, ih a4⟩

theorem keysFrom_hashes (h : Bytes) (off : Nat) (L : List Content) : (keysFrom h off L).map (·.hash) = L.map (·.hash) := by
  induction L generalizing off with
  | nil => rfl
  | cons x xs ih => simp [keysFrom, ih]

theorem tiled_end_le (off : Nat) (L : List ContentKey) (h : tiledFrom off L) :
    ∀ x ∈ L, off ≤ x.content.from' ∧ x.content.from' + x.content.length ≤ off + total L := by
  induction L generalizing off with
  | nil => simp
  | cons k ks ih =>
    intro x hx
    obtain ⟨h1, h2⟩ := h
    simp only [total]
    rcases List.mem_cons.mp hx with rfl | hx
    · omega
    · have := ih _ h2 x hx
      omega

theorem tiled_last (off : Nat) (L : List ContentKey) (h : tiledFrom off L) (hne : L ≠ []) :
    ∃ x ∈ L, x.content.from' + x.content.length = off + total L := by
  induction L generalizing off with
  | nil => exact absurd rfl hne
  | cons k ks ih =>
    obtain ⟨h1, h2⟩ := h
    cases ks with
    | nil => exact ⟨k, by simp, by simp [total]; omega⟩
    | cons k' ks' =>
      obtain ⟨x, hx, e⟩ := ih _ h2 (by simp)
      exact ⟨x, by simp at hx ⊢; tauto, by simp only [total] at e ⊢; omega⟩

theorem next_tiled (r : Reference) (hb : contentKeysNow r.contentKeys.list = .ok r.contentKeys)
    (ht : tiledFrom 0 r.contentKeys.list) (hf : total r.contentKeys.list < 2 ^ 63) :
    r.contentKeys.next = (total r.contentKeys.list : Int) := by
  have hle := tiled_end_le 0 _ ht
  obtain ⟨hne, _⟩ := contentKeysNow_ok hb
  obtain ⟨a, ⟨x, hx, hx'⟩, _⟩ := Props.C15_next_is_past_everything _ _ hb (fun x hx => by have := hle x hx; omega)
  obtain ⟨y, hy, e⟩ := tiled_last 0 _ ht hne
  have h1 := a y hy
  have h2 := (hle x hx).2
  omega

theorem toU64_nat (n : Nat) (h : n < 2 ^ 64) : toU64 (n : Int) = n := by
  unfold toU64; omega

theorem newKeys_ok (h : Bytes) (off : Nat) (L : List Content) (hL : ∀ x ∈ L, x.data ≠ []) (hf : off + (allData L).length < 2 ^ 64) :
    newKeys h (off : Int) L = .ok (keysFrom h off L) := by
  induction L generalizing off with
  | nil => rfl
  | cons x xs ih =>
    have hx : 0 < x.data.length := List.length_pos_iff.mpr (hL x (by simp))
    simp only [allData, List.flatMap_cons, List.length_append] at hf
    have := ih (off + x.data.length) (fun y hy => hL y (by simp [hy])) (by simp only [allData]; omega)
    unfold newKeys
    rw [toU64_nat off (by omega)]
    unfold pointerNow
    simp only
    rw [if_neg (by omega)]
    rw [show ((off : Int) + (x.data.length : Int)) = ((off + x.data.length : Nat) : Int) by omega, this]
    simp [keysFrom]

theorem contentKeysNow_list (L : List ContentKey) (h : L ≠ []) :
    contentKeysNow L = .ok ⟨GoMap.ofList (fun k => Hash.toString k.hash) L, L⟩ := by
  cases L with
  | nil => exact absurd rfl h
  | cons x xs => rfl

theorem commitsNow_list (L : List Commit) (h : L ≠ []) :
    commitsNow L = .ok ⟨GoMap.ofList (fun k => Hash.toString k.hash) L, L⟩ := by
  cases L with
  | nil => exact absurd rfl h
  | cons x xs => rfl

/-- The hash of the last stored commit. -/
def lastHash (o : Option Reference) : Option Bytes := (oldCommits o).getLast?.map (·.hash)

theorem latestHash_ok (cfg : Cfg) (o : Option Reference) (h : ∀ r, o = some r → RefOK cfg r) :
    latestHash o = .ok (lastHash o) := by
  cases o with
  | none => rfl
  | some r =>
    obtain ⟨hne, _⟩ := commitsNow_ok (h r rfl).wf.commitsBuilt
    unfold latestHash Commits.latest lastHash oldCommits
    cases h' : r.commits.list.getLast? with
    | none => simp at h'; exact absurd h' hne
    | some x => simp [h']

theorem nextOffset_ok (cfg : Cfg) (o : Option Reference) (h : ∀ r, o = some r → RefOK cfg r) :
    nextOffset o = (total (oldKeys o) : Int) := by
  cases o with
  | none => rfl
  | some r =>
    have h := h r rfl
    exact next_tiled r h.wf.keysBuilt h.tiled h.fits

/-- What `updateReference` computes. -/
structure Updated (cfg : Cfg) (c : Ctx) (now : Int) (t : HashTree.Tree) (r : Reference) : Prop where
  tree : HashTree.build cfg.S (some (c.contentList.map (·.hash))) = .ok t
  commits : r.commits.list =
    oldCommits c.reference ++ [commitNow cfg.S cfg.miningValue t now (lastHash c.reference) none]
  keys : r.contentKeys.list = oldKeys c.reference ++
    keysFrom (commitNow cfg.S cfg.miningValue t now (lastHash c.reference) none).hash (total (oldKeys c.reference)) c.contentList
  commitsBuilt : commitsNow r.commits.list = .ok r.commits
  keysBuilt : contentKeysNow r.contentKeys.list = .ok r.contentKeys

theorem updateReference_ok (cfg : Cfg) (c : Ctx) (now : Int) (hne : c.contentList ≠ []) (hp : ∀ x ∈ c.contentList, x.WF)
    (href : ∀ r, c.reference = some r → RefOK cfg r)
    (hfit : total (oldKeys c.reference) + (allData c.contentList).length < 2 ^ 63) :
    ∃ t r, updateReference cfg c now = .ok r ∧ Updated cfg c now t r := by
  obtain ⟨t, k, p, hb, _⟩ := Props.C03_build_is_merkle cfg.S (c.contentList.map (·.hash)) (by simpa using hne)
  have hkne : ∀ h, oldKeys c.reference ++ keysFrom h (total (oldKeys c.reference)) c.contentList ≠ [] := by
    intro h e
    cases hc : c.contentList with
    | nil => exact hne hc
    | cons x xs => rw [hc] at e; simp [keysFrom] at e
  unfold updateReference
  rw [latestHash_ok cfg _ href, hb, nextOffset_ok cfg _ href]
  simp only [Res.bind_ok]
  rw [commitsNow_list _ (by simp)]
  simp only [Res.bind_ok]
  rw [newKeys_ok _ _ _ (fun x hx => (hp x hx).2.1) (by omega)]
  simp only [Res.bind_ok]
  rw [contentKeysNow_list _ (hkne _)]
  simp only [Res.bind_ok, Res.pure_eq]
  refine ⟨t, _, rfl, hb, rfl, rfl, ?_, ?_⟩
  · exact commitsNow_list _ (by simp)
  · exact contentKeysNow_list _ (hkne _)

theorem commitNow_hash_length (S : Sha) (mv : UInt8) (t : HashTree.Tree) (now : Int) (p : Option Bytes) (q : Option Int) :
    (commitNow S mv t now p q).hash.length = 64 := by
  simp only [commitNow, commitHash, Hash.fromMultiBytes_eq]
  exact Hash.fromBytes_length S _

theorem keysFrom_wf (h : Bytes) (hh : h.length = 64) (off : Nat) (L : List Content) (hL : ∀ x ∈ L, x.WF)
    (hf : off + (allData L).length < 2 ^ 63) : ∀ k ∈ keysFrom h off L, k.WF ∧ k.commit = h := by
  induction L generalizing off with
  | nil => simp [keysFrom]
  | cons x xs ih =>
    simp only [allData, List.flatMap_cons, List.length_append] at hf
    have hx := hL x (by simp)
    have hx' := List.length_pos_iff.mpr hx.2.1
    intro k hk
    rcases List.mem_cons.mp hk with rfl | hk
    · exact ⟨⟨hx.1, hx.2.2, ⟨by simp; omega, by simp; omega, by simpa using hx'⟩, hh⟩, rfl⟩
    · exact ih _ (fun y hy => hL y (by simp [hy])) (by simp only [allData]; omega) k hk

theorem commit_small {r : Reference} {c : Commit} (h : c ∈ r.commits.list) :
    (commitToContent c).length ≤ (referenceToContent r).length := by
  have : (le64 (commitToContent c).length ++ commitToContent c).length ≤ (commitsToContent r.commits).length := by
    unfold commitsToContent
    generalize r.commits.list = L at h
    induction L with
    | nil => cases h
    | cons x xs ih =>
      simp only [List.flatMap_cons, List.length_append] at ih ⊢
      rcases List.mem_cons.mp h with rfl | h
      · omega
      · have := ih h; omega
  simp only [List.length_append, referenceToContent] at this ⊢
  omega

theorem lastHash_length (cfg : Cfg) (o : Option Reference) (h : ∀ r, o = some r → RefOK cfg r) :
    ∀ p, lastHash o = some p → p.length = 64 := by
  intro p hp
  unfold lastHash at hp
  cases hl : (oldCommits o).getLast? with
  | none => rw [hl] at hp; cases hp
  | some c =>
    rw [hl] at hp
    simp at hp
    subst hp
    cases o with
    | none => simp [oldCommits] at hl
    | some r =>
      have hm : c ∈ r.commits.list := List.mem_of_getLast? hl
      have := (h r rfl).wf.commits c hm
      rw [this.built]
      exact commitNow_hash_length _ _ _ _ _ _

/-- The updated reference is again one a history of commits leaves. -/
theorem Updated.refOK {cfg : Cfg} {c : Ctx} {now : Int} {t : HashTree.Tree} {r : Reference} (u : Updated cfg c now t r)
    (hp : ∀ x ∈ c.contentList, x.WF) (href : ∀ r, c.reference = some r → RefOK cfg r)
    (h1 : -2 ^ 63 ≤ now) (h2 : now < 2 ^ 63)
    (hfit : total (oldKeys c.reference) + (allData c.contentList).length < 2 ^ 63)
    (hsmall : (referenceToContent r).length < 2 ^ 63) : RefOK cfg r := by
  have hold : ∀ k ∈ oldKeys c.reference, k.WF ∧ ∃ x ∈ oldCommits c.reference, x.hash = k.commit := by
    intro k hk
    cases hr : c.reference with
    | none => rw [hr] at hk; cases hk
    | some r0 => rw [hr] at hk; exact ⟨(href r0 hr).wf.keys k hk, (href r0 hr).known k hk⟩
  have hlen := commitNow_hash_length cfg.S cfg.miningValue t now (lastHash c.reference) none
  have hnew := keysFrom_wf _ hlen (total (oldKeys c.reference)) c.contentList hp hfit
  refine ⟨⟨u.keysBuilt, u.commitsBuilt, ?_, ?_, hsmall⟩, ?_, ?_, ?_, ?_, ?_, ?_⟩
  · intro k hk
    rw [u.keys] at hk
    rcases List.mem_append.mp hk with hk | hk
    · exact (hold k hk).1
    · exact (hnew k hk).1
  · intro x hx
    have hxs := commit_small hx
    rw [u.commits] at hx
    rcases List.mem_append.mp hx with hx | hx
    · cases hr : c.reference with
      | none => rw [hr] at hx; cases hx
      | some r0 => rw [hr] at hx; exact (href r0 hr).wf.commits x hx
    · simp only [List.mem_singleton] at hx
      subst hx
      refine ⟨rfl, Props.build_sized _ _ _ u.tree, h1, h2, lastHash_length cfg _ href, ?_, by omega⟩
      intro m hm
      simp [commitNow] at hm
  · rw [u.keys, tiledFrom_append]
    refine ⟨?_, by rw [Nat.zero_add]; exact tiledFrom_keysFrom _ _ _⟩
    cases hr : c.reference with
    | none => trivial
    | some r0 => exact (href r0 hr).tiled
  · rw [u.commits, chainFrom_append]
    constructor
    · cases hr : c.reference with
      | none => trivial
      | some r0 => exact (href r0 hr).chain
    · simp only [commitNow, lastHash]
      cases (oldCommits c.reference).getLast? <;> rfl
  · intro k hk
    rw [u.keys] at hk
    rw [u.commits]
    rcases List.mem_append.mp hk with hk | hk
    · obtain ⟨x, hx, e⟩ := (hold k hk).2
      exact ⟨x, by simp [hx], e⟩
    · exact ⟨_, by simp, (hnew k hk).2.symm⟩
  · rw [u.keys, total_append, total_keysFrom]
    exact hfit
  · rw [u.keys, u.commits]
    refine storedBy_append _ ?_ (fun k hk => (hnew k hk).2) (by rw [keysFrom_hashes]; exact u.tree) ?_
    · intro e
      have e := congrArg (List.map (·.hash)) e
      rw [keysFrom_hashes] at e
      have : c.contentList = [] := by simpa using e
      have ht := u.tree
      rw [this] at ht
      simp [HashTree.build, HashTree.padHashes, HashTree.isPowerOfTwo, HashTree.leavesToHashTree, HashTree.childrenLeaves] at ht
    · cases hr : c.reference with
      | none => rfl
      | some r0 => exact (href r0 hr).stored
  · intro x hx
    rw [u.commits] at hx
    rcases List.mem_append.mp hx with hx | hx
    · cases hr : c.reference with
      | none => rw [hr] at hx; cases hx
      | some r0 => rw [hr] at hx; exact (href r0 hr).unmined x hx
    · rw [List.mem_singleton.mp hx]
      rfl

/-! ### Reading the reference back -/

theorem readLoop_ok (c : Bytes) (chunk last n off : Nat) (h : off + chunk * n + last ≤ c.length) :
    readLoop c chunk last (n + 1) off = .ok ((c.drop off).take (chunk * n + last)) := by
  induction n generalizing off with
  | zero =>
    unfold readLoop
    rw [if_pos rfl, readAt_ok c last off (by omega)]
    simp [readLoop]
  | succ n ih =>
    rw [Nat.mul_succ] at h
    unfold readLoop
    rw [if_neg (by omega), readAt_ok c chunk off (by omega)]
    simp only [Res.bind_ok]
    have hl : ((c.drop off).take chunk).length = chunk := by simp; omega
    rw [hl, ih (off + chunk) (by omega)]
    simp only [Res.bind_ok, Res.pure_eq]
    rw [Nat.mul_succ, show chunk * n + chunk + last = chunk + (chunk * n + last) by omega, List.take_add (i := chunk), List.drop_drop]

theorem refData_length (r : Reference) : (refData r).length = 8 + (referenceToContent r).length := by
  simp [refData]

/-- Opening the file a commit wrote gives the reference that was committed, and the position right behind it. -/
theorem retrieveReference_refData (cfg : Cfg) (hc : 0 < cfg.readChunkSize) (r : Reference)
    (hr : r.WF cfg.S cfg.miningValue) (d : Bytes) :
    retrieveReference cfg (refData r ++ d) = .ok (some r, (refData r).length) := by
  have hge := referenceToContent_length_ge _ _ r hr
  have hsm := hr.small
  have h8 : readAt (refData r ++ d) 8 0 = .ok (le64 (referenceToContent r).length) := by
    rw [readAt_ok _ _ _ (by simp [refData_length]; omega)]
    simp [refData]
  unfold retrieveReference
  rw [h8]
  simp only
  rw [leNat_le64 _ (by omega)]
  generalize hlen : (referenceToContent r).length = len at *
  have hp := makeChunkSize_pos cfg hc (show 0 < len by omega)
  generalize makeChunkSize cfg len = chunk at *
  rw [if_neg (by omega), if_neg (by omega)]
  have hmod := Nat.div_add_mod len chunk
  have hle := Nat.mul_div_le len chunk
  have e1 : chunk * (len / chunk) + (len - chunk * (len / chunk + 1 - 1)) = len := by
    rw [Nat.add_sub_cancel]
    omega
  rw [readLoop_ok _ _ _ _ _ (by
    rw [Nat.add_assoc, e1]
    simp only [List.length_append, refData_length]
    omega), e1]
  have e2 : ((refData r ++ d).drop 8).take len = referenceToContent r := by
    simp [refData, hlen]
  rw [e2]
  simp only [Res.bind_ok, toReference_referenceToContent _ _ r hr, Res.pure_eq, refData_length]

theorem retrieveReference_nil (cfg : Cfg) : retrieveReference cfg [] = .ok (none, 0) := rfl

end DB
end Rodkina
