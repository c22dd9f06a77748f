import Verif.DecodeTail
import Verif.DecodeProps
/-!
# C128: what is decoded does not depend on what lies behind the bytes

The bytes given to a decoder are the visible part `vis` of a slice; `tail` is what follows them in the same buffer, up to its
capacity. Two calls with the same `vis` are calls with the same bytes.
-/

namespace Rodkina.Props

open HashTree DecodeSpec Ref

/-- The decoder gives the same outcome for the same bytes, wherever they lie. -/
def OnlyGivenBytes {α : Type} (decode : Slice → Res α) : Prop := ∀ v t t', decode ⟨v, t⟩ = decode ⟨v, t'⟩

/-- What the decoder accepts, and the value it returns, are the same for the same bytes, wherever they lie. -/
def AcceptsGivenBytes {α : Type} (decode : Slice → Res α) : Prop :=
  ∀ v t t' x, decode ⟨v, t⟩ = .ok x → decode ⟨v, t'⟩ = .ok x

/-- If the bytes at the end of their buffer do not crash the decoder, the outcome is the same wherever they lie. -/
def SameIfNoCrash {α : Type} (decode : Slice → Res α) : Prop := ∀ v t, decode ⟨v, []⟩ ≠ .panic → decode ⟨v, t⟩ = decode ⟨v, []⟩

/-- **C128 (partial, no crash).** For every decoder of hash trees, compact hash trees, content keys, commits, references and
contents: bytes that do not crash it when they end their buffer give the same outcome in front of any other bytes. Missing: bytes
that crash it; then a value may be made of the bytes that follow (`C128_negation`). -/
theorem C128_same_unless_crash_partial (S : Sha) (mv : UInt8) :
    SameIfNoCrash (toHashTree S) ∧ SameIfNoCrash (contentToCompact S) ∧ SameIfNoCrash (toContentKeys S) ∧
    SameIfNoCrash (toCommit S mv) ∧ SameIfNoCrash (toCommits S mv) ∧ SameIfNoCrash (toReference S mv) ∧
    SameIfNoCrash (toContentsInstance S) :=
  ⟨fun v t h => (kept_tree S (Grows.bare v t)).eq h, fun v t h => (kept_compact S (Grows.bare v t)).eq h,
    fun v t h => (kept_keys S (Grows.bare v t)).eq h, fun v t h => (kept_commit S mv (Grows.bare v t)).eq h,
    fun v t h => (kept_commits S mv (Grows.bare v t)).eq h, fun v t h => (kept_reference S mv (Grows.bare v t)).eq h,
    fun v t h => (kept_contents S (Grows.bare v t)).eq h⟩

/-- The hypothesis is met by a compact tree that was built and serialised. -/
example (S : Sha) : ∃ t, build S (some [[1], [2]]) = .ok t ∧
    contentToCompact S ⟨compactToContent (toCompact t), []⟩ ≠ .panic := by
  refine ⟨_, build_two S _ _, ?_⟩
  rw [(C06_compact S [[1], [2]] _ (build_two S _ _) (by simp [toLength, Tree.leaves, leafToLeaves]) []).2.2.2]
  simp

/-- **C128 (partial, values).** Hash trees, commits and contents are never made of bytes behind those given: what is accepted and
its value depend on the given bytes alone. Pointers, single content keys and single contents depend on them alone in every
outcome. Missing: compact trees, lists of content keys and references (`C128_negation`). -/
theorem C128_values_partial (S : Sha) (mv : UInt8) :
    AcceptsGivenBytes (toHashTree S) ∧ AcceptsGivenBytes (toCommit S mv) ∧ AcceptsGivenBytes (toCommits S mv) ∧
    AcceptsGivenBytes (toContentsInstance S) ∧ OnlyGivenBytes toPointer ∧ OnlyGivenBytes (toContentKey S) ∧
    OnlyGivenBytes (toContentInstance S) :=
  ⟨fun v t t' _ h => tree_same S (c := ⟨v, t⟩) (d := ⟨v, t'⟩) rfl h,
    fun v t t' _ h => commit_same S mv (c := ⟨v, t⟩) (d := ⟨v, t'⟩) rfl h,
    fun v t t' _ h => commits_same S mv (c := ⟨v, t⟩) (d := ⟨v, t'⟩) rfl h,
    fun v t t' _ h => contents_same S (c := ⟨v, t⟩) (d := ⟨v, t'⟩) rfl h, fun _ _ _ => pointer_same rfl, fun _ _ _ => key_same S rfl,
    fun _ _ _ => content_same S rfl⟩

/-- The hypothesis is met: the bytes of a tree are accepted, whatever follows them. -/
example (S : Sha) (t : Bytes) : ∃ v x, toHashTree S ⟨v, t⟩ = .ok x :=
  ⟨_, _, toHashTree_toContent S ⟨List.replicate 64 0, .base (List.replicate 64 1), .base (List.replicate 64 2)⟩
    (by simp [Tree.Sized, Leaf.Sized]) (by simp [-List.reduceReplicate, toContent, parentToContent, leafToContent]) t⟩

/-- **C128 (partial, references).** Bytes whose length and count fields say no more than there is are decoded, as a reference or
as a hash tree, with the same outcome wherever they lie (such bytes: the examples beside `C12_panic_only_on_overrun_partial` and
`C65_panic_only_on_overrun_partial`). -/
theorem C128_no_overrun_partial (S : Sha) (mv : UInt8) (v t t' : Bytes) :
    (¬ ReferenceOverruns v → toReference S mv ⟨v, t⟩ = toReference S mv ⟨v, t'⟩) ∧
    (¬ TreeOverruns v → toHashTree S ⟨v, t⟩ = toHashTree S ⟨v, t'⟩) := by
  constructor
  · intro h
    have hp := C65_panic_only_on_overrun_partial S mv ⟨v, []⟩ h
    rw [(C128_same_unless_crash_partial S mv).2.2.2.2.2.1 v t hp, (C128_same_unless_crash_partial S mv).2.2.2.2.2.1 v t' hp]
  · intro h
    have hp := C12_panic_only_on_overrun_partial S ⟨v, []⟩ h
    rw [(C128_same_unless_crash_partial S mv).1 v t hp, (C128_same_unless_crash_partial S mv).1 v t' hp]

/-! ### Bytes from behind -/

/-- A tree of two bottom leaves. -/
def onesTree : Tree := ⟨List.replicate 64 1, .base (List.replicate 64 1), .base (List.replicate 64 1)⟩

/-- A commit of this tree, as the builder makes it. -/
def onesCommit (S : Sha) (mv : UInt8) : Commit := commitNow S mv onesTree 0 none none

/-- The number whose 8 bytes are all 1. -/
def ones : Nat := 72340172838076673

/-- A content key written before the commits. -/
def onesKey : ContentKey := ⟨List.replicate 64 1, ones, ⟨ones, ones⟩, List.replicate 64 1⟩

/-- The bytes of the commits, read as a content key. -/
def commitsAsKey : ContentKey :=
  ⟨le64 224 ++ le64 216 ++ le64 0 ++ le64 200 ++ List.replicate 32 1, ones, ⟨ones, ones⟩,
    List.replicate 8 1 ++ le64 64 ++ List.replicate 48 1⟩

/-- A content key of the last 80 bytes of the commits and 72 bytes behind them. -/
def keyBehind (y : UInt8) : ContentKey := ⟨List.replicate 64 1, ones, ⟨ones, ones⟩, List.replicate 64 y⟩

/-- A reference of one content key and one commit, in which the number of content keys is 3. -/
def threeKeys (S : Sha) (mv : UInt8) : Bytes :=
  le64 160 ++ ((le64 3 ++ contentKeyToContent onesKey) ++ (le64 224 ++
    (le64 (commitToContent (onesCommit S mv)).length ++ commitToContent (onesCommit S mv))))

/-- What lies behind it. -/
def behind (y : UInt8) : Bytes := List.replicate 8 1 ++ List.replicate 64 y

theorem onesCommit_bytes (S : Sha) (mv : UInt8) : commitToContent (onesCommit S mv) =
    le64 0 ++ le64 200 ++ (List.replicate 64 1 ++ (le64 64 ++ (List.replicate 64 1 ++ List.replicate 64 1))) := by
  have h : commitToContent (onesCommit S mv) = le64 (toU64 0) ++ le64 (HashTree.toContent onesTree).length ++
    HashTree.toContent onesTree ++ [] ++ [] := rfl
  rw [h]
  decide +kernel

theorem keys_behind (y : UInt8) : contentKeyToContent commitsAsKey ++ contentKeyToContent (keyBehind y) =
    le64 224 ++ (le64 216 ++ (le64 0 ++ le64 200 ++ (List.replicate 64 1 ++ (le64 64 ++ (List.replicate 64 1 ++ List.replicate 64 1))))) ++
      behind y := by
  revert y
  have h : contentKeyToContent commitsAsKey ++ (List.replicate 64 1 ++ le64 ones ++ (le64 ones ++ le64 ones)) =
    le64 224 ++ (le64 216 ++ (le64 0 ++ le64 200 ++ (List.replicate 64 1 ++ (le64 64 ++ (List.replicate 64 1 ++ List.replicate 64 1))))) ++
      List.replicate 8 1 := by decide +kernel
  intro y
  rw [behind, ← List.append_assoc _ _ (List.replicate 64 y), ← h]
  simp only [List.append_assoc, contentKeyToContent, keyBehind, pointerToContent]

theorem onesCommit_wf (S : Sha) (mv : UInt8) : (onesCommit S mv).WF S mv where
  built := rfl
  sized := by simp [onesCommit, commitNow, onesTree, Tree.Sized, Leaf.Sized]
  timeLo := by show (-2 ^ 63 : Int) ≤ 0; decide
  timeHi := by show (0 : Int) < 2 ^ 63; decide
  parent := by intro p hp; cases hp
  proof := by intro m hm; cases hm
  small := by rw [onesCommit_bytes]; simp only [List.length_append, le64_length, List.length_replicate]; decide

/-- The reference that is read, depending on the byte `y` behind the bytes. -/
def readReference (S : Sha) (mv : UInt8) (y : UInt8) : Reference :=
  ⟨⟨GoMap.ofList (fun k => Hash.toString k.hash) [onesKey, commitsAsKey, keyBehind y], [onesKey, commitsAsKey, keyBehind y]⟩,
    ⟨GoMap.ofList (fun k => Hash.toString k.hash) [onesCommit S mv], [onesCommit S mv]⟩⟩

theorem threeKeys_read (S : Sha) (mv : UInt8) (y : UInt8) :
    toReference S mv ⟨threeKeys S mv, behind y⟩ = .ok (readReference S mv y) := by
  have hkl : (contentKeyToContent onesKey).length = 152 := contentKeyToContent_length _ (by decide)
  have hcl : (commitToContent (onesCommit S mv)).length = 216 := by
    rw [onesCommit_bytes]
    simp only [List.length_append, le64_length, List.length_replicate]
  obtain ⟨kb, hkb⟩ : ∃ kb, kb = le64 3 ++ contentKeyToContent onesKey := ⟨_, rfl⟩
  obtain ⟨cb, hcb⟩ : ∃ cb, cb = le64 (commitToContent (onesCommit S mv)).length ++ commitToContent (onesCommit S mv) := ⟨_, rfl⟩
  have hkbl : kb.length = 160 := by rw [hkb]; simp [hkl]
  have hcbl : cb.length = 224 := by rw [hcb]; simp [hcl]
  have hv : threeKeys S mv = [] ++ (le64 kb.length ++ (kb ++ (le64 cb.length ++ cb))) := by
    rw [hkbl, hcbl, hkb, hcb]
    rfl
  have hlen : (threeKeys S mv).length = 400 := by rw [hv]; simp [hkbl, hcbl]
  have s1 := section_spec [] kb (le64 cb.length ++ cb) (behind y) (by rw [← hv, hlen]; decide)
  have s2 := section_spec (le64 kb.length ++ kb) cb [] (behind y) (by simp [hkbl, hcbl])
  have hv2 : threeKeys S mv = le64 kb.length ++ kb ++ (le64 cb.length ++ (cb ++ [])) := by
    rw [hv]; simp
  rw [← hv] at s1
  rw [← hv2] at s2
  simp only [List.length_append, List.length_nil, Nat.zero_add, le64_length, List.nil_append] at s1 s2
  unfold toReference
  rw [if_neg (by simp [Slice.len, hlen, minReferenceSize, contentKeySize, commitMinSize]), s1, Res.bind_ok]
  have hkeys : toContentKeys S ⟨kb, le64 cb.length ++ cb ++ behind y⟩ = .ok (readReference S mv y).contentKeys := by
    have hk := toContentKeys_contentKeysToContent S (readReference S mv y).contentKeys [onesKey, commitsAsKey, keyBehind y] rfl
      (by
        intro x hx
        simp only [List.mem_cons, List.not_mem_nil, or_false] at hx
        rcases hx with rfl | rfl | rfl
        · decide
        · decide
        · exact ⟨List.length_replicate, (by decide : ones < 2 ^ 64), (by decide : (⟨ones, ones⟩ : Pointer).WF),
            List.length_replicate⟩) (by simp) []
    rw [← hk]
    refine keys_buffer S ?_ (by rw [Slice.len, hkbl]) ?_
    · show kb ++ (le64 cb.length ++ cb ++ behind y) = _ ++ []
      have hb := keys_behind y
      have hc : contentKeysToContent (readReference S mv y).contentKeys =
          le64 3 ++ contentKeyToContent onesKey ++ (contentKeyToContent commitsAsKey ++ contentKeyToContent (keyBehind y)) := by
        simp [contentKeysToContent, readReference]
      rw [hc, hb, hkb, hcbl, hcb, hcl, onesCommit_bytes, List.append_nil]
    · simp [Slice.len, contentKeysToContent, readReference, hkl]
      omega
  rw [hkeys, Res.bind_ok]
  rw [show 8 + kb.length = 8 + kb.length from rfl] at s2
  rw [s2, Res.bind_ok]
  have hcm := toCommits_commitsToContent S mv (readReference S mv y).commits [onesCommit S mv] rfl
    (by
      intro c hc
      simp only [List.mem_cons, List.not_mem_nil, or_false] at hc
      subst hc
      exact onesCommit_wf S mv) (behind y)
  have hcc : commitsToContent (readReference S mv y).commits = cb := by
    simp [commitsToContent, readReference, hcb]
  rw [hcc] at hcm
  rw [hcm]
  rfl

/-- Bytes that say that the left leaf of a tree has 130 bytes, of which 120 are there. -/
def longLeft : Bytes := List.replicate 64 7 ++ (le64 130 ++ List.replicate 120 7)

theorem longLeft_panic (S : Sha) : toHashTree S ⟨longLeft, []⟩ = .panic := by
  unfold toHashTree
  rw [if_neg (by decide +kernel)]
  have e1 : Slice.sub ⟨longLeft, []⟩ 0 64 = .ok ⟨List.replicate 64 7, le64 130 ++ List.replicate 120 7⟩ := by decide +kernel
  have e2 : Slice.from' ⟨longLeft, []⟩ 64 = .ok ⟨le64 130 ++ List.replicate 120 7, []⟩ := by decide +kernel
  have e3 : Slice.sub ⟨le64 130 ++ List.replicate 120 7, []⟩ 0 8 = .ok ⟨le64 130, List.replicate 120 7⟩ := by decide +kernel
  have e4 : leNat (le64 130) = 130 := by decide +kernel
  have e5 : Slice.sub ⟨le64 130 ++ List.replicate 120 7, []⟩ 8 138 = .panic := by decide +kernel
  rw [e1, e2]
  simp only [Res.bind_ok]
  rw [contentToParentLeaf_eq, if_neg (by decide +kernel), e3]
  simp only [Res.bind_ok, e4]
  rw [e5]
  rfl

theorem longLeft_err (S : Sha) : toHashTree S ⟨longLeft, List.replicate 10 7⟩ = .err := by
  unfold toHashTree
  rw [if_neg (by decide +kernel)]
  have e1 : Slice.sub ⟨longLeft, List.replicate 10 7⟩ 0 64 =
      .ok ⟨List.replicate 64 7, le64 130 ++ List.replicate 130 7⟩ := by decide +kernel
  have e2 : Slice.from' ⟨longLeft, List.replicate 10 7⟩ 64 = .ok ⟨le64 130 ++ List.replicate 120 7, List.replicate 10 7⟩ := by
    decide +kernel
  have e3 : Slice.sub ⟨le64 130 ++ List.replicate 120 7, List.replicate 10 7⟩ 0 8 = .ok ⟨le64 130, List.replicate 130 7⟩ := by
    decide +kernel
  have e4 : leNat (le64 130) = 130 := by decide +kernel
  have e5 : Slice.sub ⟨le64 130 ++ List.replicate 120 7, List.replicate 10 7⟩ 8 138 = .ok ⟨List.replicate 130 7, []⟩ := by
    decide +kernel
  have e6 : Slice.sub ⟨List.replicate 130 7, []⟩ 0 64 = .ok ⟨List.replicate 64 7, List.replicate 66 7⟩ := by decide +kernel
  have e7 : Slice.from' ⟨List.replicate 130 7, []⟩ 64 = .ok ⟨List.replicate 66 7, []⟩ := by decide +kernel
  rw [e1, e2]
  simp only [Res.bind_ok]
  rw [contentToParentLeaf_eq, if_neg (by decide +kernel), e3]
  simp only [Res.bind_ok, e4]
  rw [e5, Res.bind_ok, contentToLeaf_eq, if_neg (by decide +kernel), e6, Res.bind_ok, e7, Res.bind_ok, if_pos (by decide +kernel),
    contentToParentLeaf_eq, if_pos (by decide +kernel)]
  rfl

theorem twoKeys_read (S : Sha) (y : UInt8) :
    toContentKeys S ⟨le64 2 ++ contentKeyToContent onesKey, contentKeyToContent (keyBehind y)⟩ =
      .ok ⟨GoMap.ofList (fun k => Hash.toString k.hash) [onesKey, keyBehind y], [onesKey, keyBehind y]⟩ := by
  have hkl : (contentKeyToContent onesKey).length = 152 := contentKeyToContent_length _ (by decide)
  have hk := toContentKeys_contentKeysToContent S
    ⟨GoMap.ofList (fun k => Hash.toString k.hash) [onesKey, keyBehind y], [onesKey, keyBehind y]⟩ [onesKey, keyBehind y] rfl
    (by
      intro x hx
      simp only [List.mem_cons, List.not_mem_nil, or_false] at hx
      rcases hx with rfl | rfl
      · decide
      · exact ⟨List.length_replicate, (by decide : ones < 2 ^ 64), (by decide : (⟨ones, ones⟩ : Pointer).WF),
          List.length_replicate⟩) (by simp) []
  rw [← hk]
  refine keys_buffer S ?_ ?_ ?_
  · simp [contentKeysToContent]
  · simp [Slice.len, hkl]
  · simp [Slice.len, contentKeysToContent, hkl]
    omega

/-- **C128 (negation).** The same 400 bytes are decoded to different references, the same 208 bytes to different compact trees, and
the same 192 bytes crash the decoder of hash trees or are refused by it, depending on the bytes that lie behind them. -/
theorem C128_negation (S : Sha) (mv : UInt8) :
    (∃ v t t' r r', toReference S mv ⟨v, t⟩ = .ok r ∧ toReference S mv ⟨v, t'⟩ = .ok r' ∧ r.contentKeys.list ≠ r'.contentKeys.list) ∧
    (∃ v t t' c c', contentToCompact S ⟨v, t⟩ = .ok c ∧ contentToCompact S ⟨v, t'⟩ = .ok c' ∧ c ≠ c') ∧
    (toHashTree S ⟨longLeft, []⟩ = .panic ∧ toHashTree S ⟨longLeft, List.replicate 10 7⟩ = .err) ∧
    ¬ OnlyGivenBytes (toHashTree S) ∧ ¬ AcceptsGivenBytes (contentToCompact S) ∧ ¬ AcceptsGivenBytes (toContentKeys S) ∧
    ¬ AcceptsGivenBytes (toReference S mv) := by
  have href : (readReference S mv 1).contentKeys.list ≠ (readReference S mv 2).contentKeys.list := by
    intro h
    have h' : keyBehind 1 = keyBehind 2 := by
      simpa [readReference] using h
    exact absurd h' (by decide)
  obtain ⟨cv, ct, ct', c, c', hc, hc', hcc⟩ := C64_compact_reads_past_end S
  have hpan := longLeft_panic S
  have herr := longLeft_err S
  refine ⟨⟨_, _, _, _, _, threeKeys_read S mv 1, threeKeys_read S mv 2, href⟩, ⟨cv, ct, ct', c, c', hc, hc', hcc⟩, ⟨hpan, herr⟩,
    fun h => ?_, fun h => ?_, fun h => ?_, fun h => ?_⟩
  · have := h longLeft [] (List.replicate 10 7)
    rw [hpan, herr] at this
    cases this
  · have := h cv ct ct' c hc
    rw [hc'] at this
    exact hcc (by cases this; rfl)
  · have := h _ _ (contentKeyToContent (keyBehind 2)) _ (twoKeys_read S 1)
    rw [twoKeys_read S 2] at this
    injection this with this
    have h' : keyBehind 2 = keyBehind 1 := by
      simpa using congrArg ContentKeys.list this
    exact absurd h' (by decide)
  · have := h _ _ (behind 2) _ (threeKeys_read S mv 1)
    rw [threeKeys_read S mv 2] at this
    injection this with this
    exact href (by rw [this])

end Rodkina.Props
