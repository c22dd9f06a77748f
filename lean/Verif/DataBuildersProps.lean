import Verif.DataBuildersLemmas
import Verif.ReferencesProps
/-!
# C113, C114, C116: the builders of hash trees, contents and references
-/

namespace Rodkina.Props

open Rodkina.HashTree (Leaf Tree Compact)
open Rodkina.Ref
open Rodkina.DataBuild
open Rodkina.DataBuildSpec
open Rodkina.Ast.Build (Builder listBuilder)
open Rodkina.Ast.BuildSpec (since given givenPart field_part)

/-! ## C113: what is built is what was given -/

/-- **C113 (leaves).** -/
theorem C113_leaf (calls : List (Option (LeafCall))) (l : Leaf) :
    leafBuilder.build calls = .ok l ↔
      some l.head = givenPart LeafCall.head? calls ∧ l.parent? = givenPart LeafCall.parent? calls :=
  leaf_build  calls l

example : leafBuilder.build [some (.withParent (some (.base [1], .base [2]))), some (.withHead [3])] = .ok (.node [3] (.base [1]) (.base [2])) ∧
    leafBuilder.build [some (.withParent (some (.base [1], .base [2]))), some (.withHead [3]), some (.withParent none)] = .ok (.base [3]) :=
  ⟨(C113_leaf _ _).mpr ⟨rfl, rfl⟩, (C113_leaf _ _).mpr ⟨rfl, rfl⟩⟩

/-- **C113 (parents of leaves).** -/
theorem C113_parentLeaf (calls : List (Option (ParentLeafCall))) (p : Leaf × Leaf) :
    parentLeafBuilder.build calls = .ok p ↔
      some p.1 = givenPart ParentLeafCall.left? calls ∧ some p.2 = givenPart ParentLeafCall.right? calls :=
  parentLeaf_build  calls p

example : parentLeafBuilder.build [some (.withRight (some (.base [2]))), some (.withLeft (some (.base [1])))] = .ok (.base [1], .base [2]) :=
  (C113_parentLeaf _ _).mpr ⟨rfl, rfl⟩

/-- **C113 (compact trees).** -/
theorem C113_compact (calls : List (Option (CompactCall))) (c : Compact) :
    compactBuilder.build calls = .ok c ↔
      some c.head = givenPart CompactCall.head? calls ∧ some c.leaves = givenPart CompactCall.leaves? calls :=
  compact_build  calls c

example : compactBuilder.build [some (.withLeaves (some [.base [2]])), some (.withHead [1])] = .ok ⟨[1], [.base [2]]⟩ :=
  (C113_compact _ _).mpr ⟨rfl, rfl⟩

/-- **C113 (pointers).** -/
theorem C113_pointer (calls : List (Option (PointerCall))) (p : Pointer) :
    pointerBuilder.build calls = .ok p ↔
      some p.from' = givenPart PointerCall.from_? calls ∧ p.length = (given PointerCall.length? calls).getD 0 ∧ 0 < p.length :=
  pointer_build  calls p

example : pointerBuilder.build [some (.from 3), none, some (.from 0), some (.withLength 4)] = .ok ⟨0, 4⟩ ∧
    pointerBuilder.build [some (.from 3), some (.withLength 4), some (.withLength 0)] = .err :=
  ⟨(C113_pointer _ _).mpr ⟨rfl, rfl, by decide⟩, rfl⟩

/-- **C113 (content keys).** -/
theorem C113_contentKey (calls : List (Option (ContentKeyCall))) (k : ContentKey) :
    contentKeyBuilder.build calls = .ok k ↔
      some k.hash = givenPart ContentKeyCall.hash? calls ∧ some k.kind = givenPart ContentKeyCall.kind? calls ∧
        some k.content = givenPart ContentKeyCall.content? calls ∧ some k.commit = givenPart ContentKeyCall.commit? calls :=
  contentKey_build  calls k

example : contentKeyBuilder.build [some (.withKind 0), some (.withHash [1]), some (.withCommit [2]), some (.withContent (some ⟨3, 4⟩))] =
    .ok ⟨[1], 0, ⟨3, 4⟩, [2]⟩ :=
  (C113_contentKey _ _).mpr ⟨rfl, rfl, rfl, rfl⟩

/-- **C113 (references).** -/
theorem C113_reference (calls : List (Option (ReferenceCall))) (r : Reference) :
    referenceBuilder.build calls = .ok r ↔
      some r.contentKeys = givenPart ReferenceCall.contentKeys? calls ∧ some r.commits = givenPart ReferenceCall.commits? calls :=
  reference_build  calls r

example (k : ContentKeys) (c : Commits) : referenceBuilder.build [some (.withCommits (some c)), some (.withContentKeys (some k))] = .ok ⟨k, c⟩ :=
  (C113_reference _ _).mpr ⟨rfl, rfl⟩

/-- **C113 (the factory of references).** `Create` of the factory returns an error, whatever was given to its builder before: no reference
is ever made by it. -/
theorem C113_factory_fails (calls : List (Option ReferenceCall)) : factoryCreate calls = .err := by
  cases h : factoryCreate calls with
  | ok r =>
    have := ((C113_reference _ r).mp h).1
    simp [givenPart, given, since] at this
  | err => rfl
  | panic =>
    simp [factoryCreate, Builder.build, Builder.run, referenceBuilder] at h

example (k : ContentKeys) (c : Commits) : factoryCreate [some (.withCommits (some c)), some (.withContentKeys (some k))] = .err :=
  C113_factory_fails _

/-- **C113 (contents).** -/
theorem C113_content (calls : List (Option (ContentCall))) (c : Content) :
    contentBuilder.build calls = .ok c ↔
      some c.hash = givenPart ContentCall.hash? calls ∧ some c.kind = givenPart ContentCall.kind? calls ∧
        some c.data = givenPart ContentCall.data? calls ∧ c.data ≠ [] :=
  content_build  calls c

example : contentBuilder.build [some (.withKind 7), some (.withHash [1]), some (.withData (some [])), some (.withData (some [8]))] =
    .ok ⟨[1], [8], 7⟩ ∧ contentBuilder.build [some (.withKind 7), some (.withHash [1]), some (.withData (some []))] = .err :=
  ⟨(C113_content _ _).mpr ⟨rfl, rfl, rfl, by decide⟩, rfl⟩

/-- **C113 (commits).** Values and time as given, parent and proof if given; the hash is that of the head of the values, the
time in decimal, the parent and the big-endian bytes of the proof, one behind the other; a proof comes with the hash of that hash and
the proof, and with the number of leading bytes equal to the miner's. -/
theorem C113_commit (S : Sha) (mv : UInt8) (calls : List (Option CommitCall)) (c : Commit) :
    (commitBuilder S mv).build calls = .ok c ↔
      some c.values = givenPart CommitCall.values? calls ∧ some c.createdOn = givenPart CommitCall.createdOn? calls ∧
      c.parent = givenPart CommitCall.parent? calls ∧ c.mine.map Mine.proof = givenPart CommitCall.proof? calls ∧
      c.hash = Hash.fromBytes S (c.values.head ++ decInt c.createdOn ++ c.parent.getD [] ++
        ((givenPart CommitCall.proof? calls).map bigBytes).getD []) ∧
      ∀ m, c.mine = some m → m.result = Hash.fromBytes S (c.hash ++ bigBytes m.proof) ∧
        m.score = (m.result.takeWhile (· == mv)).length :=
  commit_build_parts S mv calls c

example : (commitBuilder toySha 132).build [some (.withProof (some 5)), some (.createdOn (-12)), some (.withValues (some sampleTree)),
    some (.withProof none), some (.withParent (List.replicate 64 3))] =
    .ok ⟨List.replicate 64 131, sampleTree, -12, some (List.replicate 64 3), none⟩ := by
  rw [C113_commit]
  refine ⟨rfl, rfl, rfl, rfl, ?_, by simp⟩
  have e : decInt (-12) = [45, 49, 50] := by
    rw [decInt, if_pos (by decide)]
    simp [decNat]
  change List.replicate 64 131 = Hash.fromBytes toySha (sampleTree.head ++ decInt (-12) ++ List.replicate 64 3 ++ [])
  simp [-List.reduceReplicate, e, sampleTree, Hash.fromBytes, Hash.size, toySha]

/-- **C113 (lists of leaves and contents).** The list last given, unless it is empty. -/
theorem C113_lists :
    (∀ calls l, leavesBuilder.build calls = .ok l ↔ l ≠ [] ∧ some l = givenPart some calls) ∧
    (∀ calls l, contentsBuilder.build calls = .ok l ↔ l ≠ [] ∧ some l = givenPart some calls) :=
  ⟨Rodkina.Ast.BuildSpec.list_build, Rodkina.Ast.BuildSpec.list_build⟩

example : leavesBuilder.build [some (some []), some (some [.base [1]])] = .ok [.base [1]] ∧
    leavesBuilder.build [some (some [.base [1]]), none] = .err :=
  ⟨(C113_lists.1 _ _).mpr ⟨by simp, rfl⟩, rfl⟩

/-- **C113 (content keys and commits).** The list last given, unless it is empty, with each entry under the printed form of its
hash; of several with the same hash, the last one. -/
theorem C113_keyed :
    (∀ calls k, contentKeysBuilder.build calls = .ok k ↔
      k.list ≠ [] ∧ some k.list = givenPart some calls ∧ k.mp = GoMap.ofList (fun x => Hash.toString x.hash) k.list) ∧
    (∀ calls k, commitsBuilder.build calls = .ok k ↔
      k.list ≠ [] ∧ some k.list = givenPart some calls ∧ k.mp = GoMap.ofList (fun x => Hash.toString x.hash) k.list) :=
  ⟨contentKeys_build, commits_build⟩

example : ∃ k, contentKeysBuilder.build [some (some [sampleKey]), some (some [sampleKey2, sampleKey])] = .ok k ∧
    k.list = [sampleKey2, sampleKey] :=
  ⟨_, (C113_keyed.1 _ ⟨_, [sampleKey2, sampleKey]⟩).mpr ⟨by simp, rfl, rfl⟩, rfl⟩

/-- **C113 (no panic).** None of these builders panics. -/
theorem C113_never_panics (S : Sha) (mv : UInt8) :
    (∀ calls, leafBuilder.build calls ≠ .panic) ∧ (∀ calls, parentLeafBuilder.build calls ≠ .panic) ∧
    (∀ calls, compactBuilder.build calls ≠ .panic) ∧ (∀ calls, leavesBuilder.build calls ≠ .panic) ∧
    (∀ calls, pointerBuilder.build calls ≠ .panic) ∧ (∀ calls, contentKeyBuilder.build calls ≠ .panic) ∧
    (∀ calls, contentKeysBuilder.build calls ≠ .panic) ∧ (∀ calls, (commitBuilder S mv).build calls ≠ .panic) ∧
    (∀ calls, commitsBuilder.build calls ≠ .panic) ∧ (∀ calls, referenceBuilder.build calls ≠ .panic) ∧
    (∀ calls, contentBuilder.build calls ≠ .panic) ∧ (∀ calls, contentsBuilder.build calls ≠ .panic) := by
  refine ⟨?_, ?_, ?_, ?_, ?_, ?_, ?_, ?_, ?_, ?_, ?_, ?_⟩ <;> intro calls <;> unfold Builder.build
  · simp only [leafBuilder]; repeat' split
    all_goals simp
  · simp only [parentLeafBuilder]; repeat' split
    all_goals simp
  · simp only [compactBuilder]; repeat' split
    all_goals simp
  · simp only [leavesBuilder, listBuilder]; repeat' split
    all_goals simp
  · simp only [pointerBuilder, pointerNow]; repeat' split
    all_goals simp
  · simp only [contentKeyBuilder]; repeat' split
    all_goals simp
  · simp only [contentKeysBuilder, contentKeysNow]; repeat' split
    all_goals simp
  · simp only [commitBuilder]; repeat' split
    all_goals simp
  · simp only [commitsBuilder, commitsNow]; repeat' split
    all_goals simp
  · simp only [referenceBuilder]; repeat' split
    all_goals simp
  · simp only [contentBuilder, contentNow]; repeat' split
    all_goals simp
  · simp only [contentsBuilder, listBuilder]; repeat' split
    all_goals simp

/-! ## C114: the builder of hash trees

Wanted: a hash tree is built exactly when blocks were given, and it is the hash tree of those blocks. -/

/-- **C114 (partial): exact result.** With head and parent, those; otherwise the tree of the blocks last given.  Missing: with head
and parent the blocks are ignored and nothing is compared (`C114_blocks_ignored`, `C114_head_unchecked`). -/
theorem C114_exact_partial (S : Sha) (calls : List (Option TreeCall)) (t : Tree) :
    (treeBuilder S).build calls = .ok t ↔
      (∃ h p, givenPart TreeCall.head? calls = some h ∧ givenPart TreeCall.parent? calls = some p ∧ t = ⟨h, p.1, p.2⟩) ∨
        ((givenPart TreeCall.head? calls = none ∨ givenPart TreeCall.parent? calls = none) ∧
          HashTree.build S (givenPart TreeCall.blocks? calls) = .ok t) :=
  tree_build S calls t

example (S : Sha) : (treeBuilder S).build [some (.withBlocks (some [[1], [2]])), some (.withHead (List.replicate 64 9)),
    some (.withParent (some (.base (List.replicate 64 1), .base (List.replicate 64 2))))] = .ok sampleTree :=
  (C114_exact_partial S _ _).mpr (.inl ⟨_, _, rfl, rfl, rfl⟩)

/-- **C114 (partial): the tree of the blocks.** Given blocks, at least one, and not both head and parent, the hash tree has the
hashes of these blocks as leaves, in order, filled up with hashes of the empty block, and their Merkle root as head. -/
theorem C114_tree_of_blocks_partial (S : Sha) (calls : List (Option TreeCall)) (bs : List Bytes) (hb : bs ≠ [])
    (hg : givenPart TreeCall.blocks? calls = some bs)
    (hn : givenPart TreeCall.head? calls = none ∨ givenPart TreeCall.parent? calls = none) :
    ∃ t k p, (treeBuilder S).build calls = .ok t ∧
      leafHashes t = bs.map (Hash.fromBytes S) ++ List.replicate p (Hash.fromBytes S []) ∧
      (leafHashes t).length = 2 ^ (k + 1) ∧ 2 ^ k < max 2 bs.length ∧ t.head = HashTree.merkleRoot S (k + 1) (leafHashes t) := by
  obtain ⟨t, k, p, h1, h2, h3, h4, h5, h6⟩ := C03_build_is_merkle S bs hb
  exact ⟨t, k, p, (tree_build S calls t).mpr (.inr ⟨hn, by rw [hg]; exact h1⟩), h2, h3, h4, h6⟩

example : givenPart TreeCall.blocks? [some (.withBlocks none), some (.withHead [1]), none, some (.withBlocks (some [[1], [2], [3]])),
      some (.withHead [2])] = some [[1], [2], [3]] ∧
    givenPart TreeCall.parent? [some (.withBlocks none), some (.withHead [1]), none, some (.withBlocks (some [[1], [2], [3]])),
      some (.withHead [2])] = none := ⟨rfl, rfl⟩

/-- **C114 (panics).** The builder panics exactly when the blocks last given are an empty list and head and parent were not both
given. -/
theorem C114_panics_iff (S : Sha) (calls : List (Option TreeCall)) :
    (treeBuilder S).build calls = .panic ↔
      givenPart TreeCall.blocks? calls = some [] ∧
        (givenPart TreeCall.head? calls = none ∨ givenPart TreeCall.parent? calls = none) := by
  have h0 := field_part (treeBuilder S) (·.blocks) TreeCall.blocks? (by intro k s; cases k <;> rfl) rfl calls
  have h1 := field_part (treeBuilder S) (·.head) TreeCall.head? (by intro k s; cases k <;> rfl) rfl calls
  have h2 := field_part (treeBuilder S) (·.parent) TreeCall.parent? (by intro k s; cases k <;> rfl) rfl calls
  have hb : ∀ b, HashTree.build S b = .panic ↔ b = some [] := fun b =>
    ⟨fun h => by_contra fun hne => C04_build_never_panics_partial S b hne h, fun h => h ▸ C04_empty_list_panics S⟩
  unfold Builder.build
  rw [← h0, ← h1, ← h2]
  obtain ⟨b, h, p⟩ := (treeBuilder S).run calls
  cases h <;> cases p <;> simp [treeBuilder, hb]

example (S : Sha) : (treeBuilder S).build [some (.withHead [1]), some (.withBlocks (some []))] = .panic :=
  (C114_panics_iff S _).mpr ⟨rfl, .inr rfl⟩

/-- **C114 (negation).** Blocks given along with head and parent are ignored: the same tree comes out whatever they are. -/
theorem C114_blocks_ignored (S : Sha) (bs : Option (List Bytes)) :
    (treeBuilder S).build [some (.withBlocks bs), some (.withHead (List.replicate 64 9)),
      some (.withParent (some (.base (List.replicate 64 1), .base (List.replicate 64 2))))] = .ok sampleTree := rfl

/-- **C114 (negation).** A hash tree can be built whose head is not the hash of what is below. -/
theorem C114_head_unchecked :
    ∃ t, TreeBuilt toySha t ∧ t.head ≠ toySha.f (t.left.head ++ t.right.head) ∧
      ∀ bs, HashTree.build toySha bs ≠ .ok t := by
  have hd : sampleTree.head ≠ toySha.f (sampleTree.left.head ++ sampleTree.right.head) := by
    simp [-List.reduceReplicate, sampleTree, Leaf.head, toySha]
  refine ⟨sampleTree, treeBuilt_iff.mpr sampleTree_sized, hd, ?_⟩
  intro bs h
  cases bs with
  | none => cases h
  | some bs =>
    by_cases hb : bs = []
    · subst hb; rw [C04_empty_list_panics] at h; cases h
    obtain ⟨t, k, p, hb', h1, h2, h3, h4, h5⟩ := C03_build_is_merkle toySha bs hb
    rw [hb'] at h
    injection h with h
    subst h
    have hl : leafHashes sampleTree = [List.replicate 64 1, List.replicate 64 2] := rfl
    rw [hl] at h2 h5
    simp only [List.length_cons, List.length_nil, Nat.zero_add, Nat.reduceAdd] at h2
    have hk : k = 0 := by
      rcases Nat.eq_zero_or_pos k with h | h
      · exact h
      · have : 2 ^ (1 + 1) ≤ 2 ^ (k + 1) := Nat.pow_le_pow_right (by decide) (by omega)
        omega
    subst hk
    exact hd (h5.trans (by rfl))

/-! ## C116: what is built can be saved, what is read could have been built -/

/-- **C116 (hash trees).** Built ones are read back; what is read could have been built. -/
theorem C116_trees (S : Sha) :
    (∀ (t : Tree) (tail : Bytes), TreeBuilt S t → (HashTree.toContent t).length < 2 ^ 64 →
      HashTree.toHashTree S ⟨HashTree.toContent t, tail⟩ = .ok t) ∧
    (∀ (b : Slice) (t : Tree), HashTree.toHashTree S b = .ok t → TreeBuilt S t) :=
  ⟨fun t tail h hs => HashTree.toHashTree_toContent S t (treeBuilt_iff.mp h) hs tail,
    fun b t h => treeBuilt_iff.mpr (HashTree.toHashTree_exact S b t h).2⟩

example : TreeBuilt toySha sampleTree ∧ (HashTree.toContent sampleTree).length < 2 ^ 64 :=
  ⟨treeBuilt_iff.mpr sampleTree_sized, by simp [-List.reduceReplicate, sampleTree, HashTree.toContent, HashTree.parentToContent, HashTree.leafToContent]⟩

/-- **C116 (compact trees).** Built ones are read back; what is read could have been built. -/
theorem C116_compacts (S : Sha) :
    (∀ (c : Compact) (tail : Bytes), CompactBuilt c → (HashTree.compactToContent c).length < 2 ^ 63 →
      HashTree.contentToCompact S ⟨HashTree.compactToContent c, tail⟩ = .ok c) ∧
    (∀ (b : Slice) (c : Compact), HashTree.contentToCompact S b = .ok c → CompactBuilt c) := by
  refine ⟨?_, fun b c h => contentToCompact_built h⟩
  intro c tail h hs
  obtain ⟨h1, h2, h3⟩ := compactBuilt_iff.mp h
  have hx : ∀ x ∈ c.leaves, (HashTree.leafToContent x).length < 2 ^ 63 := by
    intro x hx
    obtain ⟨a, b, e⟩ := List.append_of_mem hx
    simp only [HashTree.compactToContent, HashTree.leavesToContent, e] at hs
    simp only [List.length_append, List.flatMap_append, List.flatMap_cons] at hs
    omega
  have hc : c.leaves.length ≤ (c.leaves.flatMap (fun x => le64 (HashTree.leafToContent x).length ++ HashTree.leafToContent x)).length := by
    generalize c.leaves = l
    induction l with
    | nil => simp
    | cons x l ih => simp only [List.flatMap_cons, List.length_append, List.length_cons, le64_length] at ih ⊢; omega
  refine HashTree.compact_round_trip S c tail h1 h2 ?_ (fun x hm => ⟨h3 x hm, ?_⟩)
  · simp only [HashTree.compactToContent, HashTree.leavesToContent, List.length_append] at hs
    omega
  · have := hx x hm; omega

example : CompactBuilt ⟨List.replicate 64 9, [.base (List.replicate 64 1), .node (List.replicate 64 2) (.base (List.replicate 64 3)) (.base (List.replicate 64 4))]⟩ ∧
    (HashTree.compactToContent ⟨List.replicate 64 9, [.base (List.replicate 64 1), .node (List.replicate 64 2) (.base (List.replicate 64 3)) (.base (List.replicate 64 4))]⟩).length < 2 ^ 63 :=
  ⟨compactBuilt_iff.mpr (by simp [HashTree.Leaf.Sized]), by
    simp [-List.reduceReplicate, HashTree.compactToContent, HashTree.leavesToContent, HashTree.leafToContent]⟩

/-- **C116 (references).** Built ones are read back; what is read could have been built. -/
theorem C116_references (S : Sha) (mv : UInt8) :
    (∀ (r : Reference) (tail : Bytes), ReferenceBuilt S mv r → (referenceToContent r).length < 2 ^ 63 →
      toReference S mv ⟨referenceToContent r, tail⟩ = .ok r) ∧
    (∀ (b : Slice) (r : Reference), toReference S mv b = .ok r → ReferenceBuilt S mv r) :=
  ⟨fun _ tail h hs => referenceBuilt_round_trip h hs tail, fun _ _ h => toReference_built h⟩

/-- A reference that can be built, with two keys and two commits, one of them mined. -/
theorem sampleReference_built (S : Sha) : ∃ r, ReferenceBuilt S 7 r ∧ r.contentKeys.list = [sampleKey, sampleKey2] ∧
    r.commits.list.length = 2 := by
  refine ⟨⟨⟨_, [sampleKey, sampleKey2]⟩, ⟨_, [commitNow S 7 sampleTree 5 none none,
    commitNow S 7 sampleTree (-6) (some (List.replicate 64 3)) (some 12)]⟩⟩, referenceBuilt_iff.mpr ⟨contentKeysBuilt_iff.mpr ⟨rfl, sampleKeys_wf⟩,
    commitsBuilt_iff.mpr ⟨rfl, ?_⟩⟩, rfl, rfl⟩
  intro x hx
  simp only [List.mem_cons, List.not_mem_nil, or_false] at hx
  rcases hx with rfl | rfl
  · exact commitNow_ok sampleTree_sized (by decide) (by decide) (by simp) (by simp)
  · exact commitNow_ok sampleTree_sized (by decide) (by decide) (by simp) (by simp)

/-- **C116 (contents).** Built ones are read back; what is read could have been built. -/
theorem C116_contents (S : Sha) :
    (∀ (l : List Content) (tail : Bytes), ContentsBuilt l → (contentsToContent l).length < 2 ^ 63 →
      toContentsInstance S ⟨contentsToContent l, tail⟩ = .ok l) ∧
    (∀ (b : Slice) (l : List Content), toContentsInstance S b = .ok l → ContentsBuilt l) := by
  refine ⟨?_, fun b l h => toContents_built h⟩
  intro l tail h hs
  obtain ⟨h1, h2⟩ := contentsBuilt_iff.mp h
  refine C22_contents_round_trip S l h1 (fun c hc => ⟨(h2 c hc).1, (h2 c hc).2.1, (h2 c hc).2.2, ?_⟩) tail
  obtain ⟨a, b, e⟩ := List.append_of_mem hc
  simp only [contentsToContent, e, List.flatMap_append, List.flatMap_cons, List.length_append] at hs
  omega

example : ContentsBuilt [⟨List.replicate 64 1, [5, 6], 3⟩, ⟨List.replicate 64 2, [7], 0⟩] ∧
    (contentsToContent [⟨List.replicate 64 1, [5, 6], 3⟩, ⟨List.replicate 64 2, [7], 0⟩]).length < 2 ^ 63 :=
  ⟨contentsBuilt_iff.mpr ⟨by simp, by simp [Content.WF]⟩, by simp [-List.reduceReplicate, contentsToContent, contentToContent]⟩

end Rodkina.Props
