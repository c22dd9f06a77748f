import Verif.References
import Verif.Builders
/-!
# Model of the builders of hash trees, contents and references (libs/cryptography/domain/hashtrees, libs/databases/domain)

The conventions are those of `Verif.Builders`: a field per part, `WithX` overwrites it, `Create` clears all, `nil` is `none`.  A
hash is its bytes, a time its `UnixNano`; a parent leaf is a pair of leaves, an object `Leaves` or `Contents` its list.
-/

namespace Rodkina.DataBuild

open Rodkina.HashTree (Leaf Tree Compact)
open Rodkina.Ref
open Rodkina.Ast.Build (Builder listBuilder)

/-- Calls of libs/cryptography/domain/hashtrees/leaf_builder.go:28-38. -/
inductive LeafCall where
  | withHead (x : Bytes)
  | withParent (x : Option (Leaf × Leaf))

/-- The fields of libs/cryptography/domain/hashtrees/leaf_builder.go:9-51. -/
structure LeafFields where
  head : Option Bytes := none
  parent : Option (Leaf × Leaf) := none

/-- libs/cryptography/domain/hashtrees/leaf_builder.go:9-51, libs/cryptography/domain/hashtrees/leaf.go:7-28. -/
def leafBuilder : Builder (LeafFields) (LeafCall) (Leaf) where
  init := {}
  set := fun k s =>
    match k with
    | .withHead x => { s with head := some x }
    | .withParent x => { s with parent := x }
  now := fun s =>
    match s.head with
    | none => .err
    | some h =>
      match s.parent with
      | some p => .ok (.node h p.1 p.2)
      | none => .ok (.base h)

/-- Calls of libs/cryptography/domain/hashtrees/parentleaf_builder.go:24-34. -/
inductive ParentLeafCall where
  | withLeft (x : Option Leaf)
  | withRight (x : Option Leaf)

/-- The fields of libs/cryptography/domain/hashtrees/parentleaf_builder.go:5-47. -/
structure ParentLeafFields where
  left : Option Leaf := none
  right : Option Leaf := none

/-- libs/cryptography/domain/hashtrees/parentleaf_builder.go:5-47, libs/cryptography/domain/hashtrees/parentleaf.go:3-15. -/
def parentLeafBuilder : Builder (ParentLeafFields) (ParentLeafCall) (Leaf × Leaf) where
  init := {}
  set := fun k s =>
    match k with
    | .withLeft x => { s with left := x }
    | .withRight x => { s with right := x }
  now := fun s =>
    match s.left with
    | none => .err
    | some l =>
      match s.right with
      | none => .err
      | some r => .ok (l, r)

/-- Calls of libs/cryptography/domain/hashtrees/compact_builder.go:28-38. -/
inductive CompactCall where
  | withHead (x : Bytes)
  | withLeaves (x : Option (List Leaf))

/-- The fields of libs/cryptography/domain/hashtrees/compact_builder.go:9-51. -/
structure CompactFields where
  head : Option Bytes := none
  leaves : Option (List Leaf) := none

/-- libs/cryptography/domain/hashtrees/compact_builder.go:9-51, libs/cryptography/domain/hashtrees/compact.go:7-19. -/
def compactBuilder : Builder (CompactFields) (CompactCall) (Compact) where
  init := {}
  set := fun k s =>
    match k with
    | .withHead x => { s with head := some x }
    | .withLeaves x => { s with leaves := x }
  now := fun s =>
    match s.head with
    | none => .err
    | some h =>
      match s.leaves with
      | none => .err
      | some l => .ok ⟨h, l⟩

/-- Calls of libs/cryptography/domain/hashtrees/builder.go:49-65. -/
inductive TreeCall where
  | withBlocks (x : Option (List Bytes))
  | withHead (x : Bytes)
  | withParent (x : Option (Leaf × Leaf))

/-- The fields of libs/cryptography/domain/hashtrees/builder.go:10-124. -/
structure TreeFields where
  blocks : Option (List Bytes) := none
  head : Option Bytes := none
  parent : Option (Leaf × Leaf) := none

/-- libs/cryptography/domain/hashtrees/builder.go:10-124.  What `Now` leaves in
the field of the blocks is in `Reuse.treeEffect`. -/
def treeBuilder (S : Sha) : Builder (TreeFields) (TreeCall) (Tree) where
  init := {}
  set := fun k s =>
    match k with
    | .withBlocks x => { s with blocks := x }
    | .withHead x => { s with head := some x }
    | .withParent x => { s with parent := x }
  now := fun s =>
    match s.head, s.parent with
    | some h, some p => .ok ⟨h, p.1, p.2⟩
    | _, _ => HashTree.build S s.blocks

/-- Calls of libs/databases/domain/references/pointer_builder.go:24-34. -/
inductive PointerCall where
  | withLength (x : Nat)
  | from (x : Nat)

/-- The fields of libs/databases/domain/references/pointer_builder.go:5-47. -/
structure PointerFields where
  length : Nat := 0
  from_ : Option Nat := none

/-- libs/databases/domain/references/pointer_builder.go:5-47, libs/databases/domain/references/pointer.go:3-18. -/
def pointerBuilder : Builder (PointerFields) (PointerCall) (Pointer) where
  init := {}
  set := fun k s =>
    match k with
    | .withLength x => { s with length := x }
    | .from x => { s with from_ := some x }
  now := fun s =>
    pointerNow s.from_ s.length

/-- Calls of libs/databases/domain/references/contentkey_builder.go:32-54. -/
inductive ContentKeyCall where
  | withHash (x : Bytes)
  | withKind (x : Nat)
  | withContent (x : Option Pointer)
  | withCommit (x : Bytes)

/-- The fields of libs/databases/domain/references/contentkey_builder.go:9-75. -/
structure ContentKeyFields where
  hash : Option Bytes := none
  kind : Option Nat := none
  content : Option Pointer := none
  commit : Option Bytes := none

/-- libs/databases/domain/references/contentkey_builder.go:9-75, libs/databases/domain/references/contentkey.go:7-28. -/
def contentKeyBuilder : Builder (ContentKeyFields) (ContentKeyCall) (ContentKey) where
  init := {}
  set := fun k s =>
    match k with
    | .withHash x => { s with hash := some x }
    | .withKind x => { s with kind := some x }
    | .withContent x => { s with content := x }
    | .withCommit x => { s with commit := some x }
  now := fun s =>
    match s.hash with
    | none => .err
    | some h =>
      match s.kind with
      | none => .err
      | some k =>
        match s.content with
        | none => .err
        | some p =>
          match s.commit with
          | none => .err
          | some c => .ok ⟨h, k, p, c⟩

/-- Calls of libs/databases/domain/references/commit_builder.go:46-68. -/
inductive CommitCall where
  | withValues (x : Option HashTree.Tree)
  | withParent (x : Bytes)
  | withProof (x : Option Int)
  | createdOn (x : Int)

/-- The fields of libs/databases/domain/references/commit_builder.go:13-137. -/
structure CommitFields where
  values : Option HashTree.Tree := none
  parent : Option Bytes := none
  proof : Option Int := none
  createdOn : Option Int := none

/-- libs/databases/domain/references/commit_builder.go:13-137, libs/databases/domain/references/commit.go:10-80. -/
def commitBuilder (S : Sha) (mv : UInt8) : Builder (CommitFields) (CommitCall) (Commit) where
  init := {}
  set := fun k s =>
    match k with
    | .withValues x => { s with values := x }
    | .withParent x => { s with parent := some x }
    | .withProof x => { s with proof := x }
    | .createdOn x => { s with createdOn := some x }
  now := fun s =>
    match s.values with
    | none => .err
    | some v =>
      match s.createdOn with
      | none => .err
      | some t => .ok (commitNow S mv v t s.parent s.proof)

/-- Calls of libs/databases/domain/references/builder.go:26-36. -/
inductive ReferenceCall where
  | withContentKeys (x : Option ContentKeys)
  | withCommits (x : Option Commits)

/-- The fields of libs/databases/domain/references/builder.go:7-49. -/
structure ReferenceFields where
  contentKeys : Option ContentKeys := none
  commits : Option Commits := none

/-- libs/databases/domain/references/builder.go:7-49, libs/databases/domain/references/reference.go:3-18. -/
def referenceBuilder : Builder (ReferenceFields) (ReferenceCall) (Reference) where
  init := {}
  set := fun k s =>
    match k with
    | .withContentKeys x => { s with contentKeys := x }
    | .withCommits x => { s with commits := x }
  now := fun s =>
    match s.contentKeys with
    | none => .err
    | some k =>
      match s.commits with
      | none => .err
      | some c => .ok ⟨k, c⟩

/-- `Create` of the factory, after these calls on the builder it keeps: a builder made anew, then `Now`
(libs/databases/domain/references/factory.go:17-20, libs/databases/domain/references/builder.go:21-24). -/
def factoryCreate (calls : List (Option ReferenceCall)) : Res Reference := referenceBuilder.build (calls ++ [none])

/-- Calls of libs/databases/domain/contents/content_builder.go:30-46. -/
inductive ContentCall where
  | withHash (x : Bytes)
  | withData (x : Option Bytes)
  | withKind (x : Nat)

/-- The fields of libs/databases/domain/contents/content_builder.go:9-67. -/
structure ContentFields where
  hash : Option Bytes := none
  data : Option Bytes := none
  kind : Option Nat := none

/-- libs/databases/domain/contents/content_builder.go:9-67, libs/databases/domain/contents/content.go:5-23. -/
def contentBuilder : Builder (ContentFields) (ContentCall) (Content) where
  init := {}
  set := fun k s =>
    match k with
    | .withHash x => { s with hash := some x }
    | .withData x => { s with data := x }
    | .withKind x => { s with kind := some x }
  now := fun s =>
    match s.hash with
    | none => .err
    | some h =>
      match s.kind with
      | none => .err
      | some k =>
        match s.data with
        | none => .err
        | some d => contentNow h d k

/-- libs/cryptography/domain/hashtrees/leaves_builder.go:5-39. -/
def leavesBuilder : Builder (Option (List Leaf)) (Option (List Leaf)) (List Leaf) := listBuilder Leaf

/-- libs/databases/domain/contents/builder.go:5-45.  The map it fills is never read. -/
def contentsBuilder : Builder (Option (List Content)) (Option (List Content)) (List Content) := listBuilder Content

/-- libs/databases/domain/references/contentkeys_builder.go:5-45. -/
def contentKeysBuilder : Builder (Option (List ContentKey)) (Option (List ContentKey)) ContentKeys where
  init := none
  set := fun l _ => l
  now := fun l =>
    match l with
    | none => .err
    | some l => contentKeysNow l

/-- libs/databases/domain/references/commits_builder.go:5-45. -/
def commitsBuilder : Builder (Option (List Commit)) (Option (List Commit)) Commits where
  init := none
  set := fun l _ => l
  now := fun l =>
    match l with
    | none => .err
    | some l => commitsNow l

end Rodkina.DataBuild
