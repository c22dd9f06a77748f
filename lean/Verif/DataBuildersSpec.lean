import Verif.DataBuilders
import Verif.BuildersSpec
/-!
# Specification of the builders of hash trees, contents and references

What each call gives, and the objects that can be built.
-/

namespace Rodkina.DataBuildSpec

open Rodkina.HashTree (Leaf Tree Compact)
open Rodkina.Ref
open DataBuild
open Rodkina.Ast.BuildSpec

/-- The two leaves below a leaf, if any. -/
def _root_.Rodkina.HashTree.Leaf.parent? : Leaf → Option (Leaf × Leaf)
  | .base _ => none
  | .node _ l r => some (l, r)

/-! ### What a call gives for each part -/

/-- The head a call gives. -/
def _root_.Rodkina.DataBuild.LeafCall.head? : LeafCall → Option (Option Bytes)
  | .withHead x => some (some x)
  | _ => none

/-- The parent a call gives. -/
def _root_.Rodkina.DataBuild.LeafCall.parent? : LeafCall → Option (Option (Leaf × Leaf))
  | .withParent x => some x
  | _ => none

/-- The left a call gives. -/
def _root_.Rodkina.DataBuild.ParentLeafCall.left? : ParentLeafCall → Option (Option Leaf)
  | .withLeft x => some x
  | _ => none

/-- The right a call gives. -/
def _root_.Rodkina.DataBuild.ParentLeafCall.right? : ParentLeafCall → Option (Option Leaf)
  | .withRight x => some x
  | _ => none

/-- The head a call gives. -/
def _root_.Rodkina.DataBuild.CompactCall.head? : CompactCall → Option (Option Bytes)
  | .withHead x => some (some x)
  | _ => none

/-- The leaves a call gives. -/
def _root_.Rodkina.DataBuild.CompactCall.leaves? : CompactCall → Option (Option (List Leaf))
  | .withLeaves x => some x
  | _ => none

/-- The blocks a call gives. -/
def _root_.Rodkina.DataBuild.TreeCall.blocks? : TreeCall → Option (Option (List Bytes))
  | .withBlocks x => some x
  | _ => none

/-- The head a call gives. -/
def _root_.Rodkina.DataBuild.TreeCall.head? : TreeCall → Option (Option Bytes)
  | .withHead x => some (some x)
  | _ => none

/-- The parent a call gives. -/
def _root_.Rodkina.DataBuild.TreeCall.parent? : TreeCall → Option (Option (Leaf × Leaf))
  | .withParent x => some x
  | _ => none

/-- The length a call gives. -/
def _root_.Rodkina.DataBuild.PointerCall.length? : PointerCall → Option (Nat)
  | .withLength x => some x
  | _ => none

/-- The from_ a call gives. -/
def _root_.Rodkina.DataBuild.PointerCall.from_? : PointerCall → Option (Option Nat)
  | .from x => some (some x)
  | _ => none

/-- The hash a call gives. -/
def _root_.Rodkina.DataBuild.ContentKeyCall.hash? : ContentKeyCall → Option (Option Bytes)
  | .withHash x => some (some x)
  | _ => none

/-- The kind a call gives. -/
def _root_.Rodkina.DataBuild.ContentKeyCall.kind? : ContentKeyCall → Option (Option Nat)
  | .withKind x => some (some x)
  | _ => none

/-- The content a call gives. -/
def _root_.Rodkina.DataBuild.ContentKeyCall.content? : ContentKeyCall → Option (Option Pointer)
  | .withContent x => some x
  | _ => none

/-- The commit a call gives. -/
def _root_.Rodkina.DataBuild.ContentKeyCall.commit? : ContentKeyCall → Option (Option Bytes)
  | .withCommit x => some (some x)
  | _ => none

/-- The values a call gives. -/
def _root_.Rodkina.DataBuild.CommitCall.values? : CommitCall → Option (Option HashTree.Tree)
  | .withValues x => some x
  | _ => none

/-- The parent a call gives. -/
def _root_.Rodkina.DataBuild.CommitCall.parent? : CommitCall → Option (Option Bytes)
  | .withParent x => some (some x)
  | _ => none

/-- The proof a call gives. -/
def _root_.Rodkina.DataBuild.CommitCall.proof? : CommitCall → Option (Option Int)
  | .withProof x => some x
  | _ => none

/-- The createdOn a call gives. -/
def _root_.Rodkina.DataBuild.CommitCall.createdOn? : CommitCall → Option (Option Int)
  | .createdOn x => some (some x)
  | _ => none

/-- The contentKeys a call gives. -/
def _root_.Rodkina.DataBuild.ReferenceCall.contentKeys? : ReferenceCall → Option (Option ContentKeys)
  | .withContentKeys x => some x
  | _ => none

/-- The commits a call gives. -/
def _root_.Rodkina.DataBuild.ReferenceCall.commits? : ReferenceCall → Option (Option Commits)
  | .withCommits x => some x
  | _ => none

/-- The hash a call gives. -/
def _root_.Rodkina.DataBuild.ContentCall.hash? : ContentCall → Option (Option Bytes)
  | .withHash x => some (some x)
  | _ => none

/-- The data a call gives. -/
def _root_.Rodkina.DataBuild.ContentCall.data? : ContentCall → Option (Option Bytes)
  | .withData x => some x
  | _ => none

/-- The kind a call gives. -/
def _root_.Rodkina.DataBuild.ContentCall.kind? : ContentCall → Option (Option Nat)
  | .withKind x => some (some x)
  | _ => none

/-! ### Objects that can be built, out of hashes of 64 bytes, numbers and times of 64 bits -/

/-- A hash: what the hash adapter makes. -/
def IsHash (h : Bytes) : Prop := h.length = 64

/-- Leaves that can be built. -/
inductive LeafBuilt : Leaf → Prop
  | mk (l : Leaf) (calls : List (Option LeafCall)) : leafBuilder.build calls = .ok l →
      (∀ h, some (.withHead h) ∈ calls → IsHash h) →
      (∀ p, some (.withParent (some p)) ∈ calls → ∃ calls', parentLeafBuilder.build calls' = .ok p) →
      (∀ p, some (.withParent (some p)) ∈ calls → LeafBuilt p.1) →
      (∀ p, some (.withParent (some p)) ∈ calls → LeafBuilt p.2) → LeafBuilt l

/-- Hash trees that can be built. -/
def TreeBuilt (S : Sha) (t : Tree) : Prop :=
  ∃ calls, (treeBuilder S).build calls = .ok t ∧ (∀ h, some (.withHead h) ∈ calls → IsHash h) ∧
    (∀ p, some (.withParent (some p)) ∈ calls → (∃ calls', parentLeafBuilder.build calls' = .ok p) ∧ LeafBuilt p.1 ∧ LeafBuilt p.2)

/-- Compact hash trees that can be built. -/
def CompactBuilt (c : Compact) : Prop :=
  ∃ calls, compactBuilder.build calls = .ok c ∧ (∀ h, some (.withHead h) ∈ calls → IsHash h) ∧
    (∀ l, some (.withLeaves (some l)) ∈ calls → (∃ calls', leavesBuilder.build calls' = .ok l) ∧ ∀ x ∈ l, LeafBuilt x)

/-- Pointers that can be built. -/
def PointerBuilt (p : Pointer) : Prop :=
  ∃ calls, pointerBuilder.build calls = .ok p ∧ (∀ n, some (.withLength n) ∈ calls → n < 2 ^ 64) ∧
    (∀ n, some (.from n) ∈ calls → n < 2 ^ 64)

/-- Content keys that can be built. -/
def ContentKeyBuilt (k : ContentKey) : Prop :=
  ∃ calls, contentKeyBuilder.build calls = .ok k ∧ (∀ h, some (.withHash h) ∈ calls → IsHash h) ∧
    (∀ n, some (.withKind n) ∈ calls → n < 2 ^ 64) ∧ (∀ p, some (.withContent (some p)) ∈ calls → PointerBuilt p) ∧
    (∀ h, some (.withCommit h) ∈ calls → IsHash h)

/-- Lists of content keys that can be built. -/
def ContentKeysBuilt (k : ContentKeys) : Prop :=
  ∃ calls, contentKeysBuilder.build calls = .ok k ∧ (∀ l, some (some l) ∈ calls → ∀ x ∈ l, ContentKeyBuilt x)

/-- Commits that can be built, with a proof that is not negative if any. -/
def CommitBuilt (S : Sha) (mv : UInt8) (c : Commit) : Prop :=
  ∃ calls, (commitBuilder S mv).build calls = .ok c ∧ (∀ t, some (.withValues (some t)) ∈ calls → TreeBuilt S t) ∧
    (∀ h, some (.withParent h) ∈ calls → IsHash h) ∧ (∀ q, some (.withProof (some q)) ∈ calls → 0 ≤ q) ∧
    (∀ t, some (.createdOn t) ∈ calls → -2 ^ 63 ≤ t ∧ t < 2 ^ 63)

/-- Lists of commits that can be built. -/
def CommitsBuilt (S : Sha) (mv : UInt8) (k : Commits) : Prop :=
  ∃ calls, commitsBuilder.build calls = .ok k ∧ (∀ l, some (some l) ∈ calls → ∀ x ∈ l, CommitBuilt S mv x)

/-- References that can be built. -/
def ReferenceBuilt (S : Sha) (mv : UInt8) (r : Reference) : Prop :=
  ∃ calls, referenceBuilder.build calls = .ok r ∧ (∀ k, some (.withContentKeys (some k)) ∈ calls → ContentKeysBuilt k) ∧
    (∀ c, some (.withCommits (some c)) ∈ calls → CommitsBuilt S mv c)

/-- Contents that can be built. -/
def ContentBuilt (c : Content) : Prop :=
  ∃ calls, contentBuilder.build calls = .ok c ∧ (∀ h, some (.withHash h) ∈ calls → IsHash h) ∧
    (∀ n, some (.withKind n) ∈ calls → n < 2 ^ 64)

/-- Lists of contents that can be built. -/
def ContentsBuilt (l : List Content) : Prop :=
  ∃ calls, contentsBuilder.build calls = .ok l ∧ (∀ l, some (some l) ∈ calls → ∀ x ∈ l, ContentBuilt x)

end Rodkina.DataBuildSpec
