import Verif.Hash
/-!
# Model of libs/cryptography/domain/hashtrees
-/

namespace Rodkina
set_option linter.unusedVariables false

namespace HashTree

/-- `leaf`, libs/cryptography/domain/hashtrees/leaf.go:7-28: a head and an optional parent leaf (a pair of leaves,
libs/cryptography/domain/hashtrees/parentleaf.go:3-15). `base` is `createLeaf`, `node` is `createLeafWithParent`. -/
inductive Leaf where
  | base (head : Bytes)
  | node (head : Bytes) (left right : Leaf)
  deriving Repr, DecidableEq

/-- `hashtree`, libs/cryptography/domain/hashtrees/hashtree.go:8-20: a head and a (mandatory) parent leaf. -/
structure Tree where
  head : Bytes
  left : Leaf
  right : Leaf
  deriving Repr, DecidableEq

/-- `compact`, libs/cryptography/domain/hashtrees/compact.go:7-19. -/
structure Compact where
  head : Bytes
  leaves : List Leaf
  deriving Repr, DecidableEq

/-- `leaf.Head`, libs/cryptography/domain/hashtrees/leaf.go:31-33. -/
def Leaf.head : Leaf → Bytes
  | .base h => h
  | .node h _ _ => h

/-- `leaf.Height`, libs/cryptography/domain/hashtrees/leaf.go:46-62: number of parents met when following left leaves. -/
def Leaf.height : Leaf → Nat
  | .base _ => 0
  | .node _ l _ => l.height + 1

/-- `hashtree.Height`, libs/cryptography/domain/hashtrees/hashtree.go:23-26. -/
def Tree.height (t : Tree) : Nat := t.left.height + 2

/-- `compact.Length`, libs/cryptography/domain/hashtrees/compact.go:32-34. -/
def Compact.length (c : Compact) : Nat := c.leaves.length

/-! ## Building -/

/-- `createChildrenLeaves` (libs/cryptography/domain/hashtrees/leaves_adapter.go:114-135) with `createChildLeaf` (137-150): leaves are paired from the left;
`list[index+1]` panics when the last leaf has no neighbour. -/
def childrenLeaves (S : Sha) : List Leaf → Res (List Leaf)
  | [] => .ok []
  | [_] => .panic
  | l :: r :: rest =>
    match childrenLeaves S rest with
    | .ok cs => .ok (.node (Hash.fromMultiBytes S [l.head, r.head]) l r :: cs)
    | .err => .err
    | .panic => .panic

/-- Every successful pairing halves the number of leaves (used for termination of `leavesToHashTree`). -/
theorem childrenLeaves_length (S : Sha) (l cs : List Leaf) (h : childrenLeaves S l = .ok cs) :
    2 * cs.length = l.length := by
  fun_induction childrenLeaves S l generalizing cs with
  | case1 => simp_all
  | case2 => simp_all
  | case3 l r rest cs' heq ih =>
    injection h with h
    subst h
    have := ih cs' heq
    simp; omega
  | case4 => simp_all
  | case5 => simp_all

/-- `leavesAdapter.ToHashTree`, libs/cryptography/domain/hashtrees/leaves_adapter.go:92-112, with `ParentLeafToHashTree` (libs/cryptography/domain/hashtrees/leaf_adapter.go:133-147).
With no leaf at all the Go code recurses forever (fatal stack overflow), modelled as a panic; the leaves builder
(leaves_builder.go) rejects that case before. -/
def leavesToHashTree (S : Sha) (list : List Leaf) : Res Tree :=
  match list with
  | [] => .panic
  | [l, r] => .ok ⟨Hash.fromMultiBytes S [l.head, r.head], l, r⟩
  | l :: rest =>
    match h : childrenLeaves S (l :: rest) with
    | .ok cs => leavesToHashTree S cs
    | .err => .err
    | .panic => .panic
termination_by list.length
decreasing_by
  have := childrenLeaves_length S _ _ h
  simp at this ⊢
  omega

/-- The bit trick at libs/cryptography/domain/hashtrees/builder.go:93. -/
def isPowerOfTwo (length : Nat) : Bool :=
  (length != 0) && ((length &&& (length - 1)) == 0)

/-- `math.Pow(2, math.Ceil(math.Log(n)/math.Log(2)))`, libs/cryptography/domain/hashtrees/builder.go:96, for `n ≥ 2`. Simplification: computed exactly
(`⌈log₂ n⌉ = ⌊log₂ (n-1)⌋ + 1`), not in floating point; see C140 in Rounding.lean. -/
def nextPowerOfTwo (n : Nat) : Nat := 2 ^ (Nat.log2 (n - 1) + 1)

/-- Padding of the hashed blocks, libs/cryptography/domain/hashtrees/builder.go:91-106 (`remaining` may only be added when positive, as in the loop at 98). -/
def padHashes (S : Sha) (hashes : List Bytes) : List Bytes :=
  if isPowerOfTwo hashes.length then hashes
  else hashes ++ List.replicate (nextPowerOfTwo hashes.length - hashes.length) (Hash.fromBytes S [])

/-- `builder.Now` when head and parent are not set, libs/cryptography/domain/hashtrees/builder.go:68-124. `none` is a nil block list. -/
def build (S : Sha) (blocks : Option (List Bytes)) : Res Tree :=
  match blocks with
  | none => .err
  | some bs =>
    let bs := if bs.length ≤ 1 then bs ++ [[]] else bs
    let hashes := padHashes S (bs.map (Hash.fromBytes S))
    if hashes.isEmpty then .err
    else leavesToHashTree S (hashes.map Leaf.base)

/-! ## Serialisation -/

/-- `LeafToContent` (libs/cryptography/domain/hashtrees/leaf_adapter.go:38-54) and `ParentLeafToContent` (95-115). -/
def leafToContent : Leaf → Bytes
  | .base h => h
  | .node h l r => h ++ (le64 (leafToContent l).length ++ leafToContent l ++ leafToContent r)

/-- `ParentLeafToContent`, libs/cryptography/domain/hashtrees/leaf_adapter.go:95-115. -/
def parentToContent (l r : Leaf) : Bytes :=
  le64 (leafToContent l).length ++ leafToContent l ++ leafToContent r

/-- `adapter.ToContent`, libs/cryptography/domain/hashtrees/adapter.go:34-46. -/
def toContent (t : Tree) : Bytes := t.head ++ parentToContent t.left t.right

/-- `minLeafSize`, libs/cryptography/domain/hashtrees/sdk.go:10. -/
def minLeafSize : Nat := 64
/-- `minParentLeaf`, libs/cryptography/domain/hashtrees/sdk.go:11. -/
def minParentLeaf : Nat := 128
/-- `MinHashtreeSize`, libs/cryptography/domain/hashtrees/sdk.go:8. -/
def minHashtreeSize : Nat := 192
/-- `minLeavesSize`, libs/cryptography/domain/hashtrees/sdk.go:12. -/
def minLeavesSize : Nat := 80
/-- `minCompactSize`, libs/cryptography/domain/hashtrees/sdk.go:13. -/
def minCompactSize : Nat := 128

mutual
/-- `ContentToLeaf`, libs/cryptography/domain/hashtrees/leaf_adapter.go:68-92. -/
def contentToLeaf (S : Sha) (content : Slice) : Res Leaf :=
  if content.len < minLeafSize then .err
  else
    match content.sub 0 64 with
    | .ok headS =>
      let head := Hash.fromBytes S headS.vis
      match h : content.from' 64 with
      | .ok remaining =>
        if remaining.len > 0 then
          match contentToParentLeaf S remaining with
          | .ok (l, r) => .ok (.node head l r)
          | .err => .err
          | .panic => .panic
        else .ok (.base head)
      | .err => .err
      | .panic => .panic
    | .err => .err
    | .panic => .panic
termination_by content.cap
decreasing_by have := Slice.from_cap h; omega

/-- `ContentToParentLeaf`, libs/cryptography/domain/hashtrees/leaf_adapter.go:150-172. -/
def contentToParentLeaf (S : Sha) (content : Slice) : Res (Leaf × Leaf) :=
  if content.len < minParentLeaf then .err
  else
    match content.sub 0 8 with
    | .ok lenS =>
      let leftLength := leNat lenS.vis
      match h1 : content.sub 8 (8 + leftLength) with
      | .ok leftS =>
        match contentToLeaf S leftS with
        | .ok left =>
          match h2 : content.from' (leftLength + 8) with
          | .ok rightS =>
            match contentToLeaf S rightS with
            | .ok right => .ok (left, right)
            | .err => .err
            | .panic => .panic
          | .err => .err
          | .panic => .panic
        | .err => .err
        | .panic => .panic
      | .err => .err
      | .panic => .panic
    | .err => .err
    | .panic => .panic
termination_by content.cap
decreasing_by
  · have := Slice.sub_cap h1; omega
  · have := Slice.from_cap h2; omega
end

/-- `adapter.ToHashTree`, libs/cryptography/domain/hashtrees/adapter.go:49-70. -/
def toHashTree (S : Sha) (content : Slice) : Res Tree :=
  if content.len < minHashtreeSize then .err
  else do
    let headS ← content.sub 0 64
    let parentS ← content.from' 64
    let p ← contentToParentLeaf S parentS
    pure ⟨Hash.fromBytes S headS.vis, p.1, p.2⟩

/-- `LeafToLeaves` (libs/cryptography/domain/hashtrees/leaf_adapter.go:57-65) and `ParentLeafToLeaves` (118-130): bottom leaves from left to right.
`Merge` (libs/cryptography/domain/hashtrees/leaves.go:26-32) mutates a freshly built list only, so lists suffice. -/
def leafToLeaves : Leaf → List Leaf
  | .base h => [.base h]
  | .node _ l r => leafToLeaves l ++ leafToLeaves r

/-- `ParentLeafToLeaves` of the tree's parent, libs/cryptography/domain/hashtrees/leaf_adapter.go:118-130. -/
def Tree.leaves (t : Tree) : List Leaf := leafToLeaves t.left ++ leafToLeaves t.right

/-- `adapter.ToLength`, libs/cryptography/domain/hashtrees/adapter.go:73-81. -/
def toLength (t : Tree) : Nat := t.leaves.length

/-- `adapter.ToCompact`, libs/cryptography/domain/hashtrees/adapter.go:84-95. -/
def toCompact (t : Tree) : Compact := ⟨t.head, t.leaves⟩

/-- `leavesAdapter.ToContent`, libs/cryptography/domain/hashtrees/leaves_adapter.go:38-60. -/
def leavesToContent (l : List Leaf) : Bytes :=
  le64 l.length ++ l.flatMap (fun x => le64 (leafToContent x).length ++ leafToContent x)

/-- The loop of `leavesAdapter.ToLeaves`, libs/cryptography/domain/hashtrees/leaves_adapter.go:73-86; `pos` is `lastEndsOn`. -/
def leavesLoop (S : Sha) (content : Slice) : Nat → Nat → Res (List Leaf)
  | 0, _ => .ok []
  | n + 1, pos => do
    let lenS ← content.sub pos (pos + 8)
    let leafLength := leNat lenS.vis
    let leafS ← content.sub (pos + 8) (pos + 8 + leafLength)
    let ins ← contentToLeaf S leafS
    let rest ← leavesLoop S content n (pos + 8 + leafLength)
    pure (ins :: rest)

/-- `leavesAdapter.ToLeaves`, libs/cryptography/domain/hashtrees/leaves_adapter.go:63-89. A count of 2^63 or more is a negative `int` in Go and the loop
body does not run. -/
def toLeaves (S : Sha) (content : Slice) : Res (List Leaf) :=
  if content.len < minLeavesSize then .err
  else do
    let lenS ← content.sub 0 8
    let n := leNat lenS.vis
    let list ← if n < 2 ^ 63 then leavesLoop S content n 8 else pure []
    if list.isEmpty then .err else pure list

/-- `compactAdapter.ToContent`, libs/cryptography/domain/hashtrees/compact_adapter.go:31-42. -/
def compactToContent (c : Compact) : Bytes := c.head ++ leavesToContent c.leaves

/-- `compactAdapter.ToCompact`, libs/cryptography/domain/hashtrees/compact_adapter.go:45-66. -/
def contentToCompact (S : Sha) (content : Slice) : Res Compact :=
  if content.len < minCompactSize then .err
  else do
    let headS ← content.sub 0 64
    let leavesS ← content.from' 64
    let leaves ← toLeaves S leavesS
    pure ⟨Hash.fromBytes S headS.vis, leaves⟩

/-! ## Ordering -/

/-- Go map assignment `m[k] = v` / lookup `m[k]` on an association list, newest first. Used for
`hashed` at libs/cryptography/domain/hashtrees/adapter.go:99-108 and 119. -/
def lookup (m : List (List Char × Bytes)) (k : List Char) : Option Bytes :=
  (m.find? (fun p => p.1 == k)).map (·.2)

/-- The `hashed` map, libs/cryptography/domain/hashtrees/adapter.go:99-108. -/
def orderMap (S : Sha) (mixed : List Bytes) : List (List Char × Bytes) :=
  mixed.foldl (fun m d => (Hash.toString (Hash.fromBytes S d), d) :: m) []

/-- `adapter.ToOrder`, libs/cryptography/domain/hashtrees/adapter.go:98-134. -/
def toOrder (S : Sha) (t : Tree) (mixed : List Bytes) : Res (List Bytes) :=
  let hashed := orderMap S mixed
  let out := t.leaves.filterMap (fun l => lookup hashed (Hash.toString l.head))
  if out.length ≠ mixed.length then .err else .ok out

end HashTree
end Rodkina
