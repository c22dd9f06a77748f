import Verif.GoMap
import Verif.HashTree
/-!
# Model of libs/databases/domain/references and libs/databases/domain/contents
-/

namespace Rodkina

set_option linter.unusedVariables false

/-! ## Numbers -/

/-- `uint64(int64)`: two's complement (used at libs/databases/domain/references/commit_adapter.go:37). -/
def toU64 (i : Int) : Nat := (i % 2 ^ 64).toNat

/-- `int64(uint64)` (used at libs/databases/domain/references/commit_adapter.go:82). -/
def ofU64 (n : Nat) : Int := if n < 2 ^ 63 then (n : Int) else (n : Int) - 2 ^ 64

/-- Decimal digits of a natural number, as `fmt.Sprintf("%d", ..)` prints them (libs/databases/domain/references/commit_builder.go:82). -/
def decNat (n : Nat) : Bytes :=
  if n < 10 then [UInt8.ofNat (48 + n)] else decNat (n / 10) ++ [UInt8.ofNat (48 + n % 10)]

/-- `fmt.Sprintf("%d", int64)`, libs/databases/domain/references/commit_builder.go:82. -/
def decInt (i : Int) : Bytes := if i < 0 then 45 :: decNat i.natAbs else decNat i.natAbs

/-- Minimal big-endian bytes of a natural number. -/
def natBE (n : Nat) : Bytes := if n = 0 then [] else natBE (n / 256) ++ [UInt8.ofNat (n % 256)]

/-- `(*big.Int).Bytes()` (Go standard library; used at libs/databases/domain/references/commit_adapter.go:52, libs/databases/domain/references/commit_builder.go:90 and 103): big-endian
absolute value, the sign is dropped. -/
def bigBytes (i : Int) : Bytes := natBE i.natAbs

/-- `(*big.Int).SetBytes` (Go standard library; used at libs/databases/domain/references/commit_adapter.go:102). -/
def bigOfBytes (b : Bytes) : Int := ((b.foldl (fun acc x => 256 * acc + x.toNat) 0 : Nat) : Int)

namespace Ref

/-- `pointer`, libs/databases/domain/references/pointer.go:3-6. -/
structure Pointer where
  from' : Nat
  length : Nat
  deriving DecidableEq, Repr

/-- `contentKey`, libs/databases/domain/references/contentkey.go:7-12. -/
structure ContentKey where
  hash : Bytes
  kind : Nat
  content : Pointer
  commit : Bytes
  deriving DecidableEq, Repr

/-- `contentKeys`, libs/databases/domain/references/contentkeys.go:10-13. -/
structure ContentKeys where
  mp : GoMap ContentKey
  list : List ContentKey
  deriving DecidableEq, Repr

/-- `mine`, libs/databases/domain/references/mine.go:9-13. -/
structure Mine where
  result : Bytes
  proof : Int
  score : Nat
  deriving DecidableEq, Repr

/-- `commit`, libs/databases/domain/references/commit.go:10-16. Simplification: `createdOn` is represented by its `UnixNano` value, the only
thing the code reads from it; zone and monotonic clock are not modelled. -/
structure Commit where
  hash : Bytes
  values : HashTree.Tree
  createdOn : Int
  parent : Option Bytes
  mine : Option Mine
  deriving DecidableEq, Repr

/-- `commits`, libs/databases/domain/references/commits.go:10-13. -/
structure Commits where
  mp : GoMap Commit
  list : List Commit
  deriving DecidableEq, Repr

/-- `reference`, libs/databases/domain/references/reference.go:3-6. -/
structure Reference where
  contentKeys : ContentKeys
  commits : Commits
  deriving DecidableEq, Repr

/-- `pointerSize`, libs/databases/domain/references/sdk.go:11. -/
def pointerSize : Nat := 16
/-- `commitMinSize`, libs/databases/domain/references/sdk.go:12. -/
def commitMinSize : Nat := 8 + 8 + 192
/-- `contentKeySize`, libs/databases/domain/references/sdk.go:13. -/
def contentKeySize : Nat := 64 + 16 + 8 + 64
/-- `minReferenceSize`, libs/databases/domain/references/sdk.go:14. -/
def minReferenceSize : Nat := contentKeySize + commitMinSize

/-! ## Pointers -/

/-- `pointerBuilder.Now`, libs/databases/domain/references/pointer_builder.go:37-47. -/
def pointerNow (from' : Option Nat) (length : Nat) : Res Pointer :=
  match from' with
  | none => .err
  | some f => if length ≤ 0 then .err else .ok ⟨f, length⟩

/-- `pointerAdapter.ToContent`, libs/databases/domain/references/pointer_adapter.go:24-35. -/
def pointerToContent (p : Pointer) : Bytes := le64 p.from' ++ le64 p.length

/-- `pointerAdapter.ToPointer`, libs/databases/domain/references/pointer_adapter.go:38-50. -/
def toPointer (c : Slice) : Res Pointer :=
  if c.len ≠ pointerSize then .err
  else do
    let a ← c.sub 0 8
    let b ← c.from' 8
    pointerNow (some (leNat a.vis)) (leNat b.vis)

/-! ## Content keys -/

/-- `contentKeyAdapter.ToContent`, libs/databases/domain/references/contentkey_adapter.go:32-51. -/
def contentKeyToContent (k : ContentKey) : Bytes :=
  k.hash ++ le64 k.kind ++ pointerToContent k.content ++ k.commit

/-- `contentKeyAdapter.ToContentKey`, libs/databases/domain/references/contentkey_adapter.go:54-86. The builder (libs/databases/domain/references/contentkey_builder.go:57-75)
receives all four fields, so it never fails here. -/
def toContentKey (S : Sha) (c : Slice) : Res ContentKey :=
  if c.len ≠ contentKeySize then .err
  else do
    let h ← c.sub 0 64
    let k ← c.sub 64 72
    let p ← c.sub 72 88
    let ptr ← toPointer p
    let m ← c.sub 88 152
    pure ⟨Hash.fromBytes S h.vis, leNat k.vis, ptr, Hash.fromBytes S m.vis⟩

/-- `contentContentKeysBuilder.Now`, libs/databases/domain/references/contentkeys_builder.go:29-45. -/
def contentKeysNow (list : List ContentKey) : Res ContentKeys :=
  if list.isEmpty then .err else .ok ⟨GoMap.ofList (fun k => Hash.toString k.hash) list, list⟩

/-- `contentKeys.Next`, libs/databases/domain/references/contentkeys.go:33-44. `int64(uint + uint)` is modelled with wrap-around. -/
def ContentKeys.next (k : ContentKeys) : Int :=
  k.list.foldl (fun biggest x =>
    let next := ofU64 ((x.content.from' + x.content.length) % 2 ^ 64)
    if biggest < next then next else biggest) 0

/-- `contentKeys.ListByKind`, libs/databases/domain/references/contentkeys.go:47-58. -/
def ContentKeys.listByKind (k : ContentKeys) (kind : Nat) : List ContentKey :=
  k.list.filter (fun x => !(x.kind != kind))

/-- `contentKeys.Fetch`, libs/databases/domain/references/contentkeys.go:61-69. -/
def ContentKeys.fetch (k : ContentKeys) (hash : Bytes) : Res ContentKey :=
  match k.mp.get (Hash.toString hash) with
  | some x => .ok x
  | none => .err

/-- `contentKeysAdapter.ToContent`, libs/databases/domain/references/contentkeys_adapter.go:27-45. -/
def contentKeysToContent (k : ContentKeys) : Bytes :=
  le64 k.list.length ++ k.list.flatMap contentKeyToContent

/-- The loop at libs/databases/domain/references/contentkeys_adapter.go:57-66; `n` iterations are left, `i` is the index. -/
def contentKeysLoop (S : Sha) (c : Slice) : Nat → Nat → Res (List ContentKey)
  | 0, _ => .ok []
  | n + 1, i => do
    let s ← c.sub (8 + i * contentKeySize) (8 + i * contentKeySize + contentKeySize)
    let x ← toContentKey S s
    let rest ← contentKeysLoop S c n (i + 1)
    pure (x :: rest)

/-- `contentKeysAdapter.ToContentKeys`, libs/databases/domain/references/contentkeys_adapter.go:48-69. A count of 2^63 or more is a negative
`int`, for which the loop does not run. -/
def toContentKeys (S : Sha) (c : Slice) : Res ContentKeys :=
  if c.len < 8 + contentKeySize then .err
  else do
    let l ← c.sub 0 8
    let n := leNat l.vis
    let list ← if n < 2 ^ 63 then contentKeysLoop S c n 0 else pure []
    contentKeysNow list

/-! ## Commits -/

/-- The scoring loop, libs/databases/domain/references/commit_builder.go:110-119. -/
def scoreOf (miningValue : UInt8) : Bytes → Nat
  | [] => 0
  | b :: rest => if b = miningValue then scoreOf miningValue rest + 1 else 0

/-- The hash computed by `commitBuilder.Now`, libs/databases/domain/references/commit_builder.go:80-96. -/
def commitHash (S : Sha) (head : Bytes) (createdOn : Int) (parent : Option Bytes) (proof : Option Int) : Bytes :=
  Hash.fromMultiBytes S ([head, decInt createdOn] ++
    (match parent with | some p => [p] | none => []) ++
    (match proof with | some p => [bigBytes p] | none => []))

/-- `commitBuilder.Now`, libs/databases/domain/references/commit_builder.go:71-137, with values and creation time present (otherwise it returns
an error). -/
def commitNow (S : Sha) (miningValue : UInt8) (values : HashTree.Tree) (createdOn : Int) (parent : Option Bytes)
    (proof : Option Int) : Commit :=
  let h := commitHash S values.head createdOn parent proof
  let mine := proof.map (fun p =>
    let result := Hash.fromMultiBytes S [h, bigBytes p]
    (⟨result, p, scoreOf miningValue result⟩ : Mine))
  ⟨h, values, createdOn, parent, mine⟩

/-- The proof bytes of `commitAdapter.ToContent`, libs/databases/domain/references/commit_adapter.go:51-60. -/
def proofPart : Option Mine → Bytes
  | some m => 0 :: (le64 (bigBytes m.proof).length ++ bigBytes m.proof)
  | none => []

/-- The parent bytes of `commitAdapter.ToContent`, libs/databases/domain/references/commit_adapter.go:62-67. -/
def parentPart : Option Bytes → Bytes
  | some p => 1 :: p
  | none => []

/-- `commitAdapter.ToContent`, libs/databases/domain/references/commit_adapter.go:35-70. -/
def commitToContent (c : Commit) : Bytes :=
  le64 (toU64 c.createdOn) ++ le64 (HashTree.toContent c.values).length ++ HashTree.toContent c.values ++
  proofPart c.mine ++ parentPart c.parent

/-- The proof part of `ToCommit`, libs/databases/domain/references/commit_adapter.go:95-108: the proof, if any, and the remaining bytes. -/
def readProof (remaining : Slice) : Res (Option Int × Slice) :=
  if remaining.len > 0 then do
    let first ← remaining.sub 0 1
    if first.vis.head? = some 0 then do
      let remaining ← remaining.from' 1
      let l ← remaining.sub 0 8
      let b ← remaining.sub 8 (8 + leNat l.vis)
      let rest ← remaining.from' (8 + leNat l.vis)
      pure (some (bigOfBytes b.vis), rest)
    else pure (none, remaining)
  else pure (none, remaining)

/-- The parent part of `ToCommit`, libs/databases/domain/references/commit_adapter.go:110-117. -/
def readParent (S : Sha) (remaining : Slice) : Res (Option Bytes) :=
  if remaining.len > 0 then do
    let p ← remaining.from' 1
    pure (some (Hash.fromBytes S p.vis))
  else pure none

/-- `commitAdapter.ToCommit`, libs/databases/domain/references/commit_adapter.go:73-120. Lengths of 2^63 and more become negative `int`s in Go and
make the slice expressions panic; with natural numbers they exceed the capacity, with the same outcome. -/
def toCommit (S : Sha) (miningValue : UInt8) (c : Slice) : Res Commit :=
  if c.len < commitMinSize then .err
  else do
    let t ← c.sub 0 8
    let l ← c.sub 8 16
    let v ← c.sub 16 (16 + leNat l.vis)
    let values ← HashTree.toHashTree S v
    let remaining ← c.from' (16 + leNat l.vis)
    let pr ← readProof remaining
    let parent ← readParent S pr.2
    pure (commitNow S miningValue values (ofU64 (leNat t.vis)) parent pr.1)

/-- `commitsBuilder.Now`, libs/databases/domain/references/commits_builder.go:29-45. -/
def commitsNow (list : List Commit) : Res Commits :=
  if list.isEmpty then .err else .ok ⟨GoMap.ofList (fun k => Hash.toString k.hash) list, list⟩

/-- `commits.Latest`, libs/databases/domain/references/commits.go:33-35. -/
def Commits.latest (c : Commits) : Res Commit :=
  match c.list.getLast? with
  | some x => .ok x
  | none => .panic

/-- `commits.Fetch`, libs/databases/domain/references/commits.go:38-46. -/
def Commits.fetch (c : Commits) (hash : Bytes) : Res Commit :=
  match c.mp.get (Hash.toString hash) with
  | some x => .ok x
  | none => .err

/-- `commitsAdapter.ToContent`, libs/databases/domain/references/commits_adapter.go:27-44. -/
def commitsToContent (c : Commits) : Bytes :=
  c.list.flatMap (fun x => le64 (commitToContent x).length ++ commitToContent x)

/-- The loop of `commitsAdapter.ToCommits`, libs/databases/domain/references/commits_adapter.go:54-72. -/
def commitsLoop (S : Sha) (mv : UInt8) (c : Slice) (index : Nat) : Res (List Commit) :=
  if c.len < index then .panic
  else if h : c.len = index then .ok []
  else do
    let l ← c.sub index (index + 8)
    let s ← c.sub (index + 8) (index + 8 + leNat l.vis)
    let x ← toCommit S mv s
    let rest ← commitsLoop S mv c (index + 8 + leNat l.vis)
    pure (x :: rest)
termination_by c.len - index

/-- `commitsAdapter.ToCommits`, libs/databases/domain/references/commits_adapter.go:47-75. -/
def toCommits (S : Sha) (mv : UInt8) (c : Slice) : Res Commits :=
  if c.len < 8 + commitMinSize then .err
  else do
    let list ← commitsLoop S mv c 0
    commitsNow list

/-! ## References -/

/-- `adapter.ToContent`, libs/databases/domain/references/adapter.go:29-52. -/
def referenceToContent (r : Reference) : Bytes :=
  le64 (contentKeysToContent r.contentKeys).length ++ contentKeysToContent r.contentKeys ++
  le64 (commitsToContent r.commits).length ++ commitsToContent r.commits

/-- Reading one length-prefixed section, as done twice in libs/databases/domain/references/adapter.go:62-70 and 75-83: `start` is the offset of
the length field. `uint64` addition wraps and the conversion to `int` may be negative: in both cases the size check passes
and the slice expression panics. -/
def section' (c : Slice) (start : Nat) : Res (Slice × Nat) := do
  let l ← c.sub start (start + 8)
  let delimiter := leNat l.vis + (start + 8)
  if 2 ^ 63 ≤ delimiter then .panic
  else if c.len < delimiter then .err
  else do
    let s ← c.sub (start + 8) delimiter
    pure (s, delimiter)

/-- `adapter.ToReference`, libs/databases/domain/references/adapter.go:55-92. -/
def toReference (S : Sha) (mv : UInt8) (c : Slice) : Res Reference :=
  if c.len < minReferenceSize then .err
  else do
    let k ← section' c 0
    let keys ← toContentKeys S k.1
    let m ← section' c k.2
    let commits ← toCommits S mv m.1
    pure ⟨keys, commits⟩

/-! ## Contents -/

/-- `content`, libs/databases/domain/contents/content.go:5-9. -/
structure Content where
  hash : Bytes
  data : Bytes
  kind : Nat
  deriving DecidableEq, Repr

/-- `minContentSize`, libs/databases/domain/contents/sdk.go:5. -/
def minContentSize : Nat := 64 + 8 + 1
/-- `minContentsSize`, libs/databases/domain/contents/sdk.go:6. -/
def minContentsSize : Nat := 8 + minContentSize

/-- `contentBuilder.Now`, libs/databases/domain/contents/content_builder.go:49-67, with hash and kind present. -/
def contentNow (hash data : Bytes) (kind : Nat) : Res Content :=
  if data.isEmpty then .err else .ok ⟨hash, data, kind⟩

/-- `contentAdapter.ToContent`, libs/databases/domain/contents/content_adapter.go:29-40. -/
def contentToContent (c : Content) : Bytes := c.hash ++ le64 c.kind ++ c.data

/-- `contentAdapter.ToInstance`, libs/databases/domain/contents/content_adapter.go:43-63. -/
def toContentInstance (S : Sha) (c : Slice) : Res Content :=
  if c.len < minContentSize then .err
  else do
    let h ← c.sub 0 64
    let k ← c.sub 64 72
    let d ← c.from' 72
    contentNow (Hash.fromBytes S h.vis) d.vis (leNat k.vis)

/-- `adapter.ToContent`, libs/databases/domain/contents/adapter.go:27-44. -/
def contentsToContent (l : List Content) : Bytes :=
  l.flatMap (fun x => le64 (contentToContent x).length ++ contentToContent x)

/-- The loop of `adapter.ToInstance`, libs/databases/domain/contents/adapter.go:54-72. -/
def contentsLoop (S : Sha) (c : Slice) : Res (List Content) :=
  if c.len ≤ 0 then .ok []
  else
    match c.sub 0 8 with
    | .ok l =>
      match c.sub 8 (8 + leNat l.vis) with
      | .ok s =>
        match toContentInstance S s with
        | .ok x =>
          match h : c.from' (8 + leNat l.vis) with
          | .ok remaining =>
            match contentsLoop S remaining with
            | .ok rest => .ok (x :: rest)
            | .err => .err
            | .panic => .panic
          | .err => .err
          | .panic => .panic
        | .err => .err
        | .panic => .panic
      | .err => .err
      | .panic => .panic
    | .err => .err
    | .panic => .panic
termination_by c.cap
decreasing_by have := Slice.from_cap h; omega

/-- `adapter.ToInstance`, libs/databases/domain/contents/adapter.go:47-77, with `builder.Now` (libs/databases/domain/contents/builder.go:29-45). -/
def toContentsInstance (S : Sha) (c : Slice) : Res (List Content) :=
  if c.len < minContentsSize then .err
  else do
    let list ← contentsLoop S c
    if list.isEmpty then .err else pure list

end Ref
end Rodkina
