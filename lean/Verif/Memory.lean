import Verif.HashTree
/-!
# Slices in memory: what building and merging hash trees does to the caller's data

The other models take lists by value.  `append` writes into the array of its argument when there is room, so the two places that
append to a list they were given (libs/cryptography/domain/hashtrees/builder.go:78, libs/cryptography/domain/hashtrees/leaves.go:28) are modelled here with arrays.
-/

namespace Rodkina.Mem

open Rodkina.HashTree (Leaf Tree)

/-- A Go slice: an array, where it starts, how many elements it shows and how many it may grow to (`len` and `cap`).  Used for
`[][]byte` (libs/cryptography/domain/hashtrees/builder.go:15) and `[]Leaf` (libs/cryptography/domain/hashtrees/leaves.go:3-5). -/
structure Ptr where
  arr : Nat
  off : Nat
  len : Nat
  cap : Nat

/-- The arrays in memory; an array never moves or changes its size (Go's memory, not code of the repository; see
libs/cryptography/domain/hashtrees/leaves.go:26-32 for its use). -/
abbrev Heap (α : Type) := List (List α)

/-- The elements of a slice, as a loop over it sees them (libs/cryptography/domain/hashtrees/leaves.go:18-20). -/
def read {α : Type} (h : Heap α) (p : Ptr) : List α := ((h.getD p.arr []).drop p.off).take p.len

/-- `append(p, x)` (libs/cryptography/domain/hashtrees/builder.go:78, libs/cryptography/domain/hashtrees/leaves.go:28): into the array if there is room, otherwise
into a new array, with `grow len` more elements of room. -/
def push {α : Type} [Inhabited α] (grow : Nat → Nat) (h : Heap α) (p : Ptr) (x : α) : Heap α × Ptr :=
  if p.len < p.cap then
    (h.set p.arr ((h.getD p.arr []).set (p.off + p.len) x), { p with len := p.len + 1 })
  else
    (h ++ [read h p ++ x :: List.replicate (grow p.len) default], ⟨h.length, 0, p.len + 1, p.len + 1 + grow p.len⟩)

/-- Appending one by one, as the loop at libs/cryptography/domain/hashtrees/leaves.go:27-29. -/
def pushAll {α : Type} [Inhabited α] (grow : Nat → Nat) (h : Heap α) (p : Ptr) : List α → Heap α × Ptr
  | [] => (h, p)
  | x :: xs => pushAll grow (push grow h p x).1 (push grow h p x).2 xs

/-- `builder.Now` given a slice of blocks and not head and parent, libs/cryptography/domain/hashtrees/builder.go:77-124: the result
and the memory afterwards. -/
def buildIn (S : Sha) (grow : Nat → Nat) (h : Heap Bytes) (p : Ptr) : Res Tree × Heap Bytes :=
  let a := if p.len ≤ 1 then push grow h p [] else (h, p)
  let hashes := HashTree.padHashes S ((read a.1 a.2).map (Hash.fromBytes S))
  (if hashes.isEmpty then .err else HashTree.leavesToHashTree S (hashes.map Leaf.base), a.1)

/-- Some leaf, to fill the room of a new array; in Go it is nil (libs/cryptography/domain/hashtrees/leaves.go:28). -/
instance : Inhabited Leaf := ⟨.base []⟩

/-- Memory with the objects `Leaves` in it: an object is the slice it holds (libs/cryptography/domain/hashtrees/leaves.go:3-5). -/
structure State where
  heap : Heap Leaf
  objs : List Ptr

/-- `Leaves()` of an object, libs/cryptography/domain/hashtrees/leaves.go:16-23: always a copy. -/
def State.leaves (s : State) (i : Nat) : List Leaf :=
  match s.objs[i]? with
  | some p => read s.heap p
  | none => []

/-- The builder of leaves given a slice, libs/cryptography/domain/hashtrees/leaves_builder.go:29-39, libs/cryptography/domain/hashtrees/leaves.go:7-13: the object
keeps the caller's slice. -/
def State.create (s : State) (p : Ptr) : State × Nat := (⟨s.heap, s.objs ++ [p]⟩, s.objs.length)

/-- `Merge`, libs/cryptography/domain/hashtrees/leaves.go:26-32: the receiver `r` gets the leaves of `a` and is returned. -/
def State.merge (grow : Nat → Nat) (s : State) (r a : Nat) : State :=
  match s.objs[r]? with
  | some p =>
    let out := pushAll grow s.heap p (s.leaves a)
    ⟨out.1, s.objs.set r out.2⟩
  | none => s

/-- `LeafToLeaves` (libs/cryptography/domain/hashtrees/leaf_adapter.go:57-65) and `ParentLeafToLeaves` (118-130), with objects in
memory: the memory afterwards and the new object. -/
def leafToLeavesIn (grow : Nat → Nat) (s : State) : Leaf → State × Nat
  | .base h => State.create ⟨s.heap ++ [[.base h]], s.objs⟩ ⟨s.heap.length, 0, 1, 1⟩
  | .node _ l r =>
    let a := leafToLeavesIn grow s l
    let b := leafToLeavesIn grow a.1 r
    (b.1.merge grow a.2 b.2, a.2)

/-- A compact hash tree holds an object (libs/cryptography/domain/hashtrees/compact.go:7-19). -/
structure CompactIn where
  head : Bytes
  leaves : Nat

/-- `compact.Length`, libs/cryptography/domain/hashtrees/compact.go:32-34. -/
def CompactIn.length (c : CompactIn) (s : State) : Nat := (s.leaves c.leaves).length

/-- `ToCompact`, libs/cryptography/domain/hashtrees/adapter.go:84-95. -/
def toCompactIn (grow : Nat → Nat) (s : State) (t : Tree) : State × CompactIn :=
  let a := leafToLeavesIn grow s t.left
  let b := leafToLeavesIn grow a.1 t.right
  (b.1.merge grow a.2 b.2, ⟨t.head, a.2⟩)

end Rodkina.Mem
