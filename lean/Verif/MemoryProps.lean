import Verif.MemoryLemmas
import Verif.HashTreeProps
/-!
# C117–C119: hash trees and the caller's data
-/

namespace Rodkina.Props

open Rodkina.Mem
open Rodkina.HashTree (Leaf Tree)

/-! ## C117: building a hash tree and the caller's blocks

Wanted: the tree is that of the blocks, and no slice of the caller changes. -/

/-- **C117 (partial): the result** is that of the blocks in the slice, whatever memory looks like. -/
theorem C117_result_partial (S : Sha) (grow : Nat → Nat) (h : Heap Bytes) (p : Ptr) (hp : p.Valid h) :
    (buildIn S grow h p).1 = HashTree.build S (some (read h p)) := buildIn_result S grow h p hp

/-- **C117 (partial): the caller's slices.** Every slice `q` reads the same afterwards if the builder got at least two blocks, or a
slice without room behind, or `q` has nothing in that room.  Missing: `q` with elements in the room behind a slice of at most one
block (`C117_overwritten`). -/
theorem C117_unchanged_partial (S : Sha) (grow : Nat → Nat) (h : Heap Bytes) (p q : Ptr) (hp : p.Valid h) (hq : q.Valid h)
    (ha : 2 ≤ p.len ∨ p.cap = p.len ∨ Apart p q) : read (buildIn S grow h p).2 q = read h q :=
  buildIn_frame S grow h p q hp hq ha

/-- **C117 (partial): the slice itself** always reads the same afterwards. -/
theorem C117_own_partial (S : Sha) (grow : Nat → Nat) (h : Heap Bytes) (p : Ptr) (hp : p.Valid h) :
    read (buildIn S grow h p).2 p = read h p :=
  buildIn_frame S grow h p p hp hp (.inr (.inr (.inr (.inl (Nat.le_refl _)))))

-- a slice of one block with room behind, and a slice of the same array that ends there
example : Ptr.Valid [[[1], [2], [3]], [[4]]] ⟨0, 1, 1, 2⟩ ∧ Ptr.Valid [[[1], [2], [3]], [[4]]] ⟨0, 0, 2, 3⟩ ∧
    Apart ⟨0, 1, 1, 2⟩ ⟨0, 0, 2, 3⟩ := by
  simp [Ptr.Valid, Apart]

/-- **C117 (negation).** Given the first of two blocks as `data[:1]`, the builder empties the second one. -/
theorem C117_overwritten (S : Sha) (grow : Nat → Nat) :
    ∃ (h : Heap Bytes) (p q : Ptr), p.Valid h ∧ q.Valid h ∧ read h p = [[1]] ∧ read h q = [[1], [2]] ∧
      read (buildIn S grow h p).2 q = [[1], []] := by
  refine ⟨[[[1], [2]]], ⟨0, 0, 1, 2⟩, ⟨0, 0, 2, 2⟩, ?_, ?_, rfl, rfl, rfl⟩ <;> simp [Ptr.Valid]

/-! ## C118: merging leaves

Wanted: `Merge` returns the leaves of both, and nothing else changes. -/

/-- **C118 (partial): the result.** What is returned, which is the receiver, holds the leaves of both, in order. -/
theorem C118_result_partial (grow : Nat → Nat) (s : State) (hs : s.Valid) (r a : Nat) (hr : r < s.objs.length) :
    (s.merge grow r a).Valid ∧ (s.merge grow r a).leaves r = s.leaves r ++ s.leaves a :=
  ⟨merge_valid grow s hs r a, merge_receiver grow s hs r a hr⟩

/-- **C118 (partial): slices.** Every slice reads the same afterwards if it has nothing in the room behind the receiver's, or there
is no such room.  Missing: slices that have (`C118_others_change`). -/
theorem C118_slices_partial (grow : Nat → Nat) (s : State) (hs : s.Valid) (r a : Nat) (p q : Ptr) (hr : s.objs[r]? = some p)
    (hq : q.Valid s.heap) (ha : Apart p q ∨ p.cap = p.len) : read (s.merge grow r a).heap q = read s.heap q := by
  rcases ha with ha | ha
  · exact (merge_frame grow s hs r a p q hr hq ha).2
  · rw [merge_eq grow s r a p hr]
    exact pushAll_full grow _ s.heap p (hs p (List.mem_of_getElem? hr)) ha q hq

/-- **C118 (partial): objects.** The same for the other objects that hold leaves.  Missing: the receiver itself changes
(`C118_receiver_changes`). -/
theorem C118_objects_partial (grow : Nat → Nat) (s : State) (hs : s.Valid) (r a i : Nat) (p q : Ptr) (hr : s.objs[r]? = some p)
    (hi : s.objs[i]? = some q) (hne : i ≠ r) (ha : Apart p q ∨ p.cap = p.len) : (s.merge grow r a).leaves i = s.leaves i := by
  unfold State.leaves
  rw [merge_objs grow s r a i hne, hi]
  exact C118_slices_partial grow s hs r a p q hr (hs q (List.mem_of_getElem? hi)) ha

/-- Two objects over the same array, the first with room for what the second one shows. -/
def shared : State := ⟨[[.base [1], .base [2]]], [⟨0, 0, 1, 2⟩, ⟨0, 0, 2, 2⟩]⟩

theorem shared_valid : shared.Valid := by
  intro p hp
  simp [shared] at hp
  rcases hp with rfl | rfl <;> simp [Ptr.Valid, shared]

-- the second object has no room behind
example : shared.objs[1]? = some ⟨0, 0, 2, 2⟩ ∧ shared.objs[0]? = some ⟨0, 0, 1, 2⟩ ∧
    (Apart ⟨0, 0, 2, 2⟩ ⟨0, 0, 1, 2⟩ ∨ (⟨0, 0, 2, 2⟩ : Ptr).cap = (⟨0, 0, 2, 2⟩ : Ptr).len) := ⟨rfl, rfl, .inr rfl⟩

/-- **C118 (negation).** `Merge` changes its receiver, and with it a compact tree that holds it: its length is another one
afterwards. -/
theorem C118_receiver_changes (grow : Nat → Nat) :
    ∃ (s : State) (c : CompactIn) (a : Nat), s.Valid ∧ c.length s = 1 ∧ c.length (s.merge grow c.leaves a) = 3 := by
  refine ⟨shared, ⟨[9], 0⟩, 1, shared_valid, rfl, ?_⟩
  unfold CompactIn.length
  rw [(C118_result_partial grow shared shared_valid 0 1 (by decide)).2]
  rfl

/-- **C118 (negation).** It can change leaves that are neither receiver nor argument, which share an array with the receiver. -/
theorem C118_others_change (grow : Nat → Nat) :
    ∃ (s : State) (r a i : Nat), s.Valid ∧ i ≠ r ∧ i ≠ a ∧ s.leaves i = [.base [1], .base [2]] ∧
      (s.merge grow r a).leaves i = [.base [1], .base [1]] := by
  exact ⟨shared, 0, 0, 1, shared_valid, by decide, by decide, rfl, rfl⟩

/-! ## C119: compact trees have leaves of their own -/

/-- **C119 (leaves).** Making a compact tree gives the leaves of the hash tree, under its head, and changes no slice and no object
there was. -/
theorem C119_compact (grow : Nat → Nat) (t : Tree) (s : State) (hs : s.Valid) :
    (toCompactIn grow s t).1.Valid ∧ (toCompactIn grow s t).2.head = t.head ∧
    (toCompactIn grow s t).1.leaves (toCompactIn grow s t).2.leaves = t.leaves ∧
    (toCompactIn grow s t).2.length (toCompactIn grow s t).1 = t.leaves.length ∧
    (∀ i, i < s.objs.length → (toCompactIn grow s t).1.leaves i = s.leaves i) ∧
    (∀ q : Ptr, q.Valid s.heap → q.Valid (toCompactIn grow s t).1.heap ∧ read (toCompactIn grow s t).1.heap q = read s.heap q) := by
  have h := toCompactIn_fresh grow t s hs
  exact ⟨h.valid, rfl, h.leaves, by unfold CompactIn.length; rw [h.leaves], fun i hi => h.old hs i hi, h.frame⟩

/-- **C119 (independence).** Merging into the leaves of a compact tree changes no other compact tree, made earlier or later, not even
of the same hash tree, and no slice and no object that was there before. -/
theorem C119_independent (grow : Nat → Nat) (t u : Tree) (s : State) (hs : s.Valid) (k : Nat) :
    let a := toCompactIn grow s t
    let b := toCompactIn grow a.1 u
    (b.1.merge grow a.2.leaves k).leaves b.2.leaves = u.leaves ∧
    (b.1.merge grow b.2.leaves k).leaves a.2.leaves = t.leaves ∧
    (∀ i, i < s.objs.length → (b.1.merge grow a.2.leaves k).leaves i = s.leaves i ∧ (b.1.merge grow b.2.leaves k).leaves i = s.leaves i) := by
  intro a b
  have ha : Fresh s a.1 a.2.leaves t.leaves := toCompactIn_fresh grow t s hs
  have hb : Fresh a.1 b.1 b.2.leaves u.leaves := toCompactIn_fresh grow u a.1 ha.valid
  exact independent grow hs ha hb k

-- valid memory with objects in it
example : shared.Valid ∧ shared.objs.length = 2 := ⟨shared_valid, rfl⟩

end Rodkina.Props
