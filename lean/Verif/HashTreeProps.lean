import Verif.HashTreeLemmas2
import Verif.HashProps
import Mathlib.Data.List.Nodup
import Mathlib.Tactic.ByContra
/-!
# Properties C03-C12, C63, C64: hash trees

The specification used here is `HashTree.merkleRoot` (the textbook Merkle root of `2^k` hashes), independent of the
builder.
-/

set_option maxRecDepth 4000

namespace Rodkina.Props

open Rodkina HashTree

/-- The leaf hashes of a tree, left to right. -/
def leafHashes (t : Tree) : List Bytes := t.leaves.map Leaf.head

/-- C03: building from at least one block succeeds. The leaf hashes are the hashes of the blocks, in order, followed by
hashes of the empty block only; there are `2^(k+1)` of them, which is the smallest power of two that is at least
`max 2 (number of blocks)`; and the head is the Merkle root of the leaf hashes. -/
theorem C03_build_is_merkle (S : Sha) (bs : List Bytes) (h : bs ≠ []) :
    ∃ t k p, build S (some bs) = .ok t ∧
      leafHashes t = bs.map (Hash.fromBytes S) ++ List.replicate p (Hash.fromBytes S []) ∧
      (leafHashes t).length = 2 ^ (k + 1) ∧ 2 ^ k < max 2 bs.length ∧ max 2 bs.length ≤ 2 ^ (k + 1) ∧
      t.head = merkleRoot S (k + 1) (leafHashes t) := by
  obtain ⟨t, k, p, hb, hl, hlen, hk, hh, p1, p2⟩ := build_spec S bs h
  have hL : leafHashes t = (atLeastTwo bs).map (Hash.fromBytes S) ++ List.replicate p (Hash.fromBytes S []) := by
    unfold leafHashes
    rw [hl, List.map_map]
    exact List.map_id'' (fun x => rfl) _
  have hhead : t.head = merkleRoot S (k + 1) (leafHashes t) := by
    have e1 := p1.leaves_length
    rw [hh, p1.head_eq, p2.head_eq]
    simp only [leafHashes, Tree.leaves, merkleRoot, List.map_append]
    rw [List.take_left' (by simp [e1]), List.drop_left' (by simp [e1])]
  by_cases h1 : bs.length ≤ 1
  · have e : atLeastTwo bs = bs ++ [[]] := by simp [atLeastTwo, h1]
    have hbl : bs.length = 1 := by
      have := List.length_pos_iff.mpr h
      omega
    rw [e] at hL hlen hk
    refine ⟨t, k, p + 1, hb, ?_, ?_, ?_, ?_, hhead⟩
    · rw [hL, List.replicate_succ]; simp
    · rw [hL]; simp at hlen ⊢; omega
    · simp [hbl] at hk ⊢; omega
    · simp [hbl] at hlen ⊢; omega
  · have e : atLeastTwo bs = bs := by simp [atLeastTwo, h1]
    rw [e] at hL hlen hk
    refine ⟨t, k, p, hb, hL, ?_, ?_, ?_, hhead⟩
    · rw [hL]; simpa using hlen
    · omega
    · omega

-- three blocks: a case with padding (one empty block) and a successful build
example : ([[1], [2], [3]] : List Bytes) ≠ [] := by decide

/-- C04 (negation): the claim "building never crashes" is false, for every digest function: building from an empty
(non-nil) block list panics (one padded hash, then `list[index+1]` out of range). -/
theorem C04_empty_list_panics (S : Sha) : build S (some []) = .panic := by
  simp [build, padHashes, isPowerOfTwo, leavesToHashTree, childrenLeaves]

/-- C04 (partial): for nil and for every non-empty block list, building does not panic. Missing: the empty list, for
which it does (`C04_empty_list_panics`). -/
theorem C04_build_never_panics_partial (S : Sha) (b : Option (List Bytes)) (h : b ≠ some []) :
    build S b ≠ .panic := by
  match b, h with
  | none, _ => simp [build]
  | some bs, h =>
    obtain ⟨t, k, p, hb, _⟩ := build_spec S bs (fun e => h (by rw [e]))
    rw [hb]; simp

example : (some [[1, 2]] : Option (List Bytes)) ≠ some [] := by decide

/-- Every built tree is made of 64-byte hashes. -/
theorem build_sized (S : Sha) (bs : List Bytes) (t : Tree) (h : build S (some bs) = .ok t) : t.Sized := by
  by_cases hb : bs = []
  · subst hb; rw [C04_empty_list_panics] at h; cases h
  · obtain ⟨t', k, p, hb', hl, hlen, hk, hh, p1, p2⟩ := build_spec S bs hb
    rw [hb'] at h
    injection h with h
    subst h
    exact ⟨by rw [hh]; exact S.len _, p1.sized, p2.sized⟩

/-- The tree built from two blocks. -/
theorem build_two (S : Sha) (a b : Bytes) :
    build S (some [a, b]) = .ok ⟨S.f (Hash.fromBytes S a ++ Hash.fromBytes S b), .base (Hash.fromBytes S a), .base (Hash.fromBytes S b)⟩ := by
  have e1 : isPowerOfTwo 2 = true := by decide
  simp [build, padHashes, e1, leavesToHashTree, Leaf.head,
    fromMultiBytes_pair S (Hash.fromBytes_length S a) (Hash.fromBytes_length S b)]

/-- One block (so one padding leaf), any digest. -/
theorem builtSample (S : Sha) : ∃ t, build S (some [[1, 2, 3]]) = .ok t ∧ build S (some [[1, 2, 3], []]) = .ok t ∧
    (toContent t).length < 2 ^ 64 ∧ toLength t < 2 ^ 63 := by
  have e : build S (some [[1, 2, 3]]) = build S (some [[1, 2, 3], []]) := by simp [build]
  refine ⟨_, e.trans (build_two S _ _), build_two S _ _, ?_, by simp [toLength, Tree.leaves, leafToLeaves]⟩
  simp [toContent, parentToContent, leafToContent, Hash.fromBytes_length, S.len]

/-- C05: decoding the serialised form of a built tree gives the tree back, also when the content is a sub-slice of a
larger buffer (`tail` is what follows it in memory). -/
theorem C05_tree_round_trip (S : Sha) (bs : List Bytes) (t : Tree) (h : build S (some bs) = .ok t)
    (hlen : (toContent t).length < 2 ^ 64) (tail : Bytes) :
    toHashTree S ⟨toContent t, tail⟩ = .ok t :=
  toHashTree_toContent S t (build_sized S bs t h) hlen tail

example (S : Sha) : ∃ t, build S (some [[1, 2, 3]]) = .ok t ∧ toHashTree S ⟨toContent t, [7, 7]⟩ = .ok t :=
  let ⟨t, h, _, h1, _⟩ := builtSample S
  ⟨t, h, C05_tree_round_trip S _ t h h1 [7, 7]⟩

/-- C05 (converse, for all bytes): whatever bytes the decoder accepts are exactly the serialised form of the tree it
returns; two different byte strings never decode to the same tree and no byte is ignored. -/
theorem C05_decoding_is_exact (S : Sha) (c : Slice) (t : Tree) (h : toHashTree S c = .ok t) : toContent t = c.vis :=
  (toHashTree_exact S c t h).1

example (S : Sha) : ∃ t, toHashTree S ⟨toContent t, [7]⟩ = .ok t ∧ toContent t = (⟨toContent t, [7]⟩ : Slice).vis :=
  let ⟨t, h, _, h1, _⟩ := builtSample S
  ⟨t, C05_tree_round_trip S _ t h h1 [7], C05_decoding_is_exact S _ t (C05_tree_round_trip S _ t h h1 [7])⟩

-- one block (so one padding leaf), any digest: the hypotheses of C05 and C06 hold
example (S : Sha) : ∃ t, build S (some [[1, 2, 3]]) = .ok t ∧ (toContent t).length < 2 ^ 64 ∧ toLength t < 2 ^ 63 := by
  have e : build S (some [[1, 2, 3]]) = build S (some [[1, 2, 3], []]) := by simp [build]
  refine ⟨_, e.trans (build_two S _ _), ?_, by simp [toLength, Tree.leaves, leafToLeaves]⟩
  simp [toContent, parentToContent, leafToContent, Hash.fromBytes_length, S.len]

/-- C06: the compact form of a tree keeps head, leaf hashes in order, and their number; and it round-trips. -/
theorem C06_compact (S : Sha) (bs : List Bytes) (t : Tree) (h : build S (some bs) = .ok t)
    (hn : toLength t < 2 ^ 63) (tail : Bytes) :
    (toCompact t).head = t.head ∧ (toCompact t).leaves.map Leaf.head = leafHashes t ∧
    (toCompact t).length = toLength t ∧
    contentToCompact S ⟨compactToContent (toCompact t), tail⟩ = .ok (toCompact t) := by
  refine ⟨rfl, rfl, rfl, ?_⟩
  by_cases hb : bs = []
  · subst hb; rw [C04_empty_list_panics] at h; cases h
  · obtain ⟨t', k, p, hb', hl, hlen, hk, hh, p1, p2⟩ := build_spec S bs hb
    rw [hb'] at h
    injection h with h
    subst h
    apply compact_round_trip
    · simp only [toCompact, hh]; exact S.len _
    · simp only [toCompact]
      intro h0
      have : t'.leaves.length = 2 ^ (k + 1) := by rw [hl]; simpa using hlen
      rw [h0] at this
      have := Nat.two_pow_pos (k + 1)
      simp_all
    · exact hn
    · intro x hx
      simp only [toCompact, hl, List.mem_map] at hx
      obtain ⟨d, hd, rfl⟩ := hx
      have hd64 : d.length = 64 := by
        simp only [List.mem_append, List.mem_map, List.mem_replicate] at hd
        rcases hd with ⟨b, _, rfl⟩ | ⟨_, rfl⟩ <;> exact Hash.fromBytes_length S _
      refine ⟨hd64, ?_⟩
      simp [leafToContent, hd64]

example (S : Sha) : ∃ t, build S (some [[1, 2, 3]]) = .ok t ∧
    contentToCompact S ⟨compactToContent (toCompact t), [7]⟩ = .ok (toCompact t) :=
  let ⟨t, h, _, _, h2⟩ := builtSample S
  ⟨t, h, (C06_compact S _ t h h2 [7]).2.2.2⟩

/-- C07: if the blocks have pairwise different hashes and either there is no padding or no block hashes like the empty
block, then ordering any permutation of the blocks against the tree restores the original list. -/
theorem C07_order_restores (S : Sha) (bs mixed : List Bytes) (t : Tree) (h : build S (some bs) = .ok t)
    (hd : (bs.map (Hash.fromBytes S)).Nodup) (hperm : mixed.Perm bs)
    (hpad : toLength t = bs.length ∨ ∀ b ∈ bs, Hash.fromBytes S b ≠ Hash.fromBytes S []) :
    toOrder S t mixed = .ok bs := by
  by_cases hb : bs = []
  · subst hb; rw [C04_empty_list_panics] at h; cases h
  obtain ⟨t', k, p, hb', hL, hlen, _, _, _⟩ := C03_build_is_merkle S bs hb
  rw [hb'] at h
  injection h with h
  subst h
  have hinj : ∀ x ∈ mixed, ∀ y ∈ mixed, Hash.fromBytes S x = Hash.fromBytes S y → x = y := by
    intro x hx y hy e
    rw [hperm.mem_iff] at hx hy
    exact List.inj_on_of_nodup_map hd hx hy e
  have hout : t'.leaves.filterMap (fun l => lookup (orderMap S mixed) (Hash.toString l.head)) = bs := by
    have e1 : t'.leaves.filterMap (fun l => lookup (orderMap S mixed) (Hash.toString l.head)) =
        (leafHashes t').filterMap (fun d => lookup (orderMap S mixed) (Hash.toString d)) := by
      unfold leafHashes
      rw [List.filterMap_map]; rfl
    rw [e1, hL, List.filterMap_append]
    rw [filterMap_some_map bs (Hash.fromBytes S) (fun d => lookup (orderMap S mixed) (Hash.toString d))
      (fun x hx => lookup_orderMap_mem S mixed x (hperm.mem_iff.mpr hx) hinj)]
    have e2 : (List.replicate p (Hash.fromBytes S [])).filterMap
        (fun d => lookup (orderMap S mixed) (Hash.toString d)) = [] := by
      rcases hpad with hpad | hpad
      · have : p = 0 := by
          have e : toLength t' = (leafHashes t').length := by simp [toLength, leafHashes]
          rw [e, hL] at hpad
          simp at hpad
          omega
        simp [this]
      · rw [List.filterMap_eq_nil_iff]
        intro d hd'
        rw [List.eq_of_mem_replicate hd']
        apply lookup_orderMap_none
        intro b hb
        exact hpad b (hperm.mem_iff.mp hb)
    rw [e2, List.append_nil]
  unfold toOrder
  simp only
  rw [hout]
  simp [hperm.length_eq]

/-- A digest that keeps the first 63 bytes and the length apart; used in examples only. -/
def toySha2 : Sha := ⟨fun b => (b ++ List.replicate 64 0).take 63 ++ [UInt8.ofNat b.length], by simp⟩

-- hypotheses of C07 hold for a shuffled list with padding
example : (([[1], [2], [3]] : List Bytes).map (Hash.fromBytes toySha2)).Nodup ∧
    ([[3], [1], [2]] : List Bytes).Perm [[1], [2], [3]] ∧
    ∀ b ∈ ([[1], [2], [3]] : List Bytes), Hash.fromBytes toySha2 b ≠ Hash.fromBytes toySha2 [] := by
  decide

/-- C08 (negation): whenever the block list contains the empty block and padding was needed, ordering fails for every
permutation with pairwise different hashes (and for every digest function): the padding leaves match the empty block
again. -/
theorem C08_order_fails_with_empty_block (S : Sha) (bs mixed : List Bytes) (t : Tree)
    (h : build S (some bs) = .ok t) (hd : (bs.map (Hash.fromBytes S)).Nodup) (hperm : mixed.Perm bs)
    (hempty : ([] : Bytes) ∈ bs) (hpad : toLength t ≠ bs.length) :
    toOrder S t mixed = .err := by
  by_cases hb : bs = []
  · subst hb; simp at hempty
  obtain ⟨t', k, p, hb', hL, hlen, _, _, _⟩ := C03_build_is_merkle S bs hb
  rw [hb'] at h
  injection h with h
  subst h
  have hinj : ∀ x ∈ mixed, ∀ y ∈ mixed, Hash.fromBytes S x = Hash.fromBytes S y → x = y := by
    intro x hx y hy e
    rw [hperm.mem_iff] at hx hy
    exact List.inj_on_of_nodup_map hd hx hy e
  have hout : (t'.leaves.filterMap (fun l => lookup (orderMap S mixed) (Hash.toString l.head))).length =
      bs.length + p := by
    have e1 : t'.leaves.filterMap (fun l => lookup (orderMap S mixed) (Hash.toString l.head)) =
        (leafHashes t').filterMap (fun d => lookup (orderMap S mixed) (Hash.toString d)) := by
      unfold leafHashes
      rw [List.filterMap_map]; rfl
    rw [e1, hL, List.filterMap_append]
    rw [filterMap_some_map bs (Hash.fromBytes S) (fun d => lookup (orderMap S mixed) (Hash.toString d))
      (fun x hx => lookup_orderMap_mem S mixed x (hperm.mem_iff.mpr hx) hinj)]
    have e2 : List.replicate p (Hash.fromBytes S []) = (List.replicate p ([] : Bytes)).map (Hash.fromBytes S) := by
      simp
    rw [e2, filterMap_some_map _ _ (fun d => lookup (orderMap S mixed) (Hash.toString d))]
    · simp
    · intro x hx
      rw [List.eq_of_mem_replicate hx]
      exact lookup_orderMap_mem S mixed [] (hperm.mem_iff.mpr hempty) hinj
  have hp : p ≠ 0 := by
    intro h0
    apply hpad
    have e : toLength t' = (leafHashes t').length := by simp [toLength, leafHashes]
    rw [e, hL, h0]; simp
  unfold toOrder
  simp only
  rw [if_pos]
  rw [hout, hperm.length_eq]
  omega

-- a concrete instance: three blocks, one empty; the tree has four leaves
example : (([[1], [], [3]] : List Bytes).map (Hash.fromBytes toySha2)).Nodup ∧ ([] : Bytes) ∈ ([[1], [], [3]] : List Bytes) := by
  decide

/-- C08 (negation, existential form): there is a distinct-hash block list and a permutation (the list itself) whose
ordering fails. -/
theorem C08_negation : ∃ (S : Sha) (bs : List Bytes) (t : Tree), build S (some bs) = .ok t ∧
    (bs.map (Hash.fromBytes S)).Nodup ∧ toOrder S t bs = .err := by
  obtain ⟨t, k, p, hb, hL, hlen, _⟩ := C03_build_is_merkle toySha2 [[1], [], [3]] (by decide)
  refine ⟨toySha2, [[1], [], [3]], t, hb, by decide, ?_⟩
  apply C08_order_fails_with_empty_block toySha2 _ _ t hb (by decide) (List.Perm.refl _) (by decide)
  have e : toLength t = (leafHashes t).length := by simp [toLength, leafHashes]
  rw [e, hlen]
  have : k = 0 ∨ 1 ≤ k := by omega
  rcases this with rfl | hk
  · decide
  · have : 2 ^ 1 ≤ 2 ^ k := Nat.pow_le_pow_right (by decide) hk
    simp [Nat.pow_succ]; omega

/-- C08 (partial): with the empty block present ordering works when no padding was needed. Missing: the padded case, where
it always fails. -/
theorem C08_order_with_empty_block_partial (S : Sha) (bs mixed : List Bytes) (t : Tree)
    (h : build S (some bs) = .ok t) (hd : (bs.map (Hash.fromBytes S)).Nodup) (hperm : mixed.Perm bs)
    (hpad : toLength t = bs.length) : toOrder S t mixed = .ok bs :=
  C07_order_restores S bs mixed t h hd hperm (.inl hpad)

example : (([[1], []] : List Bytes).map (Hash.fromBytes toySha2)).Nodup := by decide

/-- Ordering never invents blocks: whatever is returned consists of given blocks, and has as many entries as were
given. -/
theorem C07_order_only_returns_given (S : Sha) (t : Tree) (mixed out : List Bytes)
    (h : toOrder S t mixed = .ok out) :
    out.length = mixed.length ∧ ∀ b ∈ out, b ∈ mixed ∧ ∃ l ∈ t.leaves, l.head = Hash.fromBytes S b := by
  unfold toOrder at h
  simp only at h
  split at h
  · cases h
  rename_i hn
  injection h with h
  subst h
  refine ⟨by simpa using hn, ?_⟩
  intro b hb
  rw [List.mem_filterMap] at hb
  obtain ⟨l, hl, hf⟩ := hb
  rw [lookup_orderMap] at hf
  have h1 := List.mem_of_find?_eq_some hf
  have h2 := List.find?_some hf
  exact ⟨by simpa using h1, l, hl, by simpa using Eq.symm (by simpa using h2)⟩

-- ordering three shuffled blocks succeeds
example : ∃ t, build toySha2 (some [[1], [2], [3]]) = .ok t ∧ toOrder toySha2 t [[3], [1], [2]] = .ok [[1], [2], [3]] := by
  obtain ⟨t, k, p, hb, hL, _⟩ := C03_build_is_merkle toySha2 [[1], [2], [3]] (by decide)
  exact ⟨t, hb, C07_order_restores toySha2 _ [[3], [1], [2]] t hb (by decide) (by decide) (.inr (by decide))⟩

private theorem two_pow_inj {a b : Nat} (h : 2 ^ a = 2 ^ b) : a = b := by
  have h1 := (Nat.pow_le_pow_iff_right (show 1 < 2 by decide)).mp (Nat.le_of_eq h)
  have h2 := (Nat.pow_le_pow_iff_right (show 1 < 2 by decide)).mp (Nat.le_of_eq h.symm)
  omega

/-- C09: two built trees with equally many leaves and the same head have the same leaf hashes in order, or two different
128-byte strings have the same SHA-512 digest. -/
theorem C09_head_binds_leaves (S : Sha) (b1 b2 : List Bytes) (t1 t2 : Tree) (h1 : build S (some b1) = .ok t1)
    (h2 : build S (some b2) = .ok t2) (hn : toLength t1 = toLength t2) (hh : t1.head = t2.head) :
    leafHashes t1 = leafHashes t2 ∨
      ∃ x y : Bytes, x ≠ y ∧ x.length = 128 ∧ y.length = 128 ∧ S.f x = S.f y := by
  by_cases e1 : b1 = []
  · subst e1; rw [C04_empty_list_panics] at h1; cases h1
  by_cases e2 : b2 = []
  · subst e2; rw [C04_empty_list_panics] at h2; cases h2
  obtain ⟨t1', k1, p1, hb1, hL1, hl1, _, _, hm1⟩ := C03_build_is_merkle S b1 e1
  obtain ⟨t2', k2, p2, hb2, hL2, hl2, _, _, hm2⟩ := C03_build_is_merkle S b2 e2
  rw [hb1] at h1; injection h1 with h1; subst h1
  rw [hb2] at h2; injection h2 with h2; subst h2
  have q1 : toLength t1' = (leafHashes t1').length := by simp [toLength, leafHashes]
  have q2 : toLength t2' = (leafHashes t2').length := by simp [toLength, leafHashes]
  rw [q1, q2, hl1, hl2] at hn
  have hk : k1 + 1 = k2 + 1 := two_pow_inj hn
  rw [hm1, hm2, ← hk] at hh
  have s : ∀ (b : List Bytes) (p : Nat), ∀ x ∈ b.map (Hash.fromBytes S) ++ List.replicate p (Hash.fromBytes S []),
      x.length = 64 := by
    intro b p x hx
    simp only [List.mem_append, List.mem_map, List.mem_replicate] at hx
    rcases hx with ⟨_, _, rfl⟩ | ⟨_, rfl⟩ <;> exact Hash.fromBytes_length S _
  exact merkleRoot_binding S (k1 + 1) _ _ hl1 (by rw [hl2, hk]) (by rw [hL1]; exact s _ _) (by rw [hL2]; exact s _ _) hh

-- two different lists of blocks with the same head
example (S : Sha) : ∃ t, build S (some [[1, 2, 3]]) = .ok t ∧ build S (some [[1, 2, 3], []]) = .ok t ∧
    (leafHashes t = leafHashes t ∨ ∃ x y : Bytes, x ≠ y ∧ x.length = 128 ∧ y.length = 128 ∧ S.f x = S.f y) :=
  let ⟨t, h, h', _⟩ := builtSample S
  ⟨t, h, h', C09_head_binds_leaves S _ _ t t h h' rfl rfl⟩

/-- C10 (partial): two block lists of equal length with equal heads are equal, or SHA-512 collides - provided no block has
exactly 64 bytes. Missing: blocks of 64 bytes (which are their own hash) and lists of different lengths; both fail, see
the negations below. -/
theorem C10_head_binds_blocks_partial (S : Sha) (b1 b2 : List Bytes) (t1 t2 : Tree)
    (h1 : build S (some b1) = .ok t1) (h2 : build S (some b2) = .ok t2) (hn : b1.length = b2.length)
    (s1 : ∀ b ∈ b1, b.length ≠ 64) (s2 : ∀ b ∈ b2, b.length ≠ 64) (hh : t1.head = t2.head) :
    b1 = b2 ∨ ∃ x y : Bytes, x ≠ y ∧ S.f x = S.f y := by
  by_cases e1 : b1 = []
  · subst e1; rw [C04_empty_list_panics] at h1; cases h1
  by_cases e2 : b2 = []
  · subst e2; rw [C04_empty_list_panics] at h2; cases h2
  obtain ⟨t1', k1, p1, hb1, hL1, hl1, l1, u1, hm1⟩ := C03_build_is_merkle S b1 e1
  obtain ⟨t2', k2, p2, hb2, hL2, hl2, l2, u2, hm2⟩ := C03_build_is_merkle S b2 e2
  rw [hb1] at h1; injection h1 with h1; subst h1
  rw [hb2] at h2; injection h2 with h2; subst h2
  have q1 : toLength t1' = (leafHashes t1').length := by simp [toLength, leafHashes]
  have q2 : toLength t2' = (leafHashes t2').length := by simp [toLength, leafHashes]
  have hk : k1 = k2 := by
    rw [hn] at l1 u1
    have a1 : 2 ^ k1 < 2 ^ (k2 + 1) := by omega
    have a2 : 2 ^ k2 < 2 ^ (k1 + 1) := by omega
    have := (Nat.pow_lt_pow_iff_right (show 1 < 2 by decide)).mp a1
    have := (Nat.pow_lt_pow_iff_right (show 1 < 2 by decide)).mp a2
    omega
  rcases C09_head_binds_leaves S b1 b2 t1' t2' hb1 hb2 (by rw [q1, q2, hl1, hl2, hk]) hh with h | ⟨x, y, hxy, _, _, hf⟩
  · rw [hL1, hL2] at h
    have hmap := (List.append_inj h (by simp [hn])).1
    by_cases hcol : ∃ x y : Bytes, x ≠ y ∧ S.f x = S.f y
    · exact .inr hcol
    · left
      clear hL1 hL2 h hb1 hb2 hl1 hl2 l1 u1 l2 u2 hm1 hm2 q1 q2 hh e1 e2
      induction b1 generalizing b2 with
      | nil => exact (List.eq_nil_of_length_eq_zero hn.symm).symm
      | cons x xs ih =>
        match b2, hn with
        | y :: ys, hn =>
          simp only [List.map_cons, List.cons.injEq] at hmap
          obtain ⟨hxy, hrest⟩ := hmap
          rw [Hash.fromBytes_of_ne (s1 x (by simp)), Hash.fromBytes_of_ne (s2 y (by simp))] at hxy
          have : x = y := by
            by_cases e : x = y
            · exact e
            · exact absurd ⟨x, y, e, hxy⟩ hcol
          rw [this, ih ys (by simpa using hn) (fun b hb => s1 b (by simp [hb])) (fun b hb => s2 b (by simp [hb])) hrest]
  · exact .inr ⟨x, y, hxy, hf⟩

example : (∀ b ∈ ([[1], [2, 3]] : List Bytes), b.length ≠ 64) ∧ (∀ b ∈ ([[4], []] : List Bytes), b.length ≠ 64) := by decide

/-- C10 (negation): replacing any non-64-byte block by its digest gives a different block list of equal length with the
same tree, whatever the digest function. -/
theorem C10_block_and_its_digest_collide (S : Sha) (a b : Bytes) (ha : a.length ≠ 64) :
    [a, b] ≠ [S.f a, b] ∧ build S (some [a, b]) = build S (some [S.f a, b]) := by
  constructor
  · intro h
    injection h with h _
    exact ha (by rw [h]; exact S.len a)
  · rw [build_two, build_two, Hash.fromBytes_of_ne ha, Hash.fromBytes_of_len (S.len a)]

example : ([1, 2, 3] : Bytes).length ≠ 64 := by decide

/-- C10 (negation, trailing empty block): a single block and the same block followed by an empty block build the same
tree. -/
theorem C10_trailing_empty_block_collides (S : Sha) (a : Bytes) :
    [a] ≠ [a, []] ∧ build S (some [a]) = build S (some [a, []]) := by
  constructor
  · simp
  · simp [build]

/-- C10 (negation, different lengths): the two blocks formed by the hashes of the halves of a four-block list have the
same head as the four blocks (the classical second preimage: inner nodes are not distinguished from leaves). -/
theorem C10_inner_nodes_collide_with_leaves (S : Sha) (a b c d : Bytes) :
    ∃ t2 t4, build S (some [S.f (Hash.fromBytes S a ++ Hash.fromBytes S b), S.f (Hash.fromBytes S c ++ Hash.fromBytes S d)]) = .ok t2 ∧
      build S (some [a, b, c, d]) = .ok t4 ∧ t2.head = t4.head ∧ toLength t2 ≠ toLength t4 := by
  obtain ⟨t4, k, p, hb, hL, hlen, hlo, hhi, hm⟩ := C03_build_is_merkle S [a, b, c, d] (by simp)
  have hk : k = 1 := by
    simp at hlo hhi
    have : k < 2 := (Nat.pow_lt_pow_iff_right (show 1 < 2 by decide)).mp (by simpa using hlo)
    have : 0 < k := by
      by_contra h
      have : k = 0 := by omega
      subst this
      simp at hhi
    omega
  subst hk
  have hp : p = 0 := by rw [hL] at hlen; simp at hlen; omega
  subst hp
  refine ⟨_, t4, build_two S _ _, hb, ?_, ?_⟩
  · rw [hm, hL]
    simp [merkleRoot, Hash.fromBytes_of_len (S.len _)]
  · have e : toLength t4 = (leafHashes t4).length := by simp [toLength, leafHashes]
    rw [e, hlen]
    simp [toLength, Tree.leaves, leafToLeaves]

/-- C11: the height of a built tree determines, and is determined by, the number of leaves. -/
theorem C11_height (S : Sha) (bs : List Bytes) (t : Tree) (h : build S (some bs) = .ok t) :
    2 ≤ t.height ∧ toLength t = 2 ^ (t.height - 1) := by
  by_cases hb : bs = []
  · subst hb; rw [C04_empty_list_panics] at h; cases h
  · obtain ⟨t', k, p, hb', hl, hlen, hk, hh, p1, p2⟩ := build_spec S bs hb
    rw [hb'] at h
    injection h with h
    subst h
    unfold Tree.height toLength
    rw [p1.height_eq, hl]
    simp [hlen]

example (S : Sha) : ∃ t, build S (some [[1, 2, 3]]) = .ok t ∧ toLength t = 2 ^ (t.height - 1) :=
  let ⟨t, h, _⟩ := builtSample S
  ⟨t, h, (C11_height S _ t h).2⟩

/-- C12 (negation): some byte strings make the decoder panic: the length field of the left leaf is not checked. Here
192 bytes, all 255. -/
theorem C12_decode_panics (S : Sha) : toHashTree S (Slice.ofBytes (List.replicate 192 255)) = .panic := by
  unfold toHashTree
  rw [if_neg (by decide)]
  have e1 : (Slice.ofBytes (List.replicate 192 255)).sub 0 64 = .ok ⟨List.replicate 64 255, List.replicate 128 255⟩ := by decide
  have e2 : (Slice.ofBytes (List.replicate 192 255)).from' 64 = .ok ⟨List.replicate 128 255, []⟩ := by decide
  have e3 : Slice.sub ⟨List.replicate 128 255, []⟩ 0 8 = .ok ⟨List.replicate 8 255, List.replicate 120 255⟩ := by decide
  have e4 : leNat (List.replicate 8 255) = 2 ^ 64 - 1 := by decide
  rw [e1, e2]
  simp only [Res.bind_ok]
  rw [contentToParentLeaf_eq, if_neg (by decide), e3]
  simp only [Res.bind_ok, e4]
  have e5 : Slice.sub ⟨List.replicate 128 255, []⟩ 8 (8 + (2 ^ 64 - 1)) = .panic := by
    unfold Slice.sub
    rw [if_neg]
    simp [Slice.cap]
  rw [e5]
  rfl

/-- C12 (partial): byte strings shorter than 192 bytes, and all serialised trees, are decoded without a panic. Missing:
arbitrary bytes of 192 bytes or more, for which a panic is possible (`C12_decode_panics`). -/
theorem C12_decode_no_panic_partial (S : Sha) (c : Slice)
    (h : c.len < 192 ∨ ∃ t : Tree, t.Sized ∧ c.vis = toContent t ∧ c.len < 2 ^ 64) : toHashTree S c ≠ .panic := by
  rcases h with h | ⟨t, hs, hv, hlen⟩
  · unfold toHashTree
    rw [if_pos (by simpa [minHashtreeSize] using h)]
    simp
  · have e : c = ⟨toContent t, c.tail⟩ := by rw [← hv]
    rw [e, toHashTree_toContent S t hs (by rw [← hv]; exact hlen)]
    simp

example : ∃ t : Tree, t.Sized := ⟨⟨List.replicate 64 0, .base (List.replicate 64 1), .base (List.replicate 64 2)⟩, by simp [Tree.Sized, Leaf.Sized]⟩

/-- C63 (negation): decoding does not check that heads are the hashes of their children. Every tree shape with arbitrary
64-byte heads is accepted, so a tampered tree decodes without error. -/
theorem C63_tampered_tree_accepted (S : Sha) (t : Tree) (hs : t.Sized) (hlen : (toContent t).length < 2 ^ 64) :
    toHashTree S (Slice.ofBytes (toContent t)) = .ok t :=
  toHashTree_toContent S t hs hlen []

example (S : Sha) : toHashTree S (Slice.ofBytes (toContent ⟨List.replicate 64 5, .base (List.replicate 64 1), .base (List.replicate 64 2)⟩)) =
    .ok ⟨List.replicate 64 5, .base (List.replicate 64 1), .base (List.replicate 64 2)⟩ :=
  C63_tampered_tree_accepted S _ (by simp [Tree.Sized, Leaf.Sized]) (by simp [toContent, parentToContent, leafToContent])

/-- C63 (negation, concrete): for every digest function there is an accepted tree whose head is not the Merkle root of its
leaf hashes. -/
theorem C63_negation (S : Sha) : ∃ (c : Bytes) (t : Tree), toHashTree S (Slice.ofBytes c) = .ok t ∧
    t.head ≠ merkleRoot S 1 (leafHashes t) := by
  let l : Leaf := .base (List.replicate 64 1)
  have key : ∀ h : Bytes, h.length = 64 → toHashTree S (Slice.ofBytes (toContent ⟨h, l, l⟩)) = .ok ⟨h, l, l⟩ := by
    intro h hh
    apply C63_tampered_tree_accepted S _ ⟨hh, by simp [Leaf.Sized, l], by simp [Leaf.Sized, l]⟩
    simp [toContent, parentToContent, l, leafToContent, hh]
  by_cases h0 : S.f (List.replicate 64 1 ++ List.replicate 64 1) = List.replicate 64 0
  · refine ⟨_, _, key (List.replicate 64 2) (by decide), ?_⟩
    have e : merkleRoot S 1 (leafHashes ⟨List.replicate 64 2, l, l⟩) = S.f (List.replicate 64 1 ++ List.replicate 64 1) := rfl
    rw [e, h0]
    decide
  · refine ⟨_, _, key (List.replicate 64 0) (by decide), ?_⟩
    have e : merkleRoot S 1 (leafHashes ⟨List.replicate 64 0, l, l⟩) = S.f (List.replicate 64 1 ++ List.replicate 64 1) := rfl
    rw [e]
    exact fun h => h0 h.symm

/-- C63 (partial): a decoded tree that equals a built tree does satisfy the Merkle equation. What is missing is the check
itself: the decoder accepts every `Sized` tree. -/
theorem C63_honest_tree_consistent_partial (S : Sha) (bs : List Bytes) (t : Tree) (h : build S (some bs) = .ok t)
    (hlen : (toContent t).length < 2 ^ 64) :
    ∃ t' k, toHashTree S (Slice.ofBytes (toContent t)) = .ok t' ∧ t'.head = merkleRoot S k (leafHashes t') := by
  by_cases hb : bs = []
  · subst hb; rw [C04_empty_list_panics] at h; cases h
  · refine ⟨t, ?_⟩
    obtain ⟨t', k, p, hb', _, _, _, _, hm⟩ := C03_build_is_merkle S bs hb
    rw [hb'] at h
    injection h with h
    subst h
    exact ⟨k + 1, C05_tree_round_trip S bs t' hb' hlen [], hm⟩

example (S : Sha) : ∃ t t' k, build S (some [[1, 2, 3]]) = .ok t ∧ toHashTree S (Slice.ofBytes (toContent t)) = .ok t' ∧
    t'.head = merkleRoot S k (leafHashes t') :=
  let ⟨t, h, _, h1, _⟩ := builtSample S
  let ⟨t', k, h3, h4⟩ := C63_honest_tree_consistent_partial S _ t h h1
  ⟨t, t', k, h, h3, h4⟩

/-- C64 (negation): decoding a compact tree from a sub-slice depends on bytes behind the slice: the same visible bytes
decode to different compact trees, depending on what follows them in the buffer. -/
theorem C64_compact_reads_past_end (S : Sha) :
    ∃ (vis tail1 tail2 : Bytes) (c1 c2 : Compact),
      contentToCompact S ⟨vis, tail1⟩ = .ok c1 ∧ contentToCompact S ⟨vis, tail2⟩ = .ok c2 ∧ c1 ≠ c2 := by
  let h : Bytes := List.replicate 64 9
  let x : Bytes := List.replicate 64 1
  -- the content announces two leaves, the second one starts inside the slice and ends behind it
  have key : ∀ y : Bytes, y.length = 64 → contentToCompact S ⟨h ++ leavesToContent [.base x, .base y], []⟩ =
      .ok ⟨h, [.base x, .base y]⟩ := by
    intro y hy
    apply compact_round_trip S ⟨h, [.base x, .base y]⟩ [] (by simp [h]) (by simp) (by simp)
    intro z hz
    simp at hz
    rcases hz with rfl | rfl
    · exact ⟨by simp [Leaf.Sized, x], by simp [leafToContent, x]⟩
    · exact ⟨hy, by simp [leafToContent, hy]⟩
  -- moving the boundary between visible bytes and buffer does not change the outcome
  have move : ∀ y : Bytes, y.length = 64 →
      contentToCompact S ⟨h ++ (le64 2 ++ (le64 64 ++ x ++ le64 64)), y⟩ = .ok ⟨h, [.base x, .base y]⟩ := by
    intro y hy
    rw [← key y hy]
    apply contentToCompact_buffer
    · simp [Slice.len, h, x]
    · simp only [Slice.len, leavesToContent, leafToContent, List.length_append, le64_length, List.flatMap_cons, h, x, List.length_replicate]
      omega
    · simp [leavesToContent, leafToContent, x, hy]
  refine ⟨_, List.replicate 64 2, List.replicate 64 3, _, _, move _ (by decide), move _ (by decide), ?_⟩
  intro e
  injection e with _ e
  injection e with _ e
  injection e with e _
  injection e with e
  revert e
  decide

/-- C12 (compact trees): bytes shorter than the shortest serialised compact tree (a hash, the number of
leaves, the length of a leaf, a leaf) are refused without a panic, whatever follows them in their buffer. -/
theorem C12_short_compact_refused (S : Sha) (c : Slice) (h : c.len < 64 + 8 + 8 + 64) :
    contentToCompact S c = .err := by
  unfold contentToCompact
  split
  · rfl
  · next h128 =>
    unfold minCompactSize at h128
    have h1 : c.sub 0 64 = .ok ⟨(c.vis ++ c.tail).take 64, (c.vis ++ c.tail).drop 64⟩ := by
      simp only [Slice.len] at h128
      have : 64 ≤ c.cap := by
        simp only [Slice.cap]
        omega
      simp [Slice.sub, this]
    have h2 : c.from' 64 = .ok ⟨c.vis.drop 64, c.tail⟩ := by
      simp only [Slice.len] at h128
      have : 64 ≤ c.len := by
        simp only [Slice.len]
        omega
      simp [Slice.from', this]
    rw [h1, Res.bind_ok, h2, Res.bind_ok]
    have h3 : toLeaves S ⟨c.vis.drop 64, c.tail⟩ = .err := by
      unfold toLeaves
      rw [if_pos]
      simp only [Slice.len, List.length_drop, minLeavesSize] at h ⊢
      omega
    rw [h3]
    rfl

/-- 143 bytes, followed by more in the buffer. -/
example (S : Sha) : contentToCompact S ⟨List.replicate 143 1, List.replicate 100 1⟩ = .err :=
  C12_short_compact_refused S _ (by simp [Slice.len])

end Rodkina.Props
