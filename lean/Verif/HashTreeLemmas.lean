import Verif.HashTree
import Verif.HashLemmas
/-! Helper lemmas about the hash tree model (no property statements here). -/

namespace Rodkina.HashTree

/-! ### Specification-side notions -/

/-- Merkle root of a list of `2^k` hashes: hash of the concatenated roots of the two halves. Independent of the model of
the builder (which pairs neighbours level by level). -/
def merkleRoot (S : Sha) : Nat → List Bytes → Bytes
  | 0, l => l.headD []
  | k + 1, l => S.f (merkleRoot S k (l.take (2 ^ k)) ++ merkleRoot S k (l.drop (2 ^ k)))

/-- A perfect tree of depth `k` in which every inner head is the SHA-512 of its two children's heads. -/
def Perfect (S : Sha) : Nat → Leaf → Prop
  | 0, .base h => h.length = 64
  | k + 1, .node h l r => h = S.f (l.head ++ r.head) ∧ Perfect S k l ∧ Perfect S k r
  | _, _ => False

/-- All heads of a leaf have the size of a hash. -/
def Leaf.Sized : Leaf → Prop
  | .base h => h.length = 64
  | .node h l r => h.length = 64 ∧ l.Sized ∧ r.Sized

/-- All heads of a tree have the size of a hash. -/
def Tree.Sized (t : Tree) : Prop := t.head.length = 64 ∧ t.left.Sized ∧ t.right.Sized

instance : (l : Leaf) → Decidable l.Sized
  | .base h => inferInstanceAs (Decidable (h.length = 64))
  | .node h l r =>
    have := instDecidableSized l
    have := instDecidableSized r
    inferInstanceAs (Decidable (h.length = 64 ∧ l.Sized ∧ r.Sized))

theorem Perfect.sized {S : Sha} {k : Nat} {l : Leaf} (h : Perfect S k l) : l.Sized := by
  induction l generalizing k with
  | base _ => cases k <;> simp_all [Perfect, Leaf.Sized]
  | node _ l r ihl ihr =>
    cases k with
    | zero => simp [Perfect] at h
    | succ k =>
      simp only [Perfect] at h
      exact ⟨by rw [h.1]; exact S.len _, ihl h.2.1, ihr h.2.2⟩

theorem Leaf.Sized.head_length {l : Leaf} (h : l.Sized) : l.head.length = 64 := by
  cases l with
  | base _ => exact h
  | node _ _ _ => exact h.1

theorem Perfect.leaves_length {S : Sha} {k : Nat} {l : Leaf} (h : Perfect S k l) :
    (leafToLeaves l).length = 2 ^ k := by
  induction l generalizing k with
  | base _ => cases k <;> simp_all [Perfect, leafToLeaves]
  | node _ l r ihl ihr =>
    cases k with
    | zero => simp [Perfect] at h
    | succ k =>
      simp only [Perfect] at h
      simp [leafToLeaves, ihl h.2.1, ihr h.2.2]; omega

theorem Perfect.head_eq {S : Sha} {k : Nat} {l : Leaf} (h : Perfect S k l) :
    l.head = merkleRoot S k ((leafToLeaves l).map Leaf.head) := by
  induction l generalizing k with
  | base _ => cases k <;> simp_all [Perfect, leafToLeaves, merkleRoot, Leaf.head]
  | node _ l r ihl ihr =>
    cases k with
    | zero => simp [Perfect] at h
    | succ k =>
      simp only [Perfect] at h
      have hl := h.2.1.leaves_length
      simp only [leafToLeaves, merkleRoot, Leaf.head, List.map_append]
      rw [h.1, ihl h.2.1, ihr h.2.2]
      rw [List.take_append_of_le_length (by simp [hl]), List.drop_append_of_le_length (by simp [hl])]
      rw [List.take_of_length_le (by simp [hl]), List.drop_of_length_le (by simp [hl])]
      simp

theorem Perfect.height_eq {S : Sha} {k : Nat} {l : Leaf} (h : Perfect S k l) : l.height = k := by
  induction l generalizing k with
  | base _ => cases k <;> simp_all [Perfect, Leaf.height]
  | node _ l r ihl ihr =>
    cases k with
    | zero => simp [Perfect] at h
    | succ k =>
      simp only [Perfect] at h
      simp [Leaf.height, ihl h.2.1]

theorem Perfect.base_leaves {S : Sha} {k : Nat} {l : Leaf} (_h : Perfect S k l) :
    ∀ x ∈ leafToLeaves l, ∃ h, x = .base h := by
  clear _h
  induction l with
  | base h => simp [leafToLeaves]
  | node _ l r ihl ihr =>
    intro x hx
    simp only [leafToLeaves, List.mem_append] at hx
    exact hx.elim (ihl x) (ihr x)

theorem fromMultiBytes_pair (S : Sha) {a b : Bytes} (ha : a.length = 64) (hb : b.length = 64) :
    Hash.fromMultiBytes S [a, b] = S.f (a ++ b) := by
  rw [Hash.fromMultiBytes_eq]
  rw [Hash.fromBytes_of_ne (by simp [ha, hb])]
  simp

theorem childrenLeaves_spec (S : Sha) (d : Nat) (n : Nat) (L : List Leaf) (hlen : L.length = 2 * n)
    (hp : ∀ x ∈ L, Perfect S d x) :
    ∃ cs, childrenLeaves S L = .ok cs ∧ cs.length = n ∧ (∀ x ∈ cs, Perfect S (d + 1) x) ∧
      cs.flatMap leafToLeaves = L.flatMap leafToLeaves := by
  induction n generalizing L with
  | zero =>
    have : L = [] := List.eq_nil_of_length_eq_zero (by omega)
    subst this
    exact ⟨[], rfl, rfl, by simp, rfl⟩
  | succ n ih =>
    match L, hlen, hp with
    | a :: b :: rest, hlen, hp =>
      have hlen' : rest.length = 2 * n := by simp at hlen; omega
      obtain ⟨cs, h1, h2, h3, h4⟩ := ih rest hlen' (fun x hx => hp x (by simp [hx]))
      have ha := hp a (by simp)
      have hb := hp b (by simp)
      refine ⟨.node (Hash.fromMultiBytes S [a.head, b.head]) a b :: cs, ?_, by simp [h2], ?_, ?_⟩
      · simp [childrenLeaves, h1]
      · intro x hx
        simp only [List.mem_cons] at hx
        cases hx with
        | inl hx =>
          subst hx
          simp only [Perfect]
          exact ⟨fromMultiBytes_pair S ha.sized.head_length hb.sized.head_length, ha, hb⟩
        | inr hx => exact h3 x hx
      · simp [h4, leafToLeaves]

theorem leavesToHashTree_spec (S : Sha) (k d : Nat) (L : List Leaf) (hlen : L.length = 2 ^ (k + 1))
    (hp : ∀ x ∈ L, Perfect S d x) :
    ∃ t, leavesToHashTree S L = .ok t ∧ t.head = S.f (t.left.head ++ t.right.head) ∧
      Perfect S (d + k) t.left ∧ Perfect S (d + k) t.right ∧ t.leaves = L.flatMap leafToLeaves := by
  induction k generalizing L d with
  | zero =>
    match L, hlen, hp with
    | [a, b], _, hp =>
      have ha := hp a (by simp)
      have hb := hp b (by simp)
      refine ⟨⟨Hash.fromMultiBytes S [a.head, b.head], a, b⟩, ?_, ?_, ha, hb, ?_⟩
      · rw [leavesToHashTree]
      · exact fromMultiBytes_pair S ha.sized.head_length hb.sized.head_length
      · simp [Tree.leaves]
  | succ k ih =>
    obtain ⟨cs, h1, h2, h3, h4⟩ := childrenLeaves_spec S d (2 ^ (k + 1)) L (by rw [hlen]; omega) hp
    obtain ⟨t, g1, g2, g3, g4, g5⟩ := ih (d + 1) cs h2 h3
    have hk : 2 ≤ 2 ^ (k + 1) := by
      have := Nat.one_le_two_pow (n := k)
      omega
    refine ⟨t, ?_, g2, by rw [show d + (k + 1) = d + 1 + k by omega]; exact g3,
      by rw [show d + (k + 1) = d + 1 + k by omega]; exact g4, by rw [g5, h4]⟩
    match L, hlen, h1 with
    | [], hlen, _ => simp at hlen; omega
    | [a], hlen, _ => simp at hlen; omega
    | [a, b], hlen, _ => simp at hlen; omega
    | a :: b :: c :: rest, hlen, h1 =>
      rw [leavesToHashTree]
      · split
        · rename_i cs' heq
          rw [h1] at heq
          injection heq with heq
          rw [← heq]; exact g1
        · rename_i heq; rw [h1] at heq; cases heq
        · rename_i heq; rw [h1] at heq; cases heq
      · simp

/-! ### Padding -/

theorem isPowerOfTwo_iff (n : Nat) : isPowerOfTwo n = true ↔ ∃ k, n = 2 ^ k := by
  have h := @Nat.ne_zero_and_sub_one_eq_zero_iff_isPowerOfTwo n
  unfold Nat.isPowerOfTwo at h
  rw [← h]
  simp [isPowerOfTwo]

theorem nextPowerOfTwo_bounds (n : Nat) (h : 2 ≤ n) :
    n ≤ nextPowerOfTwo n ∧ nextPowerOfTwo n < 2 * n := by
  unfold nextPowerOfTwo
  have h1 := @Nat.lt_log2_self (n - 1)
  have h2 := @Nat.log2_self_le (n - 1) (by omega)
  rw [Nat.pow_succ] at h1 ⊢
  omega

/-- The hashed blocks after padding: the leaf heads of the tree. -/
theorem padHashes_spec (S : Sha) (hs : List Bytes) (h : 2 ≤ hs.length) :
    ∃ k p, padHashes S hs = hs ++ List.replicate p (Hash.fromBytes S []) ∧
      hs.length + p = 2 ^ (k + 1) ∧ hs.length + p < 2 * hs.length := by
  unfold padHashes
  split
  · rename_i hp
    obtain ⟨k, hk⟩ := (isPowerOfTwo_iff _).mp hp
    match k, hk with
    | 0, hk => simp at hk; omega
    | k + 1, hk => exact ⟨k, 0, by simp, by simpa using hk, by omega⟩
  · have hb := nextPowerOfTwo_bounds hs.length h
    refine ⟨Nat.log2 (hs.length - 1), nextPowerOfTwo hs.length - hs.length, rfl, ?_, by omega⟩
    have : nextPowerOfTwo hs.length = 2 ^ (Nat.log2 (hs.length - 1) + 1) := rfl
    omega

/-- The number of padding leaves is minimal: half as many leaves would not hold the blocks. -/
theorem smallest_power {n p k : Nat} (h1 : n + p = 2 ^ (k + 1)) (h2 : n + p < 2 * n) : 2 ^ k < n := by
  rw [Nat.pow_succ] at h1
  omega

/-- Blocks after the "at least two" rule of the builder. -/
def atLeastTwo (bs : List Bytes) : List Bytes := if bs.length ≤ 1 then bs ++ [[]] else bs

theorem build_spec (S : Sha) (bs : List Bytes) (h : bs ≠ []) :
    ∃ t k p, build S (some bs) = .ok t ∧
      t.leaves = ((atLeastTwo bs).map (Hash.fromBytes S) ++ List.replicate p (Hash.fromBytes S [])).map Leaf.base ∧
      (atLeastTwo bs).length + p = 2 ^ (k + 1) ∧ 2 ^ k < (atLeastTwo bs).length ∧
      t.head = S.f (t.left.head ++ t.right.head) ∧ Perfect S k t.left ∧ Perfect S k t.right := by
  have hlen : 2 ≤ (atLeastTwo bs).length := by
    unfold atLeastTwo
    have : bs.length ≠ 0 := by simpa using h
    split
    · simp; omega
    · omega
  obtain ⟨k, p, e1, e2, e3⟩ := padHashes_spec S ((atLeastTwo bs).map (Hash.fromBytes S)) (by simpa using hlen)
  simp only [List.length_map] at e2 e3
  have hL : (((atLeastTwo bs).map (Hash.fromBytes S) ++ List.replicate p (Hash.fromBytes S [])).map Leaf.base).length
      = 2 ^ (k + 1) := by simp; omega
  obtain ⟨t, t1, t2, t3, t4, t5⟩ := leavesToHashTree_spec S k 0 _ hL (by
    intro x hx
    simp only [List.mem_map, List.mem_append, List.mem_replicate] at hx
    obtain ⟨b, hb, rfl⟩ := hx
    simp only [Perfect]
    rcases hb with ⟨c, _, rfl⟩ | ⟨_, rfl⟩ <;> exact Hash.fromBytes_length S _)
  refine ⟨t, k, p, ?_, ?_, e2, smallest_power e2 e3, t2, by simpa using t3, by simpa using t4⟩
  · have hbuild : build S (some bs) = if (padHashes S ((atLeastTwo bs).map (Hash.fromBytes S))).isEmpty then .err
        else leavesToHashTree S ((padHashes S ((atLeastTwo bs).map (Hash.fromBytes S))).map Leaf.base) := rfl
    rw [hbuild, e1, t1]
    have hne : ((atLeastTwo bs).map (Hash.fromBytes S) ++ List.replicate p (Hash.fromBytes S [])).isEmpty = false := by
      rw [List.isEmpty_eq_false_iff]
      intro hc
      rw [hc] at hL
      simp at hL
      have := Nat.one_le_two_pow (n := k + 1)
      omega
    simp [hne]
  · rw [t5]
    generalize (atLeastTwo bs).map (Hash.fromBytes S) ++ List.replicate p (Hash.fromBytes S []) = l
    induction l with
    | nil => rfl
    | cons x xs ih => simp [leafToLeaves, ih]

/-! ### Codec -/

theorem leafToContent_length_ge {l : Leaf} (h : l.Sized) : 64 ≤ (leafToContent l).length := by
  cases l with
  | base _ => simp [leafToContent, Leaf.Sized] at *; omega
  | node _ _ _ => simp [leafToContent, Leaf.Sized] at *; omega

theorem contentToLeaf_eq (S : Sha) (c : Slice) :
    contentToLeaf S c = if c.len < minLeafSize then .err else (do
      let headS ← c.sub 0 64
      let remaining ← c.from' 64
      if remaining.len > 0 then do
        let p ← contentToParentLeaf S remaining
        pure (.node (Hash.fromBytes S headS.vis) p.1 p.2)
      else pure (.base (Hash.fromBytes S headS.vis))) := by
  rw [contentToLeaf]
  split
  · rfl
  · cases h : c.sub 0 64 with
    | ok headS =>
      simp only [Res.bind_ok]
      split
      · rename_i hr
        simp only [hr, Res.bind_ok]
        split
        · cases contentToParentLeaf S _ <;> simp
        · rfl
      · rename_i hr; simp [hr]
      · rename_i hr; simp [hr]
    | err => rfl
    | panic => rfl

theorem contentToParentLeaf_eq (S : Sha) (c : Slice) :
    contentToParentLeaf S c = if c.len < minParentLeaf then .err else (do
      let lenS ← c.sub 0 8
      let leftS ← c.sub 8 (8 + leNat lenS.vis)
      let left ← contentToLeaf S leftS
      let rightS ← c.from' (leNat lenS.vis + 8)
      let right ← contentToLeaf S rightS
      pure (left, right)) := by
  rw [contentToParentLeaf]
  split
  · rfl
  · cases h : c.sub 0 8 with
    | ok lenS =>
      simp only [Res.bind_ok]
      split
      · rename_i hr
        simp only [hr, Res.bind_ok]
        cases contentToLeaf S _ with
        | ok left =>
          simp only [Res.bind_ok]
          split
          · rename_i hr2
            simp only [hr2, Res.bind_ok]
            cases contentToLeaf S _ <;> simp
          · rename_i hr2; simp [hr2]
          · rename_i hr2; simp [hr2]
        | err => rfl
        | panic => rfl
      · rename_i hr; simp [hr]
      · rename_i hr; simp [hr]
    | err => rfl
    | panic => rfl

theorem contentToParent_of (S : Sha) {l r : Leaf} (hl : l.Sized) (hr : r.Sized) (tail : Bytes)
    (hlen : (leafToContent l).length < 2 ^ 64)
    (ihl : ∀ t, contentToLeaf S ⟨leafToContent l, t⟩ = .ok l)
    (ihr : ∀ t, contentToLeaf S ⟨leafToContent r, t⟩ = .ok r) :
    contentToParentLeaf S ⟨parentToContent l r, tail⟩ = .ok (l, r) := by
  have h1 := leafToContent_length_ge hl
  have h2 := leafToContent_length_ge hr
  have e1 : Slice.sub ⟨parentToContent l r, tail⟩ 0 8 =
      .ok ⟨le64 (leafToContent l).length, (leafToContent l ++ leafToContent r) ++ tail⟩ := by
    have := Slice.sub_zero_append (le64 (leafToContent l).length) (leafToContent l ++ leafToContent r) tail
    simpa [parentToContent, List.append_assoc] using this
  have e2 : Slice.sub ⟨parentToContent l r, tail⟩ 8 (8 + (leafToContent l).length) =
      .ok ⟨leafToContent l, leafToContent r ++ tail⟩ := by
    have := Slice.sub_append (le64 (leafToContent l).length) (leafToContent l) (leafToContent r) tail
    simpa [parentToContent] using this
  have e3 : Slice.from' ⟨parentToContent l r, tail⟩ ((leafToContent l).length + 8) =
      .ok ⟨leafToContent r, tail⟩ := by
    have := Slice.from_append (le64 (leafToContent l).length ++ leafToContent l) (leafToContent r) tail
    simpa [parentToContent, Nat.add_comm] using this
  rw [contentToParentLeaf_eq]
  rw [if_neg (by simp [Slice.len, parentToContent, minParentLeaf]; omega)]
  have e0 : leNat (le64 (leafToContent l).length) = (leafToContent l).length := leNat_le64 _ hlen
  simp only [e1, Res.bind_ok, e0, e2, ihl, e3, ihr, Res.pure_eq]

theorem contentToLeaf_leafToContent (S : Sha) (l : Leaf) (h : l.Sized)
    (hlen : (leafToContent l).length < 2 ^ 64) (tail : Bytes) :
    contentToLeaf S ⟨leafToContent l, tail⟩ = .ok l := by
  induction l generalizing tail with
  | base hd =>
    simp only [Leaf.Sized] at h
    have e1 : Slice.sub ⟨hd, tail⟩ 0 64 = .ok ⟨hd, tail⟩ := by
      have := Slice.sub_zero_append hd [] tail
      simpa [h] using this
    have e2 : Slice.from' ⟨hd, tail⟩ 64 = .ok ⟨[], tail⟩ := by
      have := Slice.from_append hd [] tail
      simpa [h] using this
    rw [contentToLeaf_eq]
    rw [if_neg (by simp [Slice.len, leafToContent, minLeafSize, h])]
    simp only [leafToContent, e1, e2, Res.bind_ok]
    simp [Slice.len, Hash.fromBytes_of_len h]
  | node hd l r ihl ihr =>
    simp only [Leaf.Sized] at h
    have hll : (leafToContent l).length < 2 ^ 64 := by
      simp [leafToContent] at hlen; omega
    have hlr : (leafToContent r).length < 2 ^ 64 := by
      simp [leafToContent] at hlen; omega
    have hp := contentToParent_of S h.2.1 h.2.2 tail hll (ihl h.2.1 hll) (ihr h.2.2 hlr)
    have e0 : leafToContent (.node hd l r) = hd ++ parentToContent l r := rfl
    have e1 : Slice.sub ⟨hd ++ parentToContent l r, tail⟩ 0 64 = .ok ⟨hd, parentToContent l r ++ tail⟩ := by
      have := Slice.sub_zero_append hd (parentToContent l r) tail
      simpa [h.1] using this
    have e2 : Slice.from' ⟨hd ++ parentToContent l r, tail⟩ 64 = .ok ⟨parentToContent l r, tail⟩ := by
      have := Slice.from_append hd (parentToContent l r) tail
      simpa [h.1] using this
    have hpos : 0 < (⟨parentToContent l r, tail⟩ : Slice).len := by
      simp [Slice.len, parentToContent]; omega
    rw [contentToLeaf_eq, e0]
    rw [if_neg (by simp [Slice.len, minLeafSize, h.1])]
    simp only [e1, e2, Res.bind_ok]
    rw [if_pos hpos]
    simp [hp, Hash.fromBytes_of_len h.1]

theorem toHashTree_toContent (S : Sha) (t : Tree) (h : t.Sized)
    (hlen : (toContent t).length < 2 ^ 64) (tail : Bytes) :
    toHashTree S ⟨toContent t, tail⟩ = .ok t := by
  obtain ⟨h0, h1, h2⟩ := h
  have g1 := leafToContent_length_ge h1
  have g2 := leafToContent_length_ge h2
  have hll : (leafToContent t.left).length < 2 ^ 64 := by
    simp [toContent, parentToContent] at hlen; omega
  have hlr : (leafToContent t.right).length < 2 ^ 64 := by
    simp [toContent, parentToContent] at hlen; omega
  have hp := contentToParent_of S h1 h2 tail hll
    (contentToLeaf_leafToContent S _ h1 hll) (contentToLeaf_leafToContent S _ h2 hlr)
  have e1 : Slice.sub ⟨toContent t, tail⟩ 0 64 = .ok ⟨t.head, parentToContent t.left t.right ++ tail⟩ := by
    have := Slice.sub_zero_append t.head (parentToContent t.left t.right) tail
    simpa [h0, toContent] using this
  have e2 : Slice.from' ⟨toContent t, tail⟩ 64 = .ok ⟨parentToContent t.left t.right, tail⟩ := by
    have := Slice.from_append t.head (parentToContent t.left t.right) tail
    simpa [h0, toContent] using this
  unfold toHashTree
  rw [if_neg (by simp [Slice.len, toContent, parentToContent, minHashtreeSize]; omega)]
  simp [e1, e2, hp, Hash.fromBytes_of_len h0]

end Rodkina.HashTree
