import Verif.HashTreeLemmas
/-! More helper lemmas: exactness of the decoder, leaf lists, ordering, binding. -/

namespace Rodkina

theorem Slice.sub_ok {s t : Slice} {a b : Nat} (h : s.sub a b = .ok t) :
    a ≤ b ∧ b ≤ s.cap ∧ t.vis = ((s.vis ++ s.tail).drop a).take (b - a) ∧ t.tail = (s.vis ++ s.tail).drop b := by
  unfold sub at h
  split at h
  · rename_i hc
    injection h with h
    subst h
    exact ⟨hc.1, hc.2, rfl, rfl⟩
  · cases h

theorem Slice.sub_ok_len {s t : Slice} {a b : Nat} (h : s.sub a b = .ok t) (hb : b ≤ s.len) :
    t.vis = (s.vis.drop a).take (b - a) := by
  obtain ⟨h1, h2, h3, _⟩ := Slice.sub_ok h
  rw [h3]
  simp only [len] at hb
  rw [List.drop_append_of_le_length (by omega), List.take_append_of_le_length (by simp; omega)]

theorem Slice.from_ok {s t : Slice} {a : Nat} (h : s.from' a = .ok t) :
    a ≤ s.len ∧ t.vis = s.vis.drop a ∧ t.tail = s.tail := by
  unfold from' at h
  split at h
  · rename_i hc
    injection h with h
    subst h
    exact ⟨hc, rfl, rfl⟩
  · cases h

end Rodkina

namespace Rodkina.HashTree

open Rodkina

/-- Exactness: whatever the decoder accepts is the serialisation of what it returns. -/
theorem decode_exact (S : Sha) (n : Nat) :
    (∀ c l, c.cap ≤ n → contentToLeaf S c = .ok l → leafToContent l = c.vis ∧ l.Sized) ∧
    (∀ c l r, c.cap ≤ n → contentToParentLeaf S c = .ok (l, r) →
      parentToContent l r = c.vis ∧ l.Sized ∧ r.Sized) := by
  induction n using Nat.strongRecOn with
  | ind n ih =>
    have hparent : ∀ c l r, c.cap ≤ n → contentToParentLeaf S c = .ok (l, r) →
        parentToContent l r = c.vis ∧ l.Sized ∧ r.Sized := by
      intro c l r hc h
      rw [contentToParentLeaf_eq] at h
      split at h
      · cases h
      rename_i hlen
      simp only [minParentLeaf] at hlen
      simp only [Res.bind_eq_ok, Res.pure_eq] at h
      obtain ⟨lenS, hlenS, leftS, hleftS, left, hleft, rightS, hrightS, right, hright, heq⟩ := h
      injection heq with heq
      injection heq with e1 e2
      subst e1 e2
      have c1 := Slice.sub_cap hleftS
      have c2 := Slice.from_cap hrightS
      obtain ⟨f1, f2, f3⟩ := Slice.from_ok hrightS
      have hv1 := Slice.sub_ok_len hlenS (by omega)
      have hv2 := Slice.sub_ok_len hleftS (by omega)
      have g1 := (ih (n - 8) (by omega)).1 leftS left (by omega) hleft
      have g2 := (ih (n - 8) (by omega)).1 rightS right (by omega) hright
      refine ⟨?_, g1.2, g2.2⟩
      unfold parentToContent
      rw [g1.1, g2.1, hv2, f2]
      simp only [Slice.len] at f1 hlen
      have hl8 : lenS.vis.length = 8 := by rw [hv1]; simp; omega
      rw [List.length_take, List.length_drop]
      rw [show min (8 + leNat lenS.vis - 8) (c.vis.length - 8) = leNat lenS.vis by omega]
      rw [le64_leNat _ hl8, hv1]
      rw [List.drop_zero, Nat.sub_zero]
      rw [show 8 + leNat (c.vis.take 8) - 8 = leNat (c.vis.take 8) by omega]
      rw [List.append_assoc]
      conv => rhs; rw [← List.take_append_drop 8 c.vis]
      congr 1
      rw [show leNat (c.vis.take 8) + 8 = 8 + leNat (c.vis.take 8) by omega, ← List.drop_drop]
      exact List.take_append_drop _ _
    refine ⟨?_, hparent⟩
    intro c l hc h
    rw [contentToLeaf_eq] at h
    split at h
    · cases h
    rename_i hlen
    simp only [minLeafSize] at hlen
    simp only [Res.bind_eq_ok] at h
    obtain ⟨headS, hheadS, remS, hremS, h⟩ := h
    have hv1 := Slice.sub_ok_len hheadS (by omega)
    obtain ⟨f1, f2, f3⟩ := Slice.from_ok hremS
    simp only [Slice.len] at f1 hlen
    have hl : headS.vis.length = 64 := by rw [hv1]; simp; omega
    have hfb : Hash.fromBytes S headS.vis = headS.vis := Hash.fromBytes_of_len hl
    rw [hfb] at h
    split at h
    · simp only [Res.bind_eq_ok, Res.pure_eq] at h
      obtain ⟨p, hp, h⟩ := h
      injection h with h
      subst h
      have c1 := Slice.from_cap hremS
      have g := (ih (n - 64) (by omega)).2 remS p.1 p.2 (by omega) hp
      refine ⟨?_, hl, g.2.1, g.2.2⟩
      have e : leafToContent (.node headS.vis p.1 p.2) = headS.vis ++ parentToContent p.1 p.2 := rfl
      rw [e, g.1, hv1, f2]
      simp
    · rename_i hz
      simp only [Res.pure_eq] at h
      injection h with h
      subst h
      refine ⟨?_, hl⟩
      simp only [Slice.len, f2, List.length_drop] at hz
      simp only [leafToContent, hv1]
      rw [List.take_of_length_le (by simp; omega)]
      simp

theorem toHashTree_exact (S : Sha) (c : Slice) (t : Tree) (h : toHashTree S c = .ok t) :
    toContent t = c.vis ∧ t.Sized := by
  unfold toHashTree at h
  split at h
  · cases h
  rename_i hlen
  simp only [minHashtreeSize] at hlen
  simp only [Res.bind_eq_ok, Res.pure_eq] at h
  obtain ⟨headS, hheadS, parS, hparS, p, hp, h⟩ := h
  injection h with h
  subst h
  have hv1 := Slice.sub_ok_len hheadS (by omega)
  obtain ⟨f1, f2, f3⟩ := Slice.from_ok hparS
  simp only [Slice.len] at f1 hlen
  have hl : headS.vis.length = 64 := by rw [hv1]; simp; omega
  have g := (decode_exact S parS.cap).2 parS p.1 p.2 (Nat.le_refl _) hp
  simp only [toContent, Hash.fromBytes_of_len hl]
  refine ⟨?_, by simpa [Hash.fromBytes_of_len hl] using hl, g.2.1, g.2.2⟩
  rw [g.1, hv1, f2]
  simp

/-! ### Compact form -/

theorem leavesLoop_spec (S : Sha) (L : List Leaf) (pre tail : Bytes)
    (hs : ∀ x ∈ L, x.Sized ∧ (leafToContent x).length < 2 ^ 64) :
    leavesLoop S ⟨pre ++ L.flatMap (fun x => le64 (leafToContent x).length ++ leafToContent x), tail⟩
      L.length pre.length = .ok L := by
  induction L generalizing pre with
  | nil => simp [leavesLoop]
  | cons x xs ih =>
    obtain ⟨hx1, hx2⟩ := hs x (by simp)
    have e1 := Slice.sub_append pre (le64 (leafToContent x).length)
      (leafToContent x ++ xs.flatMap (fun x => le64 (leafToContent x).length ++ leafToContent x)) tail
    have e2 := Slice.sub_append (pre ++ le64 (leafToContent x).length) (leafToContent x)
      (xs.flatMap (fun x => le64 (leafToContent x).length ++ leafToContent x)) tail
    have ih' := ih (pre ++ le64 (leafToContent x).length ++ leafToContent x) (fun y hy => hs y (by simp [hy]))
    simp only [List.append_assoc, List.length_append, le64_length] at e1 e2 ih'
    simp only [List.flatMap_cons, List.append_assoc, List.length_cons, leavesLoop]
    rw [e1]
    simp only [Res.bind_ok, leNat_le64 _ hx2]
    rw [show pre.length + 8 + (leafToContent x).length = pre.length + (8 + (leafToContent x).length) by omega] at *
    rw [e2]
    simp only [Res.bind_ok, contentToLeaf_leafToContent S x hx1 hx2]
    rw [ih']
    rfl

theorem toLeaves_leavesToContent (S : Sha) (L : List Leaf) (tail : Bytes) (hne : L ≠ [])
    (hn : L.length < 2 ^ 63)
    (hs : ∀ x ∈ L, x.Sized ∧ (leafToContent x).length < 2 ^ 64) :
    toLeaves S ⟨leavesToContent L, tail⟩ = .ok L := by
  unfold toLeaves
  have hlen : 80 ≤ (leavesToContent L).length := by
    match L, hne, hs with
    | x :: xs, _, hs =>
      have := leafToContent_length_ge (hs x (by simp)).1
      simp [leavesToContent]; omega
  rw [if_neg (by simp [Slice.len, minLeavesSize]; omega)]
  have e1 := Slice.sub_zero_append (le64 L.length)
    (L.flatMap (fun x => le64 (leafToContent x).length ++ leafToContent x)) tail
  have e2 := leavesLoop_spec S L (le64 L.length) tail hs
  simp only [le64_length] at e1 e2
  unfold leavesToContent
  rw [e1]
  simp only [Res.bind_ok, leNat_le64 _ (show L.length < 2 ^ 64 by omega), if_pos hn]
  rw [e2]
  simp [hne]

theorem compact_round_trip (S : Sha) (c : Compact) (tail : Bytes) (hh : c.head.length = 64) (hne : c.leaves ≠ [])
    (hn : c.leaves.length < 2 ^ 63)
    (hs : ∀ x ∈ c.leaves, x.Sized ∧ (leafToContent x).length < 2 ^ 64) :
    contentToCompact S ⟨compactToContent c, tail⟩ = .ok c := by
  unfold contentToCompact
  have hlen : 80 ≤ (leavesToContent c.leaves).length := by
    match h : c.leaves, hne, hs with
    | x :: xs, _, hs =>
      have := leafToContent_length_ge (hs x (by simp)).1
      simp [leavesToContent]; omega
  rw [if_neg (by simp [Slice.len, minCompactSize, compactToContent]; omega)]
  have e1 := Slice.sub_zero_append c.head (leavesToContent c.leaves) tail
  have e2 := Slice.from_append c.head (leavesToContent c.leaves) tail
  rw [hh] at e1 e2
  unfold compactToContent
  rw [e1, e2]
  simp [toLeaves_leavesToContent S c.leaves tail hne hn hs, Hash.fromBytes_of_len hh]

/-- Slicing only depends on the underlying buffer. -/
theorem sub_buffer {c d : Slice} (h : c.vis ++ c.tail = d.vis ++ d.tail) (a b : Nat) : c.sub a b = d.sub a b := by
  have hc : c.cap = d.cap := by
    have := congrArg List.length h
    simpa [Slice.cap] using this
  unfold Slice.sub
  rw [h, hc]

theorem leavesLoop_buffer (S : Sha) {c d : Slice} (h : c.vis ++ c.tail = d.vis ++ d.tail) (n pos : Nat) :
    leavesLoop S c n pos = leavesLoop S d n pos := by
  induction n generalizing pos with
  | zero => rfl
  | succ n ih => simp only [leavesLoop, sub_buffer h, ih]

theorem toLeaves_buffer (S : Sha) {c d : Slice} (h : c.vis ++ c.tail = d.vis ++ d.tail) (hc : 80 ≤ c.len)
    (hd : 80 ≤ d.len) : toLeaves S c = toLeaves S d := by
  unfold toLeaves
  rw [if_neg (by simp [minLeavesSize]; omega), if_neg (by simp [minLeavesSize]; omega)]
  simp only [sub_buffer h, leavesLoop_buffer S h]

theorem contentToCompact_buffer (S : Sha) {c d : Slice} (hc : 144 ≤ c.len) (hd : 144 ≤ d.len)
    (h : c.vis ++ c.tail = d.vis ++ d.tail) : contentToCompact S c = contentToCompact S d := by
  unfold contentToCompact
  rw [if_neg (by simp [minCompactSize]; omega), if_neg (by simp [minCompactSize]; omega), sub_buffer h]
  have e1 : c.from' 64 = .ok ⟨c.vis.drop 64, c.tail⟩ := by unfold Slice.from'; rw [if_pos (by omega)]
  have e2 : d.from' 64 = .ok ⟨d.vis.drop 64, d.tail⟩ := by unfold Slice.from'; rw [if_pos (by omega)]
  rw [e1, e2]
  simp only [Res.bind_ok]
  rw [toLeaves_buffer S (c := ⟨c.vis.drop 64, c.tail⟩) (d := ⟨d.vis.drop 64, d.tail⟩)]
  · simp only [Slice.len] at hc hd
    have := congrArg (List.drop 64) h
    rwa [List.drop_append_of_le_length (by omega), List.drop_append_of_le_length (by omega)] at this
  · simp only [Slice.len, List.length_drop] at *; omega
  · simp only [Slice.len, List.length_drop] at *; omega

/-! ### Ordering -/

theorem lookup_cons (k : List Char) (p : List Char × Bytes) (m : List (List Char × Bytes)) :
    lookup (p :: m) k = if p.1 = k then some p.2 else lookup m k := by
  unfold lookup
  by_cases h : p.1 = k <;> simp [h]

theorem lookup_orderMap_aux (S : Sha) (mixed : List Bytes) (m : List (List Char × Bytes)) (k : Bytes) :
    lookup (mixed.foldl (fun m d => (Hash.toString (Hash.fromBytes S d), d) :: m) m) (Hash.toString k) =
      match mixed.reverse.find? (fun d => Hash.fromBytes S d == k) with
      | some d => some d
      | none => lookup m (Hash.toString k) := by
  induction mixed generalizing m with
  | nil => simp
  | cons x xs ih =>
    simp only [List.foldl_cons, ih, List.reverse_cons, List.find?_append]
    cases h : xs.reverse.find? (fun d => Hash.fromBytes S d == k) with
    | some d => simp
    | none =>
      simp only [Option.none_or]
      rw [lookup_cons]
      by_cases hx : Hash.fromBytes S x = k
      · simp [hx]
      · have : ¬ Hash.toString (Hash.fromBytes S x) = Hash.toString k := fun h => hx (Hash.toString_inj h)
        simp [hx, this]

theorem lookup_orderMap (S : Sha) (mixed : List Bytes) (k : Bytes) :
    lookup (orderMap S mixed) (Hash.toString k) = mixed.reverse.find? (fun d => Hash.fromBytes S d == k) := by
  unfold orderMap
  rw [lookup_orderMap_aux]
  cases mixed.reverse.find? (fun d => Hash.fromBytes S d == k) <;> simp [lookup]

/-- Lookup finds the unique block with a given hash. -/
theorem lookup_orderMap_mem (S : Sha) (mixed : List Bytes) (d : Bytes) (hd : d ∈ mixed)
    (hnd : ∀ x ∈ mixed, ∀ y ∈ mixed, Hash.fromBytes S x = Hash.fromBytes S y → x = y) :
    lookup (orderMap S mixed) (Hash.toString (Hash.fromBytes S d)) = some d := by
  rw [lookup_orderMap]
  cases h : mixed.reverse.find? (fun x => Hash.fromBytes S x == Hash.fromBytes S d) with
  | none =>
    rw [List.find?_eq_none] at h
    have := h d (by simpa using hd)
    simp at this
  | some x =>
    have h1 := List.find?_some h
    have h2 := List.mem_of_find?_eq_some h
    have := hnd x (by simpa using h2) d hd (by simpa using h1)
    rw [this]

theorem lookup_orderMap_none (S : Sha) (mixed : List Bytes) (k : Bytes)
    (h : ∀ d ∈ mixed, Hash.fromBytes S d ≠ k) : lookup (orderMap S mixed) (Hash.toString k) = none := by
  rw [lookup_orderMap, List.find?_eq_none]
  intro x hx
  simpa using h x (by simpa using hx)

theorem filterMap_some_map {α β : Type} (l : List α) (f : α → β) (g : β → Option α)
    (h : ∀ x ∈ l, g (f x) = some x) : (l.map f).filterMap g = l := by
  induction l with
  | nil => rfl
  | cons x xs ih =>
    simp only [List.map_cons, List.filterMap_cons, h x (by simp)]
    rw [ih (fun y hy => h y (by simp [hy]))]

/-! ### Binding -/

theorem merkleRoot_length (S : Sha) (k : Nat) (l : List Bytes) (hl : l.length = 2 ^ k)
    (h64 : ∀ x ∈ l, x.length = 64) : (merkleRoot S k l).length = 64 := by
  cases k with
  | zero =>
    match l, hl with
    | [x], _ => exact h64 x (by simp)
  | succ k => exact S.len _

/-- Two equal Merkle roots over equally many 64-byte hashes: the hashes agree, or two different 128-byte strings have the
same digest. -/
theorem merkleRoot_binding (S : Sha) (k : Nat) (l1 l2 : List Bytes) (h1 : l1.length = 2 ^ k) (h2 : l2.length = 2 ^ k)
    (s1 : ∀ x ∈ l1, x.length = 64) (s2 : ∀ x ∈ l2, x.length = 64)
    (h : merkleRoot S k l1 = merkleRoot S k l2) :
    l1 = l2 ∨ ∃ a b : Bytes, a ≠ b ∧ a.length = 128 ∧ b.length = 128 ∧ S.f a = S.f b := by
  induction k generalizing l1 l2 with
  | zero =>
    match l1, h1, l2, h2 with
    | [x], _, [y], _ => left; simpa [merkleRoot] using h
  | succ k ih =>
    have ht1 : (l1.take (2 ^ k)).length = 2 ^ k := by simp [h1]; omega
    have ht2 : (l2.take (2 ^ k)).length = 2 ^ k := by simp [h2]; omega
    have hd1 : (l1.drop (2 ^ k)).length = 2 ^ k := by simp [h1]; omega
    have hd2 : (l2.drop (2 ^ k)).length = 2 ^ k := by simp [h2]; omega
    have m1 := merkleRoot_length S k _ ht1 (fun x hx => s1 x (List.mem_of_mem_take hx))
    have m2 := merkleRoot_length S k _ ht2 (fun x hx => s2 x (List.mem_of_mem_take hx))
    have m3 := merkleRoot_length S k _ hd1 (fun x hx => s1 x (List.mem_of_mem_drop hx))
    have m4 := merkleRoot_length S k _ hd2 (fun x hx => s2 x (List.mem_of_mem_drop hx))
    by_cases he : merkleRoot S k (l1.take (2 ^ k)) ++ merkleRoot S k (l1.drop (2 ^ k)) =
        merkleRoot S k (l2.take (2 ^ k)) ++ merkleRoot S k (l2.drop (2 ^ k))
    · obtain ⟨e1, e2⟩ := List.append_inj he (by rw [m1, m2])
      rcases ih _ _ ht1 ht2 (fun x hx => s1 x (List.mem_of_mem_take hx))
          (fun x hx => s2 x (List.mem_of_mem_take hx)) e1 with r1 | r1
      · rcases ih _ _ hd1 hd2 (fun x hx => s1 x (List.mem_of_mem_drop hx))
          (fun x hx => s2 x (List.mem_of_mem_drop hx)) e2 with r2 | r2
        · left
          rw [← List.take_append_drop (2 ^ k) l1, ← List.take_append_drop (2 ^ k) l2, r1, r2]
        · exact .inr r2
      · exact .inr r1
    · right
      exact ⟨_, _, he, by simp [m1, m3], by simp [m2, m4], h⟩

end Rodkina.HashTree
