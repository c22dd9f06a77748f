import Verif.MemorySpec
/-! Lemmas about slices in memory. -/

namespace Rodkina.Mem

open Rodkina.HashTree (Leaf Tree)

theorem read_length {α : Type} {h : Heap α} {p : Ptr} (hp : p.Valid h) : (read h p).length = p.len := by
  obtain ⟨h1, h2, h3⟩ := hp
  unfold read
  simp only [List.length_take, List.length_drop]
  omega

theorem push_spec {α : Type} [Inhabited α] (grow : Nat → Nat) (h : Heap α) (p : Ptr) (x : α) (hp : p.Valid h) :
    (push grow h p x).2.Valid (push grow h p x).1 ∧ read (push grow h p x).1 (push grow h p x).2 = read h p ++ [x] ∧
    h.length ≤ (push grow h p x).1.length ∧
    ((push grow h p x).2.arr = p.arr ∨ (push grow h p x).2.arr = h.length) ∧
    ∀ q : Ptr, q.Valid h → Apart p q →
      q.Valid (push grow h p x).1 ∧ read (push grow h p x).1 q = read h q ∧ Apart (push grow h p x).2 q := by
  have hlen := read_length hp
  obtain ⟨h1, h2, h3⟩ := hp
  unfold push
  split
  · rename_i hc
    dsimp only
    have e : ∀ k, (h.set p.arr ((h.getD p.arr []).set (p.off + p.len) x)).getD k [] =
        if k = p.arr then (h.getD p.arr []).set (p.off + p.len) x else h.getD k [] := by
      intro k
      simp only [List.getD_eq_getElem?_getD, List.getElem?_set]
      by_cases hk : p.arr = k
      · subst hk; simp [h1]
      · rw [if_neg hk, if_neg (Ne.symm hk)]
    refine ⟨⟨?_, ?_, ?_⟩, ?_, ?_, .inl rfl, ?_⟩
    · simpa using h1
    · exact hc
    · dsimp only; rw [e, if_pos rfl]; simpa using h3
    · unfold read
      dsimp only
      rw [e, if_pos rfl]
      apply List.ext_getElem?
      intro i
      simp only [List.getElem?_take, List.getElem?_drop, List.getElem?_append, List.getElem?_set, List.length_take, List.length_drop]
      by_cases hi : i < p.len
      · rw [if_pos (by omega), if_neg (by omega), if_pos (by omega), if_pos hi]
      · by_cases hi' : i = p.len
        · subst hi'
          rw [if_pos (by omega), if_pos rfl, if_pos (by omega), if_neg (by omega)]
          have : p.len - min p.len ((h.getD p.arr []).length - p.off) = 0 := by omega
          rw [this]; rfl
        · rw [if_neg (by omega), if_neg (by omega)]
          rw [List.getElem?_eq_none]
          simp; omega
    · simp
    · intro q hq ha
      obtain ⟨q1, q2, q3⟩ := hq
      refine ⟨⟨by simpa using q1, q2, ?_⟩, ?_, ?_⟩
      · rw [e]; split
        · rename_i hk; rw [hk] at q3; simpa using q3
        · exact q3
      · unfold read
        rw [e]
        split
        · rename_i hk
          rw [hk] at q3 ⊢
          apply List.ext_getElem?
          intro i
          simp only [List.getElem?_take, List.getElem?_drop, List.getElem?_set]
          split
          · rw [if_neg]
            rcases ha with ha | ha | ha
            · exact absurd hk ha
            · omega
            · omega
          · rfl
        · rfl
      · rcases ha with ha | ha | ha
        · exact .inl ha
        · exact .inr (.inl (by dsimp only; omega))
        · exact .inr (.inr ha)
  · rename_i hc
    dsimp only
    have e : ∀ (l : List α) k, k < h.length → (h ++ [l]).getD k [] = h.getD k [] := by
      intro l k hk
      simp [List.getD_eq_getElem?_getD, List.getElem?_append, hk]
    refine ⟨⟨?_, ?_, ?_⟩, ?_, ?_, .inr rfl, ?_⟩
    · simp
    · simp
    · simp [hlen]; omega
    · unfold read at hlen ⊢
      simp only [List.getD_eq_getElem?_getD, List.getElem?_append, Nat.lt_irrefl, if_false, Nat.sub_self, List.drop_zero]
      simp only [List.getElem?_cons_zero, Option.getD_some]
      rw [List.take_append]
      simp only [List.getD_eq_getElem?_getD] at hlen
      rw [hlen, List.take_of_length_le (by omega)]
      simp
    · simp
    · intro q hq ha
      obtain ⟨q1, q2, q3⟩ := hq
      refine ⟨⟨?_, q2, ?_⟩, ?_, ?_⟩
      · simp; omega
      · rw [e _ _ q1]; exact q3
      · unfold read; rw [e _ _ q1]
      · exact .inl (by dsimp only; omega)

theorem push_valid {α : Type} [Inhabited α] (grow : Nat → Nat) (h : Heap α) (p q : Ptr) (x : α) (hq : q.Valid h) :
    q.Valid (push grow h p x).1 := by
  obtain ⟨q1, q2, q3⟩ := hq
  unfold push
  split
  · refine ⟨by simpa using q1, q2, ?_⟩
    simp only [List.getD_eq_getElem?_getD, List.getElem?_set] at q3 ⊢
    split
    · rename_i hk
      rw [hk, if_pos q1]
      simpa using q3
    · exact q3
  · refine ⟨by simp; omega, q2, ?_⟩
    simp only [List.getD_eq_getElem?_getD] at q3 ⊢
    rw [List.getElem?_append_left q1]
    exact q3

theorem pushAll_valid {α : Type} [Inhabited α] (grow : Nat → Nat) (xs : List α) (h : Heap α) (p q : Ptr) (hq : q.Valid h) :
    q.Valid (pushAll grow h p xs).1 := by
  induction xs generalizing h p with
  | nil => exact hq
  | cons x xs ih => exact ih _ _ (push_valid grow h p q x hq)

theorem pushAll_spec {α : Type} [Inhabited α] (grow : Nat → Nat) (xs : List α) (h : Heap α) (p : Ptr) (hp : p.Valid h) :
    (pushAll grow h p xs).2.Valid (pushAll grow h p xs).1 ∧ read (pushAll grow h p xs).1 (pushAll grow h p xs).2 = read h p ++ xs ∧
    h.length ≤ (pushAll grow h p xs).1.length ∧
    ((pushAll grow h p xs).2.arr = p.arr ∨ h.length ≤ (pushAll grow h p xs).2.arr) ∧
    ∀ q : Ptr, q.Valid h → Apart p q →
      q.Valid (pushAll grow h p xs).1 ∧ read (pushAll grow h p xs).1 q = read h q ∧ Apart (pushAll grow h p xs).2 q := by
  induction xs generalizing h p with
  | nil => exact ⟨hp, by simp [pushAll], by simp [pushAll], .inl rfl, fun q hq ha => ⟨hq, rfl, ha⟩⟩
  | cons x xs ih =>
    obtain ⟨s1, s2, s3, s4, s5⟩ := push_spec grow h p x hp
    obtain ⟨i1, i2, i3, i4, i5⟩ := ih (push grow h p x).1 (push grow h p x).2 s1
    unfold pushAll
    refine ⟨i1, ?_, by omega, ?_, ?_⟩
    · rw [i2, s2]; simp
    · omega
    · intro q hq ha
      obtain ⟨q1, q2, q3⟩ := s5 q hq ha
      obtain ⟨r1, r2, r3⟩ := i5 q q1 q3
      exact ⟨r1, r2.trans q2, r3⟩

/-! ### Building -/

theorem buildIn_result (S : Sha) (grow : Nat → Nat) (h : Heap Bytes) (p : Ptr) (hp : p.Valid h) :
    (buildIn S grow h p).1 = HashTree.build S (some (read h p)) := by
  have hl := read_length hp
  unfold buildIn HashTree.build
  dsimp only
  rw [hl]
  split
  · rw [(push_spec grow h p [] hp).2.1]
  · rfl

theorem push_full {α : Type} [Inhabited α] (grow : Nat → Nat) (h : Heap α) (p : Ptr) (x : α) (hc : p.cap = p.len) (q : Ptr)
    (hq : q.Valid h) : read (push grow h p x).1 q = read h q := by
  unfold push
  rw [if_neg (by omega)]
  unfold read
  have := hq.1
  simp [List.getD_eq_getElem?_getD, List.getElem?_append, this]

theorem buildIn_frame (S : Sha) (grow : Nat → Nat) (h : Heap Bytes) (p q : Ptr) (hp : p.Valid h) (hq : q.Valid h)
    (ha : 2 ≤ p.len ∨ p.cap = p.len ∨ Apart p q) : read (buildIn S grow h p).2 q = read h q := by
  unfold buildIn
  dsimp only
  split
  · rename_i hc
    rcases ha with ha | ha | ha
    · omega
    · exact push_full grow h p [] ha q hq
    · exact ((push_spec grow h p [] hp).2.2.2.2 q hq ha).2.1
  · rfl

/-! ### Merging -/

theorem merge_eq (grow : Nat → Nat) (s : State) (r a : Nat) (p : Ptr) (hr : s.objs[r]? = some p) :
    s.merge grow r a = ⟨(pushAll grow s.heap p (s.leaves a)).1, s.objs.set r (pushAll grow s.heap p (s.leaves a)).2⟩ := by
  unfold State.merge
  rw [hr]

theorem merge_receiver (grow : Nat → Nat) (s : State) (hs : s.Valid) (r a : Nat) (hr : r < s.objs.length) :
    (s.merge grow r a).leaves r = s.leaves r ++ s.leaves a := by
  have h1 : s.objs[r]? = some s.objs[r] := List.getElem?_eq_getElem hr
  rw [merge_eq grow s r a _ h1]
  obtain ⟨_, p2, _⟩ := pushAll_spec grow (s.leaves a) s.heap s.objs[r] (hs _ (List.getElem_mem hr))
  simp only [State.leaves, h1, List.getElem?_set, hr, if_true]
  simpa only [State.leaves, h1] using p2

theorem merge_objs (grow : Nat → Nat) (s : State) (r a i : Nat) (h : i ≠ r) :
    (s.merge grow r a).objs[i]? = s.objs[i]? := by
  unfold State.merge
  split
  · simp [Ne.symm h]
  · rfl

theorem merge_objs_length (grow : Nat → Nat) (s : State) (r a : Nat) : (s.merge grow r a).objs.length = s.objs.length := by
  unfold State.merge
  split
  · simp
  · rfl

theorem merge_frame (grow : Nat → Nat) (s : State) (hs : s.Valid) (r a : Nat) (p q : Ptr) (hr : s.objs[r]? = some p)
    (hq : q.Valid s.heap) (ha : Apart p q) : q.Valid (s.merge grow r a).heap ∧ read (s.merge grow r a).heap q = read s.heap q := by
  rw [merge_eq grow s r a p hr]
  obtain ⟨_, _, _, _, p5⟩ := pushAll_spec grow (s.leaves a) s.heap p (hs p (List.mem_of_getElem? hr))
  exact ⟨(p5 q hq ha).1, (p5 q hq ha).2.1⟩

theorem merge_valid (grow : Nat → Nat) (s : State) (hs : s.Valid) (r a : Nat) : (s.merge grow r a).Valid := by
  cases hr : s.objs[r]? with
  | none => unfold State.merge; rw [hr]; exact hs
  | some p =>
    rw [merge_eq grow s r a p hr]
    intro q hq
    rcases List.mem_or_eq_of_mem_set hq with hq | rfl
    · exact pushAll_valid grow _ _ _ _ (hs q hq)
    · exact (pushAll_spec grow _ _ _ (hs p (List.mem_of_getElem? hr))).1

/-- What making the leaves of a leaf does to memory: one new object, in new arrays; the rest stays. -/
structure Fresh (s s' : State) (i : Nat) (l : List Leaf) : Prop where
  valid : s'.Valid
  grows : s.heap.length ≤ s'.heap.length
  lt : i < s'.objs.length
  ge : s.objs.length ≤ i
  leaves : s'.leaves i = l
  objs : ∀ j, j < s.objs.length → s'.objs[j]? = s.objs[j]?
  arr : ∀ p, s'.objs[i]? = some p → s.heap.length ≤ p.arr
  frame : ∀ q : Ptr, q.Valid s.heap → q.Valid s'.heap ∧ read s'.heap q = read s.heap q

theorem merge_fresh (grow : Nat → Nat) {s s1 s2 : State} {i j : Nat} {l r : List Leaf} (ha : Fresh s s1 i l) (hb : Fresh s1 s2 j r) :
    Fresh s (s2.merge grow i j) i (l ++ r) := by
  have hi : i < s2.objs.length := by have := ha.lt; have := hb.lt; have := hb.ge; omega
  have hob : s2.objs[i]? = s1.objs[i]? := hb.objs i ha.lt
  have e1 : s1.objs[i]? = some (s1.objs[i]'(ha.lt)) := List.getElem?_eq_getElem ha.lt
  generalize s1.objs[i]'(ha.lt) = p at e1
  have e2 := hob.trans e1
  have hpv : p.Valid s1.heap := ha.valid p (List.mem_of_getElem? e1)
  have hpa := ha.arr p e1
  have hli : s2.leaves i = l := by
    have := ha.leaves
    simp only [State.leaves, e2, e1] at this ⊢
    rw [(hb.frame p hpv).2]
    exact this
  have hps := pushAll_spec grow (s2.leaves j) s2.heap p (hb.valid p (List.mem_of_getElem? e2))
  have hfr : ∀ q : Ptr, q.Valid s.heap → q.Valid (s2.merge grow i j).heap ∧ read (s2.merge grow i j).heap q = read s.heap q := by
    intro q hq
    obtain ⟨a1, a2⟩ := ha.frame q hq
    obtain ⟨b1, b2⟩ := hb.frame q a1
    obtain ⟨c1, c2⟩ := merge_frame grow s2 hb.valid i j p q e2 b1 (.inl (by have := hq.1; omega))
    exact ⟨c1, c2.trans (b2.trans a2)⟩
  have hij : i ≠ j := by have := ha.lt; have := hb.ge; omega
  refine ⟨?_, ?_, ?_, ha.ge, ?_, ?_, ?_, hfr⟩
  · exact merge_valid grow s2 hb.valid i j
  · rw [merge_eq grow s2 i j p e2]
    have := hps.2.2.1; have := ha.grows; have := hb.grows
    dsimp only; omega
  · rw [merge_objs_length]; exact hi
  · rw [merge_receiver grow s2 hb.valid i j hi, hli, hb.leaves]
  · intro k hk
    have := ha.ge; have := ha.lt
    rw [merge_objs grow s2 i j k (by omega), hb.objs k (by omega), ha.objs k hk]
  · intro q hq
    rw [merge_eq grow s2 i j p e2] at hq
    simp only [List.getElem?_set, hi, if_true, Option.some.injEq] at hq
    subst hq
    have := ha.grows; have := hb.grows
    rcases hps.2.2.2.1 with h | h <;> omega

theorem leafToLeavesIn_fresh (grow : Nat → Nat) (l : Leaf) (s : State) (hs : s.Valid) :
    Fresh s (leafToLeavesIn grow s l).1 (leafToLeavesIn grow s l).2 (HashTree.leafToLeaves l) := by
  induction l generalizing s with
  | base x =>
    have hfr : ∀ q : Ptr, q.Valid s.heap → q.Valid (s.heap ++ [[Leaf.base x]]) ∧ read (s.heap ++ [[Leaf.base x]]) q = read s.heap q := by
      intro q ⟨q1, q2, q3⟩
      simp only [List.getD_eq_getElem?_getD] at q3
      refine ⟨⟨by simp; omega, q2, ?_⟩, ?_⟩
      · simp only [List.getD_eq_getElem?_getD]
        rw [List.getElem?_append_left q1]; exact q3
      · unfold read
        simp only [List.getD_eq_getElem?_getD]
        rw [List.getElem?_append_left q1]
    simp only [leafToLeavesIn, State.create]
    refine ⟨?_, by simp, by simp, by simp, ?_, ?_, ?_, hfr⟩
    · intro p hp
      simp only [List.mem_append, List.mem_singleton] at hp
      rcases hp with hp | rfl
      · exact (hfr p (hs p hp)).1
      · exact ⟨by simp, by simp, by simp⟩
    · simp [State.leaves, read, HashTree.leafToLeaves]
    · intro j hj
      simp [List.getElem?_append_left hj]
    · intro p hp
      simp at hp
      subst hp
      simp
  | node x a b iha ihb =>
    exact merge_fresh grow (iha s hs) (ihb _ (iha s hs).valid)

theorem toCompactIn_fresh (grow : Nat → Nat) (t : Tree) (s : State) (hs : s.Valid) :
    Fresh s (toCompactIn grow s t).1 (toCompactIn grow s t).2.leaves t.leaves := by
  have ha := leafToLeavesIn_fresh grow t.left s hs
  exact merge_fresh grow ha (leafToLeavesIn_fresh grow t.right _ ha.valid)

theorem pushAll_full {α : Type} [Inhabited α] (grow : Nat → Nat) (xs : List α) (h : Heap α) (p : Ptr) (hp : p.Valid h)
    (hc : p.cap = p.len) (q : Ptr) (hq : q.Valid h) : read (pushAll grow h p xs).1 q = read h q := by
  cases xs with
  | nil => rfl
  | cons x xs =>
    have h1 := push_full grow h p x hc q hq
    have h2 := push_valid grow h p q x hq
    have h3 := (push_spec grow h p x hp).1
    have h4 : (push grow h p x).2.arr = h.length := by
      unfold push; rw [if_neg (by omega)]
    have := hq.1
    rw [pushAll, ((pushAll_spec grow xs _ _ h3).2.2.2.2 q h2 (.inl (by omega))).2.1, h1]

theorem Fresh.old {s s' : State} {i : Nat} {l : List Leaf} (h : Fresh s s' i l) (hs : s.Valid) (j : Nat) (hj : j < s.objs.length) :
    s'.leaves j = s.leaves j := by
  unfold State.leaves
  rw [h.objs j hj]
  cases hp : s.objs[j]? with
  | none => rfl
  | some p => exact (h.frame p (hs p (List.mem_of_getElem? hp))).2

/-- Merging into an object does not change an object over another array. -/
theorem merge_other (grow : Nat → Nat) {s : State} (hs : s.Valid) (r k i : Nat) (hne : i ≠ r)
    (ha : ∀ p q, s.objs[r]? = some p → s.objs[i]? = some q → q.arr ≠ p.arr) : (s.merge grow r k).leaves i = s.leaves i := by
  cases hr : s.objs[r]? with
  | none => unfold State.merge; rw [hr]
  | some p =>
    unfold State.leaves
    rw [merge_objs grow s r k i hne]
    cases hi : s.objs[i]? with
    | none => rfl
    | some q => exact (merge_frame grow s hs r k p q hr (hs q (List.mem_of_getElem? hi)) (.inl (ha p q hr hi))).2

theorem independent (grow : Nat → Nat) {s s1 s2 : State} {i j : Nat} {l r : List Leaf} (hs : s.Valid) (ha : Fresh s s1 i l)
    (hb : Fresh s1 s2 j r) (k : Nat) :
    (s2.merge grow i k).leaves j = r ∧ (s2.merge grow j k).leaves i = l ∧
    (∀ m, m < s.objs.length → (s2.merge grow i k).leaves m = s.leaves m ∧ (s2.merge grow j k).leaves m = s.leaves m) := by
  have h1 := ha.lt
  have h2 := hb.ge
  have h3 := ha.ge
  have e1 : ∀ p, s2.objs[i]? = some p → p.arr < s1.heap.length ∧ s.heap.length ≤ p.arr := by
    intro p hp
    rw [hb.objs i h1] at hp
    exact ⟨(ha.valid p (List.mem_of_getElem? hp)).1, ha.arr p hp⟩
  have e2 : ∀ m, m < s.objs.length → ∀ p, s2.objs[m]? = some p → p.arr < s.heap.length := by
    intro m hm p hp
    rw [hb.objs m (by omega), ha.objs m hm] at hp
    exact (hs p (List.mem_of_getElem? hp)).1
  have hg := ha.grows
  refine ⟨?_, ?_, ?_⟩
  · rw [merge_other grow hb.valid i k j (by omega), hb.leaves]
    intro p q hp hq
    have := e1 p hp
    have := hb.arr q hq
    omega
  · rw [merge_other grow hb.valid j k i (by omega), hb.old ha.valid i h1, ha.leaves]
    intro p q hp hq
    have := e1 q hq
    have := hb.arr p hp
    omega
  · intro m hm
    have eo : s2.leaves m = s.leaves m := (hb.old ha.valid m (by omega)).trans (ha.old hs m hm)
    refine ⟨?_, ?_⟩
    · rw [merge_other grow hb.valid i k m (by omega), eo]
      intro p q hp hq
      have := e1 p hp
      have := e2 m hm q hq
      omega
    · rw [merge_other grow hb.valid j k m (by omega), eo]
      intro p q hp hq
      have := hb.arr p hp
      have := e2 m hm q hq
      omega

end Rodkina.Mem
