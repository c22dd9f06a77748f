import Verif.DecodeLemmas
import Verif.HashTreeLemmas2
import Verif.ReferencesLemmas

/-!
# What a decoder takes from behind the bytes it is given

A Go slice expression may reach past the length of a slice up to its capacity. The lemmas of this file compare decoding the same
bytes with more or fewer bytes behind them in their buffer.
-/

namespace Rodkina

/-- The same bytes, with more bytes behind them. -/
def Grows (c d : Slice) : Prop := c.vis = d.vis ∧ c.tail <+: d.tail

/-- Unless the first outcome is a panic, the second one is the same, with related values. -/
def Kept {α : Type} (R : α → α → Prop) : Res α → Res α → Prop
  | .ok a, r => ∃ a', r = .ok a' ∧ R a a'
  | .err, r => r = .err
  | .panic, _ => True

theorem Kept.bind {α β : Type} {R : α → α → Prop} {Q : β → β → Prop} {x x' : Res α} {f f' : α → Res β}
    (h : Kept R x x') (hf : ∀ a a', R a a' → Kept Q (f a) (f' a')) : Kept Q (x >>= f) (x' >>= f') := by
  cases x with
  | ok a =>
    obtain ⟨a', rfl, hr⟩ := h
    exact hf a a' hr
  | err =>
    have : x' = .err := h
    subst this
    rfl
  | panic => trivial

theorem Kept.pure {α : Type} {R : α → α → Prop} {a a' : α} (h : R a a') : Kept R (Res.ok a) (Res.ok a') := ⟨a', rfl, h⟩

theorem Kept.refl {α : Type} (r : Res α) : Kept Eq r r := by
  cases r with
  | ok a => exact ⟨a, rfl, rfl⟩
  | err => rfl
  | panic => trivial

theorem Kept.eq {α : Type} {r r' : Res α} (h : Kept Eq r r') (hp : r ≠ .panic) : r' = r := by
  cases r with
  | ok a =>
    obtain ⟨a', rfl, rfl⟩ := h
    rfl
  | err => exact h
  | panic => exact absurd rfl hp

theorem Kept.ite {α : Type} {R : α → α → Prop} {p : Prop} [Decidable p] {x y x' y' : Res α} (h1 : p → Kept R x x')
    (h2 : ¬ p → Kept R y y') : Kept R (if p then x else y) (if p then x' else y') := by
  by_cases hp : p
  · rw [if_pos hp, if_pos hp]; exact h1 hp
  · rw [if_neg hp, if_neg hp]; exact h2 hp

theorem Grows.len {c d : Slice} (h : Grows c d) : d.len = c.len := by unfold Slice.len; rw [h.1]

theorem Grows.cap {c d : Slice} (h : Grows c d) : c.cap ≤ d.cap := by
  unfold Slice.cap
  rw [h.1]
  have := h.2.length_le
  omega

theorem Grows.bare (v t : Bytes) : Grows ⟨v, []⟩ ⟨v, t⟩ := ⟨rfl, List.nil_prefix⟩

theorem Grows.sub {c d : Slice} (h : Grows c d) (a b : Nat) : Kept Grows (c.sub a b) (d.sub a b) := by
  by_cases hc : a ≤ b ∧ b ≤ c.cap
  · have hd : a ≤ b ∧ b ≤ d.cap := ⟨hc.1, Nat.le_trans hc.2 h.cap⟩
    unfold Slice.sub
    rw [if_pos hc, if_pos hd]
    obtain ⟨more, hm⟩ := h.2
    have hlen : b ≤ (c.vis ++ c.tail).length := by
      rw [List.length_append]
      exact hc.2
    refine Kept.pure ⟨?_, ?_⟩
    · show List.take _ _ = List.take _ _
      rw [← h.1, ← hm, ← List.append_assoc, List.drop_append_of_le_length (l₁ := c.vis ++ c.tail) (by omega),
        List.take_append_of_le_length (by rw [List.length_drop]; omega)]
    · show List.drop _ _ <+: List.drop _ _
      rw [← h.1, ← hm, ← List.append_assoc, List.drop_append_of_le_length (l₁ := c.vis ++ c.tail) (by omega)]
      exact List.prefix_append _ _
  · unfold Slice.sub
    rw [if_neg hc]
    trivial

theorem Grows.from' {c d : Slice} (h : Grows c d) (a : Nat) : Kept Grows (c.from' a) (d.from' a) := by
  unfold Slice.from'
  rw [h.len]
  refine Kept.ite (fun _ => Kept.pure ⟨?_, h.2⟩) (fun _ => trivial)
  show List.drop _ _ = List.drop _ _
  rw [h.1]

end Rodkina

namespace Rodkina.HashTree

theorem kept_leaf_aux (S : Sha) : ∀ n : Nat, (∀ c d : Slice, c.cap ≤ n → Grows c d → Kept Eq (contentToLeaf S c) (contentToLeaf S d)) ∧
    ∀ c d : Slice, c.cap ≤ n → Grows c d → Kept Eq (contentToParentLeaf S c) (contentToParentLeaf S d) := by
  intro n
  induction n using Nat.strongRecOn with
  | _ n ih =>
    constructor
    · intro c d hn h
      rw [contentToLeaf_eq, contentToLeaf_eq, h.len]
      refine Kept.ite (fun _ => rfl) (fun hlen => ?_)
      refine (h.sub 0 64).bind (fun a a' ha => ?_)
      rw [← ha.1]
      cases hf : c.from' 64 with
      | err => exact absurd hf (by unfold Slice.from'; split <;> simp)
      | panic => trivial
      | ok r =>
        have hk := h.from' 64
        rw [hf] at hk
        obtain ⟨r', hr', hg⟩ := hk
        rw [hr']
        simp only [Res.bind_ok]
        rw [hg.len]
        refine Kept.ite (fun hpos => ?_) (fun _ => Kept.refl _)
        have hc := Slice.from_cap hf
        refine ((ih r.cap (by omega)).2 r r' (Nat.le_refl _) hg).bind ?_
        rintro p _ rfl
        exact Kept.refl _
    · intro c d hn h
      rw [contentToParentLeaf_eq, contentToParentLeaf_eq, h.len]
      refine Kept.ite (fun _ => rfl) (fun hlen => ?_)
      refine (h.sub 0 8).bind (fun a a' ha => ?_)
      rw [← ha.1]
      cases hl : c.sub 8 (8 + leNat a.vis) with
      | err => exact absurd hl (Slice.sub_never_err _ _ _)
      | panic => trivial
      | ok l =>
        have hk := h.sub 8 (8 + leNat a.vis)
        rw [hl] at hk
        obtain ⟨l', hl', hg⟩ := hk
        rw [hl']
        simp only [Res.bind_ok]
        have hc := Slice.sub_cap hl
        refine ((ih l.cap (by omega)).1 l l' (Nat.le_refl _) hg).bind ?_
        rintro left _ rfl
        cases hf : c.from' (leNat a.vis + 8) with
        | err => exact absurd hf (by unfold Slice.from'; split <;> simp)
        | panic => trivial
        | ok r =>
          have hk := h.from' (leNat a.vis + 8)
          rw [hf] at hk
          obtain ⟨r', hr', hg⟩ := hk
          rw [hr']
          simp only [Res.bind_ok]
          have hc := Slice.from_cap hf
          refine ((ih r.cap (by omega)).1 r r' (Nat.le_refl _) hg).bind ?_
          rintro p _ rfl
          exact Kept.refl _

theorem kept_leaf (S : Sha) {c d : Slice} (h : Grows c d) : Kept Eq (contentToLeaf S c) (contentToLeaf S d) :=
  (kept_leaf_aux S c.cap).1 c d (Nat.le_refl _) h

theorem kept_parentLeaf (S : Sha) {c d : Slice} (h : Grows c d) :
    Kept Eq (contentToParentLeaf S c) (contentToParentLeaf S d) :=
  (kept_leaf_aux S c.cap).2 c d (Nat.le_refl _) h

theorem kept_tree (S : Sha) {c d : Slice} (h : Grows c d) : Kept Eq (toHashTree S c) (toHashTree S d) := by
  unfold toHashTree
  rw [h.len]
  refine Kept.ite (fun _ => rfl) (fun _ => ?_)
  refine (h.sub 0 64).bind (fun a a' ha => ?_)
  refine (h.from' 64).bind (fun b b' hb => ?_)
  refine (kept_parentLeaf S hb).bind ?_
  rintro p _ rfl
  rw [ha.1]
  exact Kept.refl _

theorem kept_leavesLoop (S : Sha) {c d : Slice} (h : Grows c d) (n pos : Nat) :
    Kept Eq (leavesLoop S c n pos) (leavesLoop S d n pos) := by
  induction n generalizing pos with
  | zero => exact Kept.refl _
  | succ n ih =>
    unfold leavesLoop
    refine (h.sub _ _).bind (fun a a' ha => ?_)
    rw [← ha.1]
    refine (h.sub _ _).bind (fun b b' hb => ?_)
    refine (kept_leaf S hb).bind ?_
    rintro x _ rfl
    refine (ih _).bind ?_
    rintro xs _ rfl
    exact Kept.refl _

theorem kept_leaves (S : Sha) {c d : Slice} (h : Grows c d) : Kept Eq (toLeaves S c) (toLeaves S d) := by
  unfold toLeaves
  rw [h.len]
  refine Kept.ite (fun _ => rfl) (fun _ => ?_)
  refine (h.sub 0 8).bind (fun a a' ha => ?_)
  rw [← ha.1]
  dsimp only
  refine Kept.ite (fun _ => ?_) (fun _ => Kept.refl _)
  refine (kept_leavesLoop S h _ _).bind ?_
  rintro x _ rfl
  exact Kept.refl _

theorem kept_compact (S : Sha) {c d : Slice} (h : Grows c d) : Kept Eq (contentToCompact S c) (contentToCompact S d) := by
  unfold contentToCompact
  rw [h.len]
  refine Kept.ite (fun _ => rfl) (fun _ => ?_)
  refine (h.sub 0 64).bind (fun a a' ha => ?_)
  refine (h.from' 64).bind (fun b b' hb => ?_)
  refine (kept_leaves S hb).bind ?_
  rintro p _ rfl
  rw [ha.1]
  exact Kept.refl _

end Rodkina.HashTree

namespace Rodkina.Ref

theorem kept_pointer {c d : Slice} (h : Grows c d) : Kept Eq (toPointer c) (toPointer d) := by
  unfold toPointer
  rw [h.len]
  refine Kept.ite (fun _ => rfl) (fun _ => ?_)
  refine (h.sub _ _).bind (fun a a' ha => ?_)
  refine (h.from' _).bind (fun b b' hb => ?_)
  rw [ha.1, hb.1]
  exact Kept.refl _

theorem kept_key (S : Sha) {c d : Slice} (h : Grows c d) : Kept Eq (toContentKey S c) (toContentKey S d) := by
  unfold toContentKey
  rw [h.len]
  refine Kept.ite (fun _ => rfl) (fun _ => ?_)
  refine (h.sub _ _).bind (fun a a' ha => ?_)
  refine (h.sub _ _).bind (fun b b' hb => ?_)
  refine (h.sub _ _).bind (fun p p' hp => ?_)
  refine (kept_pointer hp).bind ?_
  rintro x _ rfl
  refine (h.sub _ _).bind (fun m m' hm => ?_)
  rw [ha.1, hb.1, hm.1]
  exact Kept.refl _

theorem kept_keysLoop (S : Sha) {c d : Slice} (h : Grows c d) (n i : Nat) :
    Kept Eq (contentKeysLoop S c n i) (contentKeysLoop S d n i) := by
  induction n generalizing i with
  | zero => exact Kept.refl _
  | succ n ih =>
    unfold contentKeysLoop
    refine (h.sub _ _).bind (fun a a' ha => ?_)
    refine (kept_key S ha).bind ?_
    rintro x _ rfl
    refine (ih _).bind ?_
    rintro xs _ rfl
    exact Kept.refl _

theorem kept_keys (S : Sha) {c d : Slice} (h : Grows c d) : Kept Eq (toContentKeys S c) (toContentKeys S d) := by
  unfold toContentKeys
  rw [h.len]
  refine Kept.ite (fun _ => rfl) (fun _ => ?_)
  refine (h.sub _ _).bind (fun a a' ha => ?_)
  rw [← ha.1]
  dsimp only
  refine Kept.ite (fun _ => ?_) (fun _ => Kept.refl _)
  refine (kept_keysLoop S h _ _).bind ?_
  rintro x _ rfl
  exact Kept.refl _

theorem kept_proof {c d : Slice} (h : Grows c d) :
    Kept (fun p q => p.1 = q.1 ∧ Grows p.2 q.2) (readProof c) (readProof d) := by
  unfold readProof
  rw [h.len]
  refine Kept.ite (fun _ => ?_) (fun _ => Kept.pure ⟨rfl, h⟩)
  refine (h.sub _ _).bind (fun a a' ha => ?_)
  rw [← ha.1]
  refine Kept.ite (fun _ => ?_) (fun _ => Kept.pure ⟨rfl, h⟩)
  refine (h.from' _).bind (fun r r' hr => ?_)
  refine (hr.sub _ _).bind (fun l l' hl => ?_)
  rw [← hl.1]
  refine (hr.sub _ _).bind (fun b b' hb => ?_)
  refine (hr.from' _).bind (fun e e' he => ?_)
  exact Kept.pure ⟨by rw [hb.1], he⟩

theorem kept_parent (S : Sha) {c d : Slice} (h : Grows c d) : Kept Eq (readParent S c) (readParent S d) := by
  unfold readParent
  rw [h.len]
  refine Kept.ite (fun _ => ?_) (fun _ => Kept.refl _)
  refine (h.from' _).bind (fun r r' hr => ?_)
  rw [hr.1]
  exact Kept.refl _

theorem kept_commit (S : Sha) (mv : UInt8) {c d : Slice} (h : Grows c d) :
    Kept Eq (toCommit S mv c) (toCommit S mv d) := by
  unfold toCommit
  rw [h.len]
  refine Kept.ite (fun _ => rfl) (fun _ => ?_)
  refine (h.sub _ _).bind (fun t t' ht => ?_)
  refine (h.sub _ _).bind (fun l l' hl => ?_)
  rw [← hl.1, ← ht.1]
  refine (h.sub _ _).bind (fun v v' hv => ?_)
  refine (HashTree.kept_tree S hv).bind ?_
  rintro x _ rfl
  refine (h.from' _).bind (fun r r' hr => ?_)
  refine (kept_proof hr).bind ?_
  rintro p q ⟨hp, hg⟩
  refine (kept_parent S hg).bind ?_
  rintro y _ rfl
  rw [hp]
  exact Kept.refl _

theorem kept_commitsLoop (S : Sha) (mv : UInt8) {c d : Slice} (h : Grows c d) (k index : Nat) (hk : c.len - index ≤ k) :
    Kept Eq (commitsLoop S mv c index) (commitsLoop S mv d index) := by
  induction k generalizing index with
  | zero =>
    rw [commitsLoop, commitsLoop, h.len]
    refine Kept.ite (fun _ => trivial) (fun hlt => ?_)
    rw [dif_pos (by omega), dif_pos (by omega)]
    exact Kept.refl _
  | succ k ih =>
    rw [commitsLoop, commitsLoop, h.len]
    refine Kept.ite (fun _ => trivial) (fun hlt => ?_)
    by_cases he : c.len = index
    · rw [dif_pos he, dif_pos he]
      exact Kept.refl _
    rw [dif_neg he, dif_neg he]
    refine (h.sub _ _).bind (fun l l' hl => ?_)
    rw [← hl.1]
    refine (h.sub _ _).bind (fun s s' hs => ?_)
    refine (kept_commit S mv hs).bind ?_
    rintro x _ rfl
    refine (ih _ (by omega)).bind ?_
    rintro xs _ rfl
    exact Kept.refl _

theorem kept_commits (S : Sha) (mv : UInt8) {c d : Slice} (h : Grows c d) :
    Kept Eq (toCommits S mv c) (toCommits S mv d) := by
  unfold toCommits
  rw [h.len]
  refine Kept.ite (fun _ => rfl) (fun _ => ?_)
  refine (kept_commitsLoop S mv h _ _ (Nat.le_refl _)).bind ?_
  rintro x _ rfl
  exact Kept.refl _

theorem kept_section {c d : Slice} (h : Grows c d) (start : Nat) :
    Kept (fun p q => Grows p.1 q.1 ∧ p.2 = q.2) (section' c start) (section' d start) := by
  unfold section'
  rw [h.len]
  refine (h.sub _ _).bind (fun l l' hl => ?_)
  rw [← hl.1]
  refine Kept.ite (fun _ => trivial) (fun _ => Kept.ite (fun _ => rfl) (fun _ => ?_))
  refine (h.sub _ _).bind (fun s s' hs => ?_)
  exact Kept.pure ⟨hs, rfl⟩

theorem kept_reference (S : Sha) (mv : UInt8) {c d : Slice} (h : Grows c d) :
    Kept Eq (toReference S mv c) (toReference S mv d) := by
  unfold toReference
  rw [h.len]
  refine Kept.ite (fun _ => rfl) (fun _ => ?_)
  refine (kept_section h _).bind ?_
  rintro k k' ⟨hk, he⟩
  refine (kept_keys S hk).bind ?_
  rintro x _ rfl
  rw [← he]
  refine (kept_section h _).bind ?_
  rintro m m' ⟨hm, -⟩
  refine (kept_commits S mv hm).bind ?_
  rintro y _ rfl
  exact Kept.refl _

theorem kept_content (S : Sha) {c d : Slice} (h : Grows c d) :
    Kept Eq (toContentInstance S c) (toContentInstance S d) := by
  unfold toContentInstance
  rw [h.len]
  refine Kept.ite (fun _ => rfl) (fun _ => ?_)
  refine (h.sub _ _).bind (fun a a' ha => ?_)
  refine (h.sub _ _).bind (fun k k' hk => ?_)
  refine (h.from' _).bind (fun e e' he => ?_)
  rw [ha.1, hk.1, he.1]
  exact Kept.refl _

theorem kept_contentsLoop (S : Sha) (n : Nat) {c d : Slice} (hn : c.cap ≤ n) (h : Grows c d) :
    Kept Eq (contentsLoop S c) (contentsLoop S d) := by
  induction n using Nat.strongRecOn generalizing c d with
  | _ n ih =>
    rw [contentsLoop_eq, contentsLoop_eq, h.len]
    refine Kept.ite (fun _ => Kept.refl _) (fun _ => ?_)
    refine (h.sub _ _).bind (fun l l' hl => ?_)
    rw [← hl.1]
    refine (h.sub _ _).bind (fun s s' hs => ?_)
    refine (kept_content S hs).bind ?_
    rintro x _ rfl
    cases hf : c.from' (8 + leNat l.vis) with
    | err => exact absurd hf (by unfold Slice.from'; split <;> simp)
    | panic => trivial
    | ok r =>
      have hk := h.from' (8 + leNat l.vis)
      rw [hf] at hk
      obtain ⟨r', hr', hg⟩ := hk
      rw [hr']
      simp only [Res.bind_ok]
      have hc := Slice.from_cap hf
      refine (ih r.cap (by omega) (Nat.le_refl _) hg).bind ?_
      rintro xs _ rfl
      exact Kept.refl _

theorem kept_contents (S : Sha) {c d : Slice} (h : Grows c d) :
    Kept Eq (toContentsInstance S c) (toContentsInstance S d) := by
  unfold toContentsInstance
  rw [h.len]
  refine Kept.ite (fun _ => rfl) (fun _ => ?_)
  refine (kept_contentsLoop S _ (Nat.le_refl _) h).bind ?_
  rintro x _ rfl
  exact Kept.refl _

/-! ### Values do not come from behind the bytes -/

end Rodkina.Ref

namespace Rodkina

theorem Slice.sub_same {c d s : Slice} {a b : Nat} (h : c.vis = d.vis) (hb : b ≤ c.len) (hs : c.sub a b = .ok s) :
    ∃ s', d.sub a b = .ok s' ∧ s.vis = s'.vis := by
  have hab : a ≤ b := by
    by_contra hn
    unfold Slice.sub at hs
    rw [if_neg (by omega)] at hs
    cases hs
  have hb' : b ≤ d.len := by unfold Slice.len at hb ⊢; rw [← h]; exact hb
  obtain ⟨t, ht⟩ := Slice.sub_in c hab hb
  obtain ⟨t', ht'⟩ := Slice.sub_in d hab hb'
  rw [ht] at hs
  cases hs
  exact ⟨_, ht', by simp only [h]⟩

theorem Slice.from_same {c d s : Slice} {a : Nat} (h : c.vis = d.vis) (hs : c.from' a = .ok s) :
    a ≤ c.len ∧ ∃ s', d.from' a = .ok s' ∧ s.vis = s'.vis := by
  unfold Slice.from' at hs ⊢
  split at hs
  · rename_i ha
    cases hs
    refine ⟨ha, _, if_pos ?_, ?_⟩
    · unfold Slice.len at ha ⊢; rw [← h]; exact ha
    · simp only [h]
  · cases hs

theorem Slice.len_same {c d : Slice} (h : c.vis = d.vis) : d.len = c.len := by unfold Slice.len; rw [h]

end Rodkina

namespace Rodkina.HashTree

theorem tree_same (S : Sha) {c d : Slice} (h : c.vis = d.vis) {x : Tree} (hx : toHashTree S c = .ok x) :
    toHashTree S d = .ok x := by
  have hp : toHashTree S ⟨c.vis, []⟩ ≠ .panic := fun hp => tree_not_ok S c (toHashTree_panic S ⟨c.vis, []⟩ hp) x hx
  have h1 := (kept_tree S (Grows.bare c.vis c.tail)).eq hp
  have h2 := (kept_tree S (Grows.bare c.vis d.tail)).eq hp
  have e1 : (⟨c.vis, c.tail⟩ : Slice) = c := rfl
  have e2 : (⟨c.vis, d.tail⟩ : Slice) = d := by rw [h]
  rw [e1] at h1
  rw [e2] at h2
  rw [h2, ← h1, hx]

end Rodkina.HashTree

namespace Rodkina.Ref

theorem pointer_same {c d : Slice} (h : c.vis = d.vis) : toPointer c = toPointer d := by
  unfold toPointer
  rw [Slice.len_same h]
  split
  · rfl
  · rename_i hn
    have hl : c.len = 16 := by simpa [pointerSize] using hn
    have hl' : d.len = 16 := by rw [Slice.len_same h]; exact hl
    obtain ⟨t, ht⟩ := Slice.sub_in c (a := 0) (b := 8) (by omega) (by omega)
    obtain ⟨t', ht'⟩ := Slice.sub_in d (a := 0) (b := 8) (by omega) (by omega)
    rw [ht, ht', Slice.from_in c (by omega), Slice.from_in d (by omega), h]
    rfl

theorem key_same (S : Sha) {c d : Slice} (h : c.vis = d.vis) : toContentKey S c = toContentKey S d := by
  unfold toContentKey
  rw [Slice.len_same h]
  split
  · rfl
  · rename_i hn
    have hl : c.len = 152 := by simpa [contentKeySize] using hn
    have hl' : d.len = 152 := by rw [Slice.len_same h]; exact hl
    obtain ⟨t1, e1⟩ := Slice.sub_in c (a := 0) (b := 64) (by omega) (by omega)
    obtain ⟨u1, f1⟩ := Slice.sub_in d (a := 0) (b := 64) (by omega) (by omega)
    obtain ⟨t2, e2⟩ := Slice.sub_in c (a := 64) (b := 72) (by omega) (by omega)
    obtain ⟨u2, f2⟩ := Slice.sub_in d (a := 64) (b := 72) (by omega) (by omega)
    obtain ⟨t3, e3⟩ := Slice.sub_in c (a := 72) (b := 88) (by omega) (by omega)
    obtain ⟨u3, f3⟩ := Slice.sub_in d (a := 72) (b := 88) (by omega) (by omega)
    obtain ⟨t4, e4⟩ := Slice.sub_in c (a := 88) (b := 152) (by omega) (by omega)
    obtain ⟨u4, f4⟩ := Slice.sub_in d (a := 88) (b := 152) (by omega) (by omega)
    rw [e1, f1, e2, f2, e3, f3, e4, f4, h]
    simp only [Res.bind_ok]
    rw [pointer_same (c := ⟨_, t3⟩) (d := ⟨_, u3⟩) rfl]

theorem content_same (S : Sha) {c d : Slice} (h : c.vis = d.vis) : toContentInstance S c = toContentInstance S d := by
  unfold toContentInstance
  rw [Slice.len_same h]
  split
  · rfl
  · rename_i hn
    have hl : 73 ≤ c.len := by simpa [minContentSize] using hn
    have hl' : 73 ≤ d.len := by rw [Slice.len_same h]; exact hl
    obtain ⟨t1, e1⟩ := Slice.sub_in c (a := 0) (b := 64) (by omega) (by omega)
    obtain ⟨u1, f1⟩ := Slice.sub_in d (a := 0) (b := 64) (by omega) (by omega)
    obtain ⟨t2, e2⟩ := Slice.sub_in c (a := 64) (b := 72) (by omega) (by omega)
    obtain ⟨u2, f2⟩ := Slice.sub_in d (a := 64) (b := 72) (by omega) (by omega)
    rw [e1, f1, e2, f2, Slice.from_in c (by omega), Slice.from_in d (by omega), h]
    rfl

theorem proof_same {c d : Slice} (h : c.vis = d.vis) {p : Option Int} {r : Slice} (hp : readProof c = .ok (p, r)) :
    ∃ r', readProof d = .ok (p, r') ∧ r.vis = r'.vis := by
  unfold readProof at hp ⊢
  rw [Slice.len_same h]
  by_cases hpos : c.len > 0
  · rw [if_pos hpos] at hp ⊢
    obtain ⟨a, ha, hp⟩ := Res.bind_eq_ok.mp hp
    obtain ⟨a', ha', hv⟩ := Slice.sub_same h (by omega) ha
    rw [ha', Res.bind_ok, ← hv]
    by_cases h0 : a.vis.head? = some 0
    · rw [if_pos h0] at hp ⊢
      obtain ⟨m, hm, hp⟩ := Res.bind_eq_ok.mp hp
      obtain ⟨_, m', hm', hmv⟩ := Slice.from_same h hm
      obtain ⟨l, hl, hp⟩ := Res.bind_eq_ok.mp hp
      obtain ⟨b, hb, hp⟩ := Res.bind_eq_ok.mp hp
      obtain ⟨e, he, hp⟩ := Res.bind_eq_ok.mp hp
      obtain ⟨hlen, e', he', hev⟩ := Slice.from_same hmv he
      obtain ⟨l', hl', hlv⟩ := Slice.sub_same hmv (by omega) hl
      obtain ⟨b', hb', hbv⟩ := Slice.sub_same hmv hlen hb
      rw [hm', Res.bind_ok, hl', Res.bind_ok, ← hlv, hb', Res.bind_ok, he', Res.bind_ok, ← hbv]
      cases hp
      exact ⟨e', rfl, hev⟩
    · rw [if_neg h0] at hp ⊢
      cases hp
      exact ⟨d, rfl, h⟩
  · rw [if_neg hpos] at hp ⊢
    cases hp
    exact ⟨d, rfl, h⟩

theorem parent_same (S : Sha) {c d : Slice} (h : c.vis = d.vis) : readParent S c = readParent S d := by
  unfold readParent
  rw [Slice.len_same h]
  split
  · rename_i hpos
    rw [Slice.from_in c (by omega), Slice.from_in d (by rw [Slice.len_same h]; omega), h]
    rfl
  · rfl

theorem commit_same (S : Sha) (mv : UInt8) {c d : Slice} (h : c.vis = d.vis) {x : Commit} (hx : toCommit S mv c = .ok x) :
    toCommit S mv d = .ok x := by
  unfold toCommit at hx ⊢
  rw [Slice.len_same h]
  split at hx
  · cases hx
  rename_i hmin
  rw [if_neg hmin]
  obtain ⟨t, ht, hx⟩ := Res.bind_eq_ok.mp hx
  obtain ⟨l, hl, hx⟩ := Res.bind_eq_ok.mp hx
  obtain ⟨v, hv, hx⟩ := Res.bind_eq_ok.mp hx
  obtain ⟨values, hvalues, hx⟩ := Res.bind_eq_ok.mp hx
  obtain ⟨r, hr, hx⟩ := Res.bind_eq_ok.mp hx
  obtain ⟨⟨pr, r2⟩, hpr, hx⟩ := Res.bind_eq_ok.mp hx
  obtain ⟨hlen, r', hr', hrv⟩ := Slice.from_same h hr
  obtain ⟨t', ht', htv⟩ := Slice.sub_same h (by omega) ht
  obtain ⟨l', hl', hlv⟩ := Slice.sub_same h (by omega) hl
  obtain ⟨v', hv', hvv⟩ := Slice.sub_same h hlen hv
  obtain ⟨r2', hpr', hr2⟩ := proof_same hrv hpr
  rw [ht', Res.bind_ok, hl', Res.bind_ok, ← hlv, hv', Res.bind_ok, HashTree.tree_same S hvv hvalues, Res.bind_ok, hr',
    Res.bind_ok, hpr', Res.bind_ok, ← parent_same S hr2, ← htv]
  exact hx

theorem commitsLoop_same (S : Sha) (mv : UInt8) {c d : Slice} (h : c.vis = d.vis) (k index : Nat) (hk : c.len - index ≤ k)
    {x : List Commit} (hx : commitsLoop S mv c index = .ok x) :
    index ≤ c.len ∧ commitsLoop S mv d index = .ok x := by
  induction k generalizing index x with
  | zero =>
    rw [commitsLoop] at hx ⊢
    rw [Slice.len_same h]
    split at hx
    · cases hx
    rename_i hlt
    rw [if_neg hlt]
    rw [dif_pos (by omega)] at hx ⊢
    exact ⟨by omega, hx⟩
  | succ k ih =>
    rw [commitsLoop] at hx ⊢
    rw [Slice.len_same h]
    split at hx
    · cases hx
    rename_i hlt
    rw [if_neg hlt]
    by_cases he : c.len = index
    · rw [dif_pos he] at hx ⊢
      exact ⟨by omega, hx⟩
    rw [dif_neg he] at hx ⊢
    obtain ⟨l, hl, hx⟩ := Res.bind_eq_ok.mp hx
    obtain ⟨s, hs, hx⟩ := Res.bind_eq_ok.mp hx
    obtain ⟨y, hy, hx⟩ := Res.bind_eq_ok.mp hx
    obtain ⟨ys, hys, hx⟩ := Res.bind_eq_ok.mp hx
    obtain ⟨hlen, hys'⟩ := ih _ (by omega) hys
    obtain ⟨l', hl', hlv⟩ := Slice.sub_same h (by omega) hl
    obtain ⟨s', hs', hsv⟩ := Slice.sub_same h hlen hs
    rw [hl', Res.bind_ok, ← hlv, hs', Res.bind_ok, commit_same S mv hsv hy, Res.bind_ok, hys', Res.bind_ok]
    exact ⟨by omega, hx⟩

theorem commits_same (S : Sha) (mv : UInt8) {c d : Slice} (h : c.vis = d.vis) {x : Commits}
    (hx : toCommits S mv c = .ok x) : toCommits S mv d = .ok x := by
  unfold toCommits at hx ⊢
  rw [Slice.len_same h]
  split at hx
  · cases hx
  rename_i hmin
  rw [if_neg hmin]
  obtain ⟨l, hl, hx⟩ := Res.bind_eq_ok.mp hx
  rw [(commitsLoop_same S mv h _ _ (Nat.le_refl _) hl).2]
  exact hx

theorem contentsLoop_same (S : Sha) (n : Nat) {c d : Slice} (hn : c.cap ≤ n) (h : c.vis = d.vis) {x : List Content}
    (hx : contentsLoop S c = .ok x) : contentsLoop S d = .ok x := by
  induction n using Nat.strongRecOn generalizing c d x with
  | _ n ih =>
    rw [contentsLoop_eq] at hx ⊢
    rw [Slice.len_same h]
    by_cases hpos : c.len ≤ 0
    · rw [if_pos hpos] at hx ⊢
      exact hx
    rw [if_neg hpos] at hx ⊢
    obtain ⟨l, hl, hx⟩ := Res.bind_eq_ok.mp hx
    obtain ⟨s, hs, hx⟩ := Res.bind_eq_ok.mp hx
    obtain ⟨y, hy, hx⟩ := Res.bind_eq_ok.mp hx
    obtain ⟨r, hr, hx⟩ := Res.bind_eq_ok.mp hx
    obtain ⟨ys, hys, hx⟩ := Res.bind_eq_ok.mp hx
    obtain ⟨hlen, r', hr', hrv⟩ := Slice.from_same h hr
    obtain ⟨l', hl', hlv⟩ := Slice.sub_same h (by omega) hl
    obtain ⟨s', hs', hsv⟩ := Slice.sub_same h hlen hs
    have hc := Slice.from_cap hr
    rw [hl', Res.bind_ok, ← hlv, hs', Res.bind_ok, ← content_same S hsv, hy, Res.bind_ok, hr', Res.bind_ok,
      ih r.cap (by omega) (Nat.le_refl _) hrv hys]
    exact hx

theorem contents_same (S : Sha) {c d : Slice} (h : c.vis = d.vis) {x : List Content}
    (hx : toContentsInstance S c = .ok x) : toContentsInstance S d = .ok x := by
  unfold toContentsInstance at hx ⊢
  rw [Slice.len_same h]
  split at hx
  · cases hx
  rename_i hmin
  rw [if_neg hmin]
  obtain ⟨l, hl, hx⟩ := Res.bind_eq_ok.mp hx
  rw [contentsLoop_same S _ (Nat.le_refl _) h hl]
  exact hx

theorem keysLoop_buffer (S : Sha) {c d : Slice} (h : c.vis ++ c.tail = d.vis ++ d.tail) (n i : Nat) :
    contentKeysLoop S c n i = contentKeysLoop S d n i := by
  induction n generalizing i with
  | zero => rfl
  | succ n ih => simp only [contentKeysLoop, HashTree.sub_buffer h, ih]

theorem keys_buffer (S : Sha) {c d : Slice} (h : c.vis ++ c.tail = d.vis ++ d.tail) (hc : 160 ≤ c.len) (hd : 160 ≤ d.len) :
    toContentKeys S c = toContentKeys S d := by
  unfold toContentKeys
  rw [if_neg (by simp [contentKeySize]; omega), if_neg (by simp [contentKeySize]; omega)]
  simp only [HashTree.sub_buffer h, keysLoop_buffer S h]

end Rodkina.Ref
