import Verif.CrashSpec
import Verif.DecodeLemmas
/-!
# The decoder of hash trees accepts, refuses and crashes exactly on the bytes of the specification
-/

namespace Rodkina

open DecodeSpec CrashSpec

/-- The outcome is one of the accepted, without its value. -/
def Res.accepts {α : Type} (r : Res α) : Prop := ∃ x, r = .ok x

/-- `s[8:8+n]` after a length field. -/
theorem Slice.sub_after (n k : Nat) (rest t : Bytes) : Slice.sub ⟨le64 k ++ rest, t⟩ 8 (8 + n) =
    if rest.length + t.length < n then .panic else .ok ⟨(rest ++ t).take n, (rest ++ t).drop n⟩ := by
  unfold Slice.sub Slice.cap
  simp only [List.length_append, le64_length]
  by_cases h : rest.length + t.length < n
  · rw [if_neg (by omega), if_pos h]
  · rw [if_pos (by omega), if_neg h]
    congr 2
    · rw [List.append_assoc, List.drop_append_of_le_length (by simp), List.drop_of_length_le (by simp), List.nil_append]
      simp
    · rw [List.append_assoc, List.drop_append, List.drop_of_length_le (by simp), List.nil_append]
      simp

theorem Slice.sub_field (k : Nat) (rest t : Bytes) : Slice.sub ⟨le64 k ++ rest, t⟩ 0 8 = .ok ⟨le64 k, rest ++ t⟩ := by
  have := Slice.sub_zero_append (le64 k) rest t
  simpa using this

theorem Slice.from_after (n k : Nat) (rest t : Bytes) : Slice.from' ⟨le64 k ++ rest, t⟩ (n + 8) =
    if rest.length < n then .panic else .ok ⟨rest.drop n, t⟩ := by
  unfold Slice.from' Slice.len
  simp only [List.length_append, le64_length]
  by_cases h : rest.length < n
  · rw [if_neg (by omega), if_pos h]
  · rw [if_pos (by omega), if_neg h]
    congr 2

namespace HashTree

theorem parentLeaf_field (S : Sha) (n : Nat) (hn : n < 2 ^ 64) (rest t : Bytes) (h : 120 ≤ rest.length) :
    contentToParentLeaf S ⟨le64 n ++ rest, t⟩ =
      if rest.length + t.length < n then .panic else (do
        let left ← contentToLeaf S ⟨(rest ++ t).take n, (rest ++ t).drop n⟩
        if rest.length < n then .panic else do
          let right ← contentToLeaf S ⟨rest.drop n, t⟩
          pure (left, right)) := by
  rw [contentToParentLeaf_eq, if_neg (by simp [Slice.len, minParentLeaf]; omega), Slice.sub_field]
  simp only [Res.bind_ok, leNat_le64 n hn, Slice.sub_after, Slice.from_after]
  split
  · rfl
  · simp only [Res.bind_ok]
    cases contentToLeaf S ⟨(rest ++ t).take n, (rest ++ t).drop n⟩ with
    | ok l =>
      simp only [Res.bind_ok]
      split <;> rfl
    | err => rfl
    | panic => rfl

theorem leaf_short (S : Sha) (b t : Bytes) (h : b.length < 64) : contentToLeaf S ⟨b, t⟩ = .err := by
  rw [contentToLeaf_eq, if_pos (by simpa [Slice.len, minLeafSize] using h)]

theorem leaf_head (S : Sha) (head inner t : Bytes) (h : head.length = 64) :
    contentToLeaf S ⟨head ++ inner, t⟩ = if inner = [] then .ok (.base (Hash.fromBytes S head)) else (do
      let p ← contentToParentLeaf S ⟨inner, t⟩
      pure (.node (Hash.fromBytes S head) p.1 p.2)) := by
  rw [contentToLeaf_eq, if_neg (by simp [Slice.len, minLeafSize]; omega)]
  have e1 := Slice.sub_zero_append head inner t
  have e2 := Slice.from_append head inner t
  rw [h] at e1 e2
  rw [e1, e2]
  simp only [Res.bind_ok]
  by_cases hi : inner = []
  · subst hi
    rw [if_neg (show ¬ Slice.len ⟨[], t⟩ > 0 by simp [Slice.len]), if_pos rfl]
    rfl
  · rw [if_pos (show Slice.len ⟨inner, t⟩ > 0 from List.length_pos_iff.2 hi), if_neg hi]

theorem pair_short (S : Sha) (b t : Bytes) (h : b.length < 128) : contentToParentLeaf S ⟨b, t⟩ = .err := by
  rw [contentToParentLeaf_eq, if_pos (by simpa [Slice.len, minParentLeaf] using h)]

theorem _root_.Rodkina.CrashSpec.LeafBytes.length {b : Bytes} (h : LeafBytes b) : 64 ≤ b.length := by
  cases h with
  | bottom h => omega
  | inner => simp only [List.length_append]; omega

theorem _root_.Rodkina.CrashSpec.PairCrashes.length {b t : Bytes} (h : PairCrashes b t) : 128 ≤ b.length := by
  induction h with
  | far => simp; omega
  | left => simp; omega
  | past => simp; omega
  | right n behind left head inner hn hl hb h64 hi ih => simp; omega

/-- The bytes of a pair of leaves. -/
def PairBytes (b : Bytes) : Prop := ∃ left right, left.length < 2 ^ 64 ∧ LeafBytes left ∧ LeafBytes right ∧
  b = le64 left.length ++ (left ++ right)

theorem pairBytes_field {n : Nat} (hn : n < 2 ^ 64) (rest : Bytes) :
    PairBytes (le64 n ++ rest) ↔ n ≤ rest.length ∧ LeafBytes (rest.take n) ∧ LeafBytes (rest.drop n) := by
  constructor
  · rintro ⟨l, r, hl, h1, h2, he⟩
    obtain ⟨e1, rfl⟩ := List.append_inj he (by simp)
    have := le64_inj hn hl e1
    subst this
    simp [h1, h2]
  · rintro ⟨hle, h1, h2⟩
    have : (rest.take n).length = n := by simp; omega
    refine ⟨rest.take n, rest.drop n, by omega, h1, h2, ?_⟩
    rw [this, List.take_append_drop]

theorem leafBytes_head {head : Bytes} (h : head.length = 64) (inner : Bytes) :
    LeafBytes (head ++ inner) ↔ inner = [] ∨ PairBytes inner := by
  constructor
  · intro hb
    generalize e : head ++ inner = b at hb
    cases hb with
    | bottom hd h' =>
      subst e
      left
      simp at h'
      exact List.length_eq_zero_iff.1 (by omega)
    | inner hd l r h' hl h1 h2 =>
      obtain ⟨rfl, rfl⟩ := List.append_inj e (by omega)
      exact .inr ⟨l, r, hl, h1, h2, rfl⟩
  · rintro (rfl | ⟨l, r, hl, h1, h2, rfl⟩)
    · simpa using LeafBytes.bottom head h
    · exact .inner head l r h hl h1 h2

theorem leafCrashes_head {head : Bytes} (h : head.length = 64) (inner t : Bytes) :
    LeafCrashes (head ++ inner) t ↔ PairCrashes inner t := by
  constructor
  · rintro ⟨hd, i, h', he, hp⟩
    obtain ⟨rfl, rfl⟩ := List.append_inj he (by omega)
    exact hp
  · exact fun hp => ⟨head, inner, h, rfl, hp⟩

theorem pairCrashes_field {n : Nat} (hn : n < 2 ^ 64) (rest t : Bytes) (h : 120 ≤ rest.length) :
    PairCrashes (le64 n ++ rest) t ↔ rest.length + t.length < n ∨ n ≤ rest.length + t.length ∧
      (LeafCrashes ((rest ++ t).take n) ((rest ++ t).drop n) ∨
        LeafBytes ((rest ++ t).take n) ∧ (rest.length < n ∨ n ≤ rest.length ∧ LeafCrashes (rest.drop n) t)) := by
  constructor
  · intro hp
    generalize e : le64 n ++ rest = b at hp
    cases hp with
    | far m r _ hm hr hlt =>
      obtain ⟨e1, rfl⟩ := List.append_inj e (by simp)
      have := le64_inj hn hm e1
      subst this
      exact .inl hlt
    | left m r _ head inner more hm hr hl he h64 hi =>
      obtain ⟨e1, rfl⟩ := List.append_inj e (by simp)
      have := le64_inj hn hm e1
      subst this
      refine .inr ⟨?_, .inl ?_⟩
      · have := congrArg List.length he
        simp at this hl
        omega
      · rw [he, hl, List.take_left, List.drop_left]
        exact ⟨head, inner, h64, rfl, hi⟩
    | past m r _ l more hm hr hl he hb hlt =>
      obtain ⟨e1, rfl⟩ := List.append_inj e (by simp)
      have := le64_inj hn hm e1
      subst this
      refine .inr ⟨?_, .inr ⟨?_, .inl hlt⟩⟩
      · have := congrArg List.length he
        simp at this
        omega
      · rw [he, hl, List.take_left]
        exact hb
    | right m _ l head inner hm hl hb h64 hi =>
      obtain ⟨e1, rfl⟩ := List.append_inj e (by simp)
      have := le64_inj hn hm e1
      subst this
      refine .inr ⟨by simp; omega, .inr ⟨?_, .inr ⟨by simp; omega, ?_⟩⟩⟩
      · rw [List.append_assoc, hl, List.take_left]
        exact hb
      · rw [hl, List.drop_left]
        exact ⟨head, inner, h64, rfl, hi⟩
  · rintro (hlt | ⟨hle, hc | ⟨hb, hlt | ⟨hle', hc⟩⟩⟩)
    · exact .far n rest t hn h hlt
    · obtain ⟨head, inner, h64, he, hi⟩ := hc
      have hl : ((rest ++ t).take n).length = n := by simp; omega
      refine .left n rest t head inner _ hn h ?_ ?_ h64 hi
      · rw [← he, hl]
      · rw [← he, List.take_append_drop]
    · refine .past n rest t _ _ hn h ?_ (List.take_append_drop n (rest ++ t)).symm hb hlt
      simp; omega
    · obtain ⟨head, inner, h64, he, hi⟩ := hc
      have hl : (rest.take n).length = n := by simp; omega
      rw [List.take_append_of_le_length hle'] at hb
      have := PairCrashes.right n t (rest.take n) head inner hn hl.symm hb h64 hi
      rw [← he, List.take_append_drop] at this
      exact this

/-- What the two outcomes are, for leaves and pairs. -/
theorem leaf_outcomes (S : Sha) : ∀ (k : Nat) (b t : Bytes), b.length + t.length ≤ k →
    ((contentToLeaf S ⟨b, t⟩).accepts ↔ LeafBytes b) ∧ (contentToLeaf S ⟨b, t⟩ = .panic ↔ LeafCrashes b t) ∧
    ((contentToParentLeaf S ⟨b, t⟩).accepts ↔ PairBytes b) ∧ (contentToParentLeaf S ⟨b, t⟩ = .panic ↔ PairCrashes b t) := by
  intro k
  induction k with
  | zero =>
    intro b t hk
    have hb : b = [] := List.length_eq_zero_iff.1 (by omega)
    subst hb
    rw [leaf_short S [] t (by decide), pair_short S [] t (by decide)]
    refine ⟨⟨?_, ?_⟩, ⟨?_, ?_⟩, ⟨?_, ?_⟩, ⟨?_, ?_⟩⟩
    · rintro ⟨x, h⟩; cases h
    · intro h; have := h.length; simp at this
    · intro h; cases h
    · rintro ⟨head, inner, h64, he, _⟩
      have := congrArg List.length he
      simp at this; omega
    · rintro ⟨x, h⟩; cases h
    · rintro ⟨l, r, _, _, _, he⟩
      have := congrArg List.length he
      simp at this
      omega
    · intro h; cases h
    · intro h; have := PairCrashes.length h; simp at this
  | succ k ih =>
    intro b t hk
    suffices hs : ((contentToLeaf S ⟨b, t⟩).accepts ↔ LeafBytes b) ∧ (contentToLeaf S ⟨b, t⟩ = .panic ↔ LeafCrashes b t) by
      refine ⟨hs.1, hs.2, ?_⟩
      clear hs
      by_cases h128 : b.length < 128
      · rw [pair_short S b t h128]
        refine ⟨⟨?_, ?_⟩, ⟨?_, ?_⟩⟩
        · rintro ⟨x, h⟩; cases h
        · rintro ⟨l, r, _, h1, h2, rfl⟩
          have := h1.length
          have := h2.length
          simp at h128; omega
        · intro h; cases h
        · intro h; have := PairCrashes.length h; omega
      · obtain ⟨hs, hn⟩ := split_length b (by omega)
        generalize leNat (b.take 8) = n at hs hn
        have hr : 120 ≤ (b.drop 8).length := by simp; omega
        have hlb : b.length = 8 + (b.drop 8).length := by simp; omega
        generalize b.drop 8 = rest at hs hr hlb
        subst hs
        rw [parentLeaf_field S n hn rest t hr, pairBytes_field hn, pairCrashes_field hn rest t hr]
        by_cases hfar : rest.length + t.length < n
        · rw [if_pos hfar]
          refine ⟨⟨?_, ?_⟩, ⟨fun _ => .inl hfar, fun _ => rfl⟩⟩
          · rintro ⟨x, h⟩; cases h
          · rintro ⟨h, _⟩; omega
        · rw [if_neg hfar]
          have hL := ih ((rest ++ t).take n) ((rest ++ t).drop n) (by simp; omega)
          cases eL : contentToLeaf S ⟨(rest ++ t).take n, (rest ++ t).drop n⟩ with
          | err =>
            rw [eL] at hL
            have h1 : ¬ LeafBytes ((rest ++ t).take n) := fun h => by
              obtain ⟨x, hx⟩ := hL.1.2 h; cases hx
            have h2 : ¬ LeafCrashes ((rest ++ t).take n) ((rest ++ t).drop n) := fun h => by
              have := hL.2.1.2 h; cases this
            refine ⟨⟨?_, ?_⟩, ⟨?_, ?_⟩⟩
            · rintro ⟨x, h⟩; cases h
            · rintro ⟨hle, h, _⟩
              rw [List.take_append_of_le_length hle] at h1
              exact absurd h h1
            · intro h; cases h
            · rintro (h | ⟨_, h | ⟨h, _⟩⟩)
              · omega
              · exact absurd h h2
              · exact absurd h h1
          | panic =>
            rw [eL] at hL
            have h1 : ¬ LeafBytes ((rest ++ t).take n) := fun h => by
              obtain ⟨x, hx⟩ := hL.1.2 h; cases hx
            refine ⟨⟨?_, ?_⟩, ⟨fun _ => .inr ⟨by omega, .inl (hL.2.1.1 rfl)⟩, fun _ => rfl⟩⟩
            · rintro ⟨x, h⟩; cases h
            · rintro ⟨hle, h, _⟩
              rw [List.take_append_of_le_length hle] at h1
              exact absurd h h1
          | ok left =>
            rw [eL] at hL
            have h1 : LeafBytes ((rest ++ t).take n) := hL.1.1 ⟨_, rfl⟩
            have h2 : ¬ LeafCrashes ((rest ++ t).take n) ((rest ++ t).drop n) := fun h => by
              have := hL.2.1.2 h; cases this
            simp only [Res.bind_ok]
            by_cases hpast : rest.length < n
            · rw [if_pos hpast]
              refine ⟨⟨?_, ?_⟩, ⟨fun _ => .inr ⟨by omega, .inr ⟨h1, .inl hpast⟩⟩, fun _ => rfl⟩⟩
              · rintro ⟨x, h⟩; cases h
              · rintro ⟨h, _⟩; omega
            · rw [if_neg hpast]
              have hR := ih (rest.drop n) t (by simp; omega)
              have h1' := h1
              rw [List.take_append_of_le_length (by omega)] at h1'
              cases eR : contentToLeaf S ⟨rest.drop n, t⟩ with
              | err =>
                rw [eR] at hR
                refine ⟨⟨?_, ?_⟩, ⟨?_, ?_⟩⟩
                · rintro ⟨x, h⟩; cases h
                · rintro ⟨_, _, h⟩
                  obtain ⟨x, hx⟩ := hR.1.2 h; cases hx
                · intro h; cases h
                · rintro (h | ⟨_, h | ⟨_, h | ⟨_, h⟩⟩⟩)
                  · omega
                  · exact absurd h h2
                  · omega
                  · have := hR.2.1.2 h; cases this
              | panic =>
                rw [eR] at hR
                refine ⟨⟨?_, ?_⟩, ⟨fun _ => .inr ⟨by omega, .inr ⟨h1, .inr ⟨by omega, hR.2.1.1 rfl⟩⟩⟩, fun _ => rfl⟩⟩
                · rintro ⟨x, h⟩; cases h
                · rintro ⟨_, _, h⟩
                  obtain ⟨x, hx⟩ := hR.1.2 h; cases hx
              | ok right =>
                rw [eR] at hR
                refine ⟨⟨fun _ => ⟨by omega, h1', hR.1.1 ⟨_, rfl⟩⟩, fun _ => ⟨_, rfl⟩⟩, ⟨?_, ?_⟩⟩
                · intro h; cases h
                · rintro (h | ⟨_, h | ⟨_, h | ⟨_, h⟩⟩⟩)
                  · omega
                  · exact absurd h h2
                  · omega
                  · have := hR.2.1.2 h; cases this
    by_cases h64 : b.length < 64
    · rw [leaf_short S b t h64]
      refine ⟨⟨?_, ?_⟩, ⟨?_, ?_⟩⟩
      · rintro ⟨x, h⟩; cases h
      · intro h; have := h.length; omega
      · intro h; cases h
      · rintro ⟨head, inner, h', rfl, _⟩
        simp at h64; omega
    · have hh : (b.take 64).length = 64 := by simp; omega
      have he : b = b.take 64 ++ b.drop 64 := (List.take_append_drop _ _).symm
      have hl : b.length = 64 + (b.drop 64).length := by simp; omega
      generalize b.take 64 = head at he hh
      generalize b.drop 64 = inner at he hl
      subst he
      rw [leaf_head S head inner t hh, leafBytes_head hh, leafCrashes_head hh]
      by_cases hi : inner = []
      · subst hi
        rw [if_pos rfl]
        refine ⟨⟨fun _ => .inl rfl, fun _ => ⟨_, rfl⟩⟩, ⟨?_, ?_⟩⟩
        · intro h; cases h
        · intro h; have := PairCrashes.length h; simp at this
      · rw [if_neg hi]
        have hP := (ih inner t (by omega)).2.2
        cases eP : contentToParentLeaf S ⟨inner, t⟩ with
        | err =>
          rw [eP] at hP
          refine ⟨⟨?_, ?_⟩, ⟨?_, fun h => ?_⟩⟩
          · rintro ⟨x, h⟩; cases h
          · rintro (h | h)
            · exact absurd h hi
            · obtain ⟨x, hx⟩ := hP.1.2 h; cases hx
          · intro h; cases h
          · have := hP.2.2 h; cases this
        | panic =>
          rw [eP] at hP
          refine ⟨⟨?_, ?_⟩, ⟨fun _ => hP.2.1 rfl, fun _ => rfl⟩⟩
          · rintro ⟨x, h⟩; cases h
          · rintro (h | h)
            · exact absurd h hi
            · obtain ⟨x, hx⟩ := hP.1.2 h; cases hx
        | ok p =>
          rw [eP] at hP
          refine ⟨⟨fun _ => .inr (hP.1.1 ⟨_, rfl⟩), fun _ => ⟨_, rfl⟩⟩, ⟨?_, fun h => ?_⟩⟩
          · intro h; cases h
          · have := hP.2.2 h; cases this

theorem leaf_accepts (S : Sha) (b t : Bytes) : (contentToLeaf S ⟨b, t⟩).accepts ↔ LeafBytes b := (leaf_outcomes S _ b t (le_refl _)).1

theorem leaf_crashes (S : Sha) (b t : Bytes) : contentToLeaf S ⟨b, t⟩ = .panic ↔ LeafCrashes b t :=
  (leaf_outcomes S _ b t (le_refl _)).2.1

theorem tree_outcomes (S : Sha) (b t : Bytes) :
    ((toHashTree S ⟨b, t⟩).accepts ↔ TreeBytes b) ∧ (toHashTree S ⟨b, t⟩ = .panic ↔ TreeCrashes b t) := by
  unfold toHashTree
  by_cases h192 : b.length < 192
  · rw [if_pos (by simpa [Slice.len, minHashtreeSize] using h192)]
    refine ⟨⟨?_, ?_⟩, ⟨?_, ?_⟩⟩
    · rintro ⟨x, h⟩; cases h
    · rintro ⟨hd, l, r, h64, _, h1, h2, rfl⟩
      have := h1.length
      have := h2.length
      simp at h192; omega
    · intro h; cases h
    · rintro ⟨head, inner, h', rfl, hp⟩
      have := PairCrashes.length hp
      simp at h192; omega
  · rw [if_neg (by simpa [Slice.len, minHashtreeSize] using h192)]
    have hh : (b.take 64).length = 64 := by simp; omega
    have he : b = b.take 64 ++ b.drop 64 := (List.take_append_drop _ _).symm
    generalize b.take 64 = head at he hh
    generalize b.drop 64 = inner at he
    subst he
    have e1 := Slice.sub_zero_append head inner t
    have e2 := Slice.from_append head inner t
    rw [hh] at e1 e2
    rw [e1, e2]
    simp only [Res.bind_ok]
    have hP := (leaf_outcomes S _ inner t (le_refl _)).2.2
    have hT : TreeBytes (head ++ inner) ↔ PairBytes inner := by
      constructor
      · rintro ⟨hd, l, r, h', hl, h1, h2, he⟩
        obtain ⟨rfl, rfl⟩ := List.append_inj he (by omega)
        exact ⟨l, r, hl, h1, h2, rfl⟩
      · rintro ⟨l, r, hl, h1, h2, rfl⟩
        exact ⟨head, l, r, hh, hl, h1, h2, rfl⟩
    unfold TreeCrashes
    rw [hT, leafCrashes_head hh, ← hP.1, ← hP.2]
    cases contentToParentLeaf S ⟨inner, t⟩ with
    | err => exact ⟨⟨fun ⟨_, h⟩ => (by cases h), fun ⟨_, h⟩ => (by cases h)⟩, ⟨fun h => (by cases h), fun h => (by cases h)⟩⟩
    | panic => exact ⟨⟨fun ⟨_, h⟩ => (by cases h), fun ⟨_, h⟩ => (by cases h)⟩, ⟨fun _ => rfl, fun _ => rfl⟩⟩
    | ok p => exact ⟨⟨fun _ => ⟨_, rfl⟩, fun _ => ⟨_, rfl⟩⟩, ⟨fun h => (by cases h), fun h => (by cases h)⟩⟩

end HashTree
end Rodkina
