import Verif.DecodeSpec
import Verif.ReferencesLemmas
/-!
# A decoder that panics has read a length that is too large
-/

namespace Rodkina

open DecodeSpec

theorem Slice.sub_in (c : Slice) {a b : Nat} (h : a ≤ b) (hb : b ≤ c.len) :
    ∃ t, c.sub a b = .ok ⟨(c.vis.drop a).take (b - a), t⟩ := by
  unfold Slice.sub
  unfold Slice.len at hb
  rw [if_pos ⟨h, by unfold Slice.cap; omega⟩]
  refine ⟨(c.vis ++ c.tail).drop b, ?_⟩
  congr 2
  rw [List.drop_append, List.take_append_of_le_length (by rw [List.length_drop]; omega)]

theorem Slice.from_in (c : Slice) {a : Nat} (h : a ≤ c.len) : c.from' a = .ok ⟨c.vis.drop a, c.tail⟩ := by
  unfold Slice.from'
  rw [if_pos h]

theorem Slice.sub_never_err (c : Slice) (a b : Nat) : c.sub a b ≠ .err := by
  unfold Slice.sub
  split <;> simp

/-- The first 8 bytes are a length field. -/
theorem split_length (b : Bytes) (h : 8 ≤ b.length) : b = le64 (leNat (b.take 8)) ++ b.drop 8 ∧ leNat (b.take 8) < 2 ^ 64 := by
  have h8 : (b.take 8).length = 8 := by rw [List.length_take]; omega
  refine ⟨?_, ?_⟩
  · rw [le64_leNat _ h8, List.take_append_drop]
  · have := leNat_lt (b.take 8)
    rw [h8] at this
    exact this

namespace HashTree

theorem overrun_of_panic (S : Sha) : ∀ (k : Nat) (c : Slice), c.cap ≤ k →
    (contentToLeaf S c = .panic → ∃ head inner, head.length = 64 ∧ c.vis = head ++ inner ∧ PairOverruns inner) ∧
    (contentToParentLeaf S c = .panic → PairOverruns c.vis) := by
  intro k
  induction k with
  | zero =>
    intro c hc
    have hl : c.len = 0 := by unfold Slice.cap at hc; unfold Slice.len; omega
    constructor
    · intro h
      rw [contentToLeaf_eq, if_pos (by rw [hl]; decide)] at h
      cases h
    · intro h
      rw [contentToParentLeaf_eq, if_pos (by rw [hl]; decide)] at h
      cases h
  | succ k ih =>
    intro c hc
    constructor
    · intro h
      rw [contentToLeaf_eq] at h
      split at h
      · cases h
      · rename_i hlen
        unfold minLeafSize at hlen
        obtain ⟨t, e1⟩ := c.sub_in (a := 0) (b := 64) (by omega) (by omega)
        have e2 := c.from_in (a := 64) (by omega)
        have hcap := Slice.from_cap e2
        rw [e1, e2] at h
        simp only [Res.bind_ok] at h
        split at h
        · refine ⟨c.vis.take 64, c.vis.drop 64, ?_, (List.take_append_drop _ _).symm, ?_⟩
          · unfold Slice.len at hlen
            rw [List.length_take]
            omega
          · refine (ih ⟨c.vis.drop 64, c.tail⟩ (by omega)).2 ?_
            cases hp : contentToParentLeaf S ⟨c.vis.drop 64, c.tail⟩ with
            | ok p => rw [hp] at h; cases h
            | err => rw [hp] at h; cases h
            | panic => rfl
        · cases h
    · intro h
      rw [contentToParentLeaf_eq] at h
      split at h
      · cases h
      · rename_i hlen
        unfold minParentLeaf at hlen
        obtain ⟨t, e1⟩ := c.sub_in (a := 0) (b := 8) (by omega) (by omega)
        obtain ⟨hs, hn⟩ := split_length c.vis (by unfold Slice.len at hlen; omega)
        rw [e1] at h
        simp only [Res.bind_ok, List.drop_zero, Nat.sub_zero] at h
        generalize leNat (c.vis.take 8) = n at h hs hn
        by_cases hover : (c.vis.drop 8).length < n
        · rw [hs]
          exact .here _ _ hn hover
        · have hfit : 8 + n ≤ c.len := by
            unfold Slice.len at hlen ⊢
            rw [List.length_drop] at hover
            omega
          obtain ⟨t', e2⟩ := c.sub_in (a := 8) (b := 8 + n) (by omega) hfit
          have e3 := c.from_in (a := n + 8) (by omega)
          have c2 := Slice.sub_cap e2
          have c3 := Slice.from_cap e3
          rw [e2] at h
          simp only [Res.bind_ok, Nat.add_sub_cancel_left] at h
          rw [Nat.add_sub_cancel_left] at c2
          have hl : ((c.vis.drop 8).take n).length = n := by
            rw [List.length_take]
            omega
          cases hL : contentToLeaf S ⟨(c.vis.drop 8).take n, t'⟩ with
          | err => rw [hL] at h; cases h
          | panic =>
            obtain ⟨head, inner, h64, he, hi⟩ := (ih _ (by omega)).1 hL
            have he : (c.vis.drop 8).take n = head ++ inner := he
            rw [hs, ← List.take_append_drop n (c.vis.drop 8), he]
            exact .left _ _ _ _ hn h64 (by rw [← he, hl]) hi
          | ok l =>
            rw [hL, e3] at h
            simp only [Res.bind_ok] at h
            cases hR : contentToLeaf S ⟨c.vis.drop (n + 8), c.tail⟩ with
            | ok r => rw [hR] at h; cases h
            | err => rw [hR] at h; cases h
            | panic =>
              obtain ⟨head, inner, h64, he, hi⟩ := (ih _ (by omega)).1 hR
              have he : c.vis.drop (n + 8) = head ++ inner := he
              rw [hs, ← List.take_append_drop n (c.vis.drop 8), List.drop_drop, Nat.add_comm 8 n, he]
              exact .right _ _ _ _ hn hl.symm h64 hi

theorem toHashTree_panic (S : Sha) (c : Slice) (h : toHashTree S c = .panic) : TreeOverruns c.vis := by
  unfold toHashTree at h
  split at h
  · cases h
  · rename_i hlen
    unfold minHashtreeSize at hlen
    obtain ⟨t, e1⟩ := c.sub_in (a := 0) (b := 64) (by omega) (by omega)
    have e2 := c.from_in (a := 64) (by omega)
    rw [e1, e2] at h
    simp only [Res.bind_ok] at h
    refine ⟨c.vis.take 64, c.vis.drop 64, ?_, (List.take_append_drop _ _).symm, ?_⟩
    · unfold Slice.len at hlen
      rw [List.length_take]
      omega
    · refine (overrun_of_panic S _ ⟨c.vis.drop 64, c.tail⟩ (le_refl _)).2 ?_
      cases hp : contentToParentLeaf S ⟨c.vis.drop 64, c.tail⟩ with
      | ok p => rw [hp] at h; cases h
      | err => rw [hp] at h; cases h
      | panic => rfl

end HashTree

namespace Ref

theorem toContentKey_no_panic (S : Sha) (c : Slice) : toContentKey S c ≠ .panic := by
  unfold toContentKey
  split
  · simp
  · rename_i h
    have h : c.len = 152 := by simpa [contentKeySize] using h
    obtain ⟨t1, e1⟩ := c.sub_in (a := 0) (b := 64) (by omega) (by omega)
    obtain ⟨t2, e2⟩ := c.sub_in (a := 64) (b := 72) (by omega) (by omega)
    obtain ⟨t3, e3⟩ := c.sub_in (a := 72) (b := 88) (by omega) (by omega)
    obtain ⟨t4, e4⟩ := c.sub_in (a := 88) (b := 152) (by omega) (by omega)
    rw [e1, e2, e3, e4]
    simp only [Res.bind_ok]
    have hp : toPointer ⟨(c.vis.drop 72).take (88 - 72), t3⟩ ≠ .panic := by
      unfold toPointer
      split
      · simp
      · rename_i h'
        have h' : Slice.len ⟨(c.vis.drop 72).take (88 - 72), t3⟩ = 16 := by simpa [pointerSize] using h'
        obtain ⟨t5, e5⟩ := Slice.sub_in ⟨(c.vis.drop 72).take (88 - 72), t3⟩ (a := 0) (b := 8) (by omega) (by omega)
        have e6 := Slice.from_in ⟨(c.vis.drop 72).take (88 - 72), t3⟩ (a := 8) (by omega)
        rw [e5, e6]
        simp only [Res.bind_ok]
        unfold pointerNow
        repeat' split
        all_goals simp
    cases hx : toPointer ⟨(c.vis.drop 72).take (88 - 72), t3⟩ with
    | ok p => simp [Res.pure_eq]
    | err => simp [Bind.bind, Res.bind]
    | panic => exact absurd hx hp

theorem contentKeysLoop_no_panic (S : Sha) (c : Slice) : ∀ n i, 8 + (i + n) * 152 ≤ c.len → contentKeysLoop S c n i ≠ .panic
  | 0, i, _ => by simp [contentKeysLoop]
  | n + 1, i, h => by
    have h1 : 8 + i * 152 + 152 ≤ c.len := by omega
    obtain ⟨t, e⟩ := c.sub_in (a := 8 + i * 152) (b := 8 + i * 152 + 152) (by omega) h1
    have ih := contentKeysLoop_no_panic S c n (i + 1) (by omega)
    unfold contentKeysLoop
    rw [show contentKeySize = 152 from rfl, e]
    simp only [Res.bind_ok]
    have hk := toContentKey_no_panic S ⟨(c.vis.drop (8 + i * 152)).take (8 + i * 152 + 152 - (8 + i * 152)), t⟩
    cases hx : toContentKey S ⟨(c.vis.drop (8 + i * 152)).take (8 + i * 152 + 152 - (8 + i * 152)), t⟩ with
    | panic => exact absurd hx hk
    | err => simp [Bind.bind, Res.bind]
    | ok x =>
      simp only [Res.bind_ok]
      cases hy : contentKeysLoop S c n (i + 1) with
      | panic => exact absurd hy ih
      | err => simp [Bind.bind, Res.bind]
      | ok r => simp [Res.pure_eq]

theorem toContentKeys_panic (S : Sha) (c : Slice) (h : toContentKeys S c = .panic) : KeysOverrun c.vis := by
  unfold toContentKeys at h
  split at h
  · cases h
  · rename_i hlen
    have hlen : 8 ≤ c.len := by
      unfold contentKeySize at hlen
      omega
    obtain ⟨t, e⟩ := c.sub_in (a := 0) (b := 8) (by omega) hlen
    obtain ⟨hs, hn⟩ := split_length c.vis hlen
    rw [e] at h
    simp only [Res.bind_ok, List.drop_zero, Nat.sub_zero] at h
    refine ⟨_, _, hn, hs, ?_⟩
    generalize leNat (c.vis.take 8) = n at h hs hn
    by_contra hc
    have hnow : ∀ l, contentKeysNow l ≠ .panic := by
      intro l
      unfold contentKeysNow
      split <;> simp
    by_cases h63 : n < 2 ^ 63
    · rw [if_pos h63] at h
      have hk := contentKeysLoop_no_panic S c n 0 (by
        rw [List.length_drop] at hc
        unfold Slice.len at hlen ⊢
        omega)
      cases hx : contentKeysLoop S c n 0 with
      | panic => exact hk hx
      | err => rw [hx] at h; cases h
      | ok l => rw [hx] at h; exact hnow l h
    · rw [if_neg h63] at h
      exact hnow [] h

theorem readProof_panic (c : Slice) (h : readProof c = .panic) : ProofOverruns c.vis := by
  unfold readProof at h
  split at h
  · rename_i hlen
    obtain ⟨t, e⟩ := c.sub_in (a := 0) (b := 1) (by omega) (by omega)
    rw [e] at h
    simp only [Res.bind_ok, List.drop_zero, Nat.sub_zero] at h
    obtain ⟨vis, tail⟩ := c
    cases vis with
    | nil => simp [Slice.len] at hlen
    | cons x r =>
      simp only [List.take_succ_cons, List.take_zero, List.head?_cons, Option.some.injEq] at h
      split at h
      · rename_i hx
        subst hx
        refine ⟨r, rfl, ?_⟩
        have e1 := Slice.from_in ⟨(0 : UInt8) :: r, tail⟩ (a := 1) (by omega)
        simp only [List.drop_succ_cons, List.drop_zero] at e1
        rw [e1] at h
        simp only [Res.bind_ok] at h
        by_cases h8 : r.length < 8
        · exact .inl h8
        · right
          obtain ⟨t2, e2⟩ := Slice.sub_in ⟨r, tail⟩ (a := 0) (b := 8) (by omega) (by show 8 ≤ r.length; omega)
          obtain ⟨hs, hn⟩ := split_length r (by omega)
          rw [e2] at h
          simp only [Res.bind_ok, List.drop_zero, Nat.sub_zero] at h
          refine ⟨_, _, hn, hs, ?_⟩
          generalize leNat (r.take 8) = n at h hs hn
          by_contra hc
          have hfit : 8 + n ≤ Slice.len ⟨r, tail⟩ := by
            rw [List.length_drop] at hc
            unfold Slice.len
            simp only
            omega
          obtain ⟨t3, e3⟩ := Slice.sub_in ⟨r, tail⟩ (a := 8) (b := 8 + n) (by omega) hfit
          have e4 := Slice.from_in ⟨r, tail⟩ (a := 8 + n) hfit
          rw [e3, e4] at h
          cases h
      · cases h
  · cases h

theorem toCommit_panic (S : Sha) (mv : UInt8) (c : Slice) (h : toCommit S mv c = .panic) : CommitOverruns c.vis := by
  unfold toCommit at h
  split at h
  · cases h
  · rename_i hlen
    have hlen : 16 ≤ c.len := by
      unfold commitMinSize at hlen
      omega
    have hlen' : 16 ≤ c.vis.length := hlen
    obtain ⟨t1, e1⟩ := c.sub_in (a := 0) (b := 8) (by omega) (by omega)
    obtain ⟨t2, e2⟩ := c.sub_in (a := 8) (b := 16) (by omega) hlen
    obtain ⟨hs, hn⟩ := split_length (c.vis.drop 8) (by rw [List.length_drop]; omega)
    rw [List.drop_drop] at hs
    rw [e1, e2] at h
    simp only [Res.bind_ok, show 16 - 8 = 8 from rfl] at h
    refine ⟨c.vis.take 8, _, c.vis.drop 16, by rw [List.length_take]; omega, hn, ?_, ?_⟩
    · rw [← hs, List.take_append_drop]
    · generalize leNat ((c.vis.drop 8).take 8) = n at h hs hn
      by_cases hover : (c.vis.drop 16).length < n
      · exact .inl hover
      · right
        have hfit : 16 + n ≤ c.len := by
          rw [List.length_drop] at hover
          unfold Slice.len at hlen ⊢
          omega
        obtain ⟨t3, e3⟩ := c.sub_in (a := 16) (b := 16 + n) (by omega) hfit
        have e4 := c.from_in (a := 16 + n) hfit
        rw [e3] at h
        simp only [Res.bind_ok, Nat.add_sub_cancel_left] at h
        refine ⟨(c.vis.drop 16).take n, (c.vis.drop 16).drop n, (List.take_append_drop _ _).symm, ?_, ?_⟩
        · rw [List.length_take]
          omega
        · cases hv : HashTree.toHashTree S ⟨(c.vis.drop 16).take n, t3⟩ with
          | panic => exact .inl (HashTree.toHashTree_panic S _ hv)
          | err => rw [hv] at h; cases h
          | ok v =>
            right
            rw [hv, e4] at h
            simp only [Res.bind_ok] at h
            rw [List.drop_drop]
            cases hp : readProof ⟨c.vis.drop (16 + n), c.tail⟩ with
            | panic => exact readProof_panic _ hp
            | err => rw [hp] at h; cases h
            | ok pr =>
              rw [hp] at h
              simp only [Res.bind_ok] at h
              exfalso
              unfold readParent at h
              split at h
              · rename_i hpos
                rw [Slice.from_in pr.2 (a := 1) (by omega)] at h
                cases h
              · cases h

theorem commitsLoop_panic (S : Sha) (mv : UInt8) (c : Slice) : ∀ k index, c.len - index ≤ k → index ≤ c.len →
    commitsLoop S mv c index = .panic → CommitsOverrun (c.vis.drop index) := by
  intro k
  induction k with
  | zero =>
    intro index hk hi h
    unfold commitsLoop at h
    rw [if_neg (by omega), dif_pos (by omega)] at h
    cases h
  | succ k ih =>
    intro index hk hi h
    unfold commitsLoop at h
    rw [if_neg (by omega)] at h
    split at h
    · cases h
    · rename_i hne
      have hl : (c.vis.drop index).length = c.len - index := by rw [List.length_drop]; rfl
      by_cases h8 : (c.vis.drop index).length < 8
      · refine .short _ ?_ h8
        intro he
        rw [he] at hl
        simp at hl
        omega
      · obtain ⟨t1, e1⟩ := c.sub_in (a := index) (b := index + 8) (by omega) (by omega)
        obtain ⟨hs, hn⟩ := split_length (c.vis.drop index) (by omega)
        rw [List.drop_drop] at hs
        rw [e1] at h
        simp only [Res.bind_ok, Nat.add_sub_cancel_left] at h
        rw [hs]
        generalize leNat ((c.vis.drop index).take 8) = n at h hs hn
        by_cases hover : (c.vis.drop (index + 8)).length < n
        · exact .here _ _ hn hover
        · have hfit : index + 8 + n ≤ c.len := by
            rw [List.length_drop] at hover
            unfold Slice.len at *
            omega
          obtain ⟨t3, e3⟩ := c.sub_in (a := index + 8) (b := index + 8 + n) (by omega) hfit
          rw [e3] at h
          simp only [Res.bind_ok, Nat.add_sub_cancel_left] at h
          rw [← List.take_append_drop n (c.vis.drop (index + 8))]
          have hl' : ((c.vis.drop (index + 8)).take n).length = n := by
            rw [List.length_take]
            omega
          cases hc : toCommit S mv ⟨(c.vis.drop (index + 8)).take n, t3⟩ with
          | panic => exact .first _ _ _ hl'.symm (toCommit_panic S mv _ hc)
          | err => rw [hc] at h; cases h
          | ok x =>
            rw [hc] at h
            simp only [Res.bind_ok] at h
            refine .next _ _ _ hl'.symm ?_
            rw [List.drop_drop]
            refine ih (index + 8 + n) (by omega) hfit ?_
            cases hr : commitsLoop S mv c (index + 8 + n) with
            | panic => rfl
            | err => rw [hr] at h; cases h
            | ok l => rw [hr] at h; cases h

theorem toCommits_panic (S : Sha) (mv : UInt8) (c : Slice) (h : toCommits S mv c = .panic) : CommitsOverrun c.vis := by
  unfold toCommits at h
  split at h
  · cases h
  · have := commitsLoop_panic S mv c _ 0 (le_refl _) (by omega)
    rw [List.drop_zero] at this
    refine this ?_
    cases hx : commitsLoop S mv c 0 with
    | panic => rfl
    | err => rw [hx] at h; cases h
    | ok l =>
      rw [hx] at h
      simp only [Res.bind_ok] at h
      unfold commitsNow at h
      split at h <;> cases h

theorem toReference_panic (S : Sha) (mv : UInt8) (c : Slice) (h : toReference S mv c = .panic) : ReferenceOverruns c.vis := by
  unfold toReference at h
  split at h
  · cases h
  · rename_i hlen
    have hlen : 8 ≤ c.len := by
      unfold minReferenceSize contentKeySize commitMinSize at hlen
      omega
    obtain ⟨t1, e1⟩ := c.sub_in (a := 0) (b := 8) (by omega) hlen
    obtain ⟨hs, hn⟩ := split_length c.vis hlen
    unfold section' at h
    simp only [Nat.zero_add] at h
    rw [e1] at h
    simp only [Res.bind_ok, List.drop_zero, Nat.sub_zero] at h
    refine ⟨_, _, hn, hs, ?_⟩
    generalize leNat (c.vis.take 8) = n at h hs hn
    by_cases hbig : 2 ^ 63 ≤ n + 8
    · exact .inl hbig
    · rw [if_neg hbig] at h
      right
      by_cases hfit : c.len < n + 8
      · rw [if_pos hfit] at h
        cases h
      · rw [if_neg hfit] at h
        obtain ⟨t2, e2⟩ := c.sub_in (a := 8) (b := n + 8) (by omega) (by omega)
        rw [e2] at h
        simp only [Res.bind_ok, Res.pure_eq, Nat.add_sub_cancel] at h
        refine ⟨(c.vis.drop 8).take n, (c.vis.drop 8).drop n, (List.take_append_drop _ _).symm, ?_, ?_⟩
        · rw [List.length_take, List.length_drop]
          unfold Slice.len at hfit
          omega
        · rw [List.drop_drop, Nat.add_comm 8 n]
          cases hk : toContentKeys S ⟨(c.vis.drop 8).take n, t2⟩ with
          | panic => exact .inl (toContentKeys_panic S _ hk)
          | err => rw [hk] at h; cases h
          | ok keys =>
            right
            rw [hk] at h
            simp only [Res.bind_ok] at h
            by_cases h8 : (c.vis.drop (n + 8)).length < 8
            · exact .inl h8
            · right
              have h8' : n + 8 + 8 ≤ c.len := by
                rw [List.length_drop] at h8
                unfold Slice.len at hfit ⊢
                omega
              obtain ⟨t3, e3⟩ := c.sub_in (a := n + 8) (b := n + 8 + 8) (by omega) h8'
              obtain ⟨hs', hn'⟩ := split_length (c.vis.drop (n + 8)) (by omega)
              rw [List.drop_drop] at hs'
              rw [e3] at h
              simp only [Res.bind_ok, Nat.add_sub_cancel_left] at h
              refine ⟨_, _, hn', hs', ?_⟩
              generalize leNat ((c.vis.drop (n + 8)).take 8) = m at h hs' hn'
              by_cases hbig' : 2 ^ 63 ≤ m + (n + 8 + 8)
              · exact .inl (by omega)
              · rw [if_neg hbig'] at h
                right
                by_cases hfit' : c.len < m + (n + 8 + 8)
                · rw [if_pos hfit'] at h
                  cases h
                · rw [if_neg hfit'] at h
                  obtain ⟨t4, e4⟩ := c.sub_in (a := n + 8 + 8) (b := m + (n + 8 + 8)) (by omega) (by omega)
                  rw [e4] at h
                  simp only [Res.bind_ok, Nat.add_sub_cancel] at h
                  refine ⟨(c.vis.drop (n + 8 + 8)).take m, ?_, List.take_prefix _ _, ?_⟩
                  · rw [List.length_take, List.length_drop]
                    unfold Slice.len at hfit'
                    omega
                  · cases hc : toCommits S mv ⟨(c.vis.drop (n + 8 + 8)).take m, t4⟩ with
                    | panic => exact toCommits_panic S mv _ hc
                    | err => rw [hc] at h; cases h
                    | ok l => rw [hc] at h; cases h

end Ref
end Rodkina

namespace Rodkina
namespace HashTree

open DecodeSpec

theorem PairOverruns.length {b : Bytes} (h : PairOverruns b) : 8 ≤ b.length := by
  cases h <;> simp only [List.length_append, le64_length] <;> omega

theorem leaf_not_ok (S : Sha) {c : Slice} {head inner : Bytes} (h64 : head.length = 64) (hv : c.vis = head ++ inner)
    (hne : inner ≠ []) (hp : ∀ c' : Slice, c'.vis = inner → ∀ p, contentToParentLeaf S c' ≠ .ok p) (l : Leaf) :
    contentToLeaf S c ≠ .ok l := by
  intro h
  rw [contentToLeaf_eq] at h
  split at h
  · cases h
  · have hlen : 64 ≤ c.len := by
      unfold Slice.len
      rw [hv, List.length_append]
      omega
    obtain ⟨t, e1⟩ := c.sub_in (a := 0) (b := 64) (by omega) (by omega)
    have e2 := c.from_in (a := 64) (by omega)
    rw [e1, e2] at h
    simp only [Res.bind_ok] at h
    have hd : c.vis.drop 64 = inner := by rw [hv, List.drop_left' h64]
    split at h
    · cases hx : contentToParentLeaf S ⟨c.vis.drop 64, c.tail⟩ with
      | ok p => exact hp _ hd p hx
      | err => rw [hx] at h; cases h
      | panic => rw [hx] at h; cases h
    · rename_i hz
      apply hne
      rw [hd] at hz
      unfold Slice.len at hz
      exact List.length_eq_zero_iff.1 (by simp only at hz; omega)

theorem pair_not_ok (S : Sha) {b : Bytes} (h : PairOverruns b) :
    ∀ c : Slice, c.vis = b → ∀ p, contentToParentLeaf S c ≠ .ok p := by
  have first : ∀ (c : Slice) (n : Nat) (rest : Bytes), n < 2 ^ 64 → c.vis = le64 n ++ rest → ∀ p,
      contentToParentLeaf S c = .ok p → n ≤ rest.length ∧ ∃ t l r, contentToLeaf S ⟨rest.take n, t⟩ = .ok l ∧
        contentToLeaf S ⟨rest.drop n, c.tail⟩ = .ok r := by
    intro c n rest hn hv p h
    rw [contentToParentLeaf_eq] at h
    split at h
    · cases h
    · have hlen : 8 ≤ c.len := by
        unfold Slice.len
        rw [hv, List.length_append, le64_length]
        omega
      obtain ⟨t, e1⟩ := c.sub_in (a := 0) (b := 8) (by omega) (by omega)
      rw [e1] at h
      have hn' : leNat ((c.vis.drop 0).take (8 - 0)) = n := by
        rw [hv, List.drop_zero, Nat.sub_zero, List.take_left' (le64_length n), leNat_le64 n hn]
      simp only [Res.bind_ok, hn'] at h
      cases hs : c.sub 8 (8 + n) with
      | err => exact absurd hs (c.sub_never_err _ _)
      | panic => rw [hs] at h; cases h
      | ok s =>
        rw [hs] at h
        simp only [Res.bind_ok] at h
        cases hl : contentToLeaf S s with
        | err => rw [hl] at h; cases h
        | panic => rw [hl] at h; cases h
        | ok l =>
          rw [hl] at h
          simp only [Res.bind_ok] at h
          by_cases hfit : n + 8 ≤ c.len
          · have hr : n ≤ rest.length := by
              unfold Slice.len at hfit
              rw [hv, List.length_append, le64_length] at hfit
              omega
            have hd : c.vis.drop 8 = rest := by rw [hv, List.drop_left' (le64_length n)]
            have hd' : c.vis.drop (n + 8) = rest.drop n := by rw [← hd, List.drop_drop, Nat.add_comm]
            obtain ⟨t2, e2⟩ := c.sub_in (a := 8) (b := 8 + n) (by omega) (by omega)
            rw [hs] at e2
            injection e2 with e2
            rw [c.from_in hfit] at h
            simp only [Res.bind_ok] at h
            rw [hd'] at h
            refine ⟨hr, t2, l, ?_⟩
            rw [hd, Nat.add_sub_cancel_left] at e2
            rw [e2] at hl
            cases hx : contentToLeaf S ⟨rest.drop n, c.tail⟩ with
            | err => rw [hx] at h; cases h
            | panic => rw [hx] at h; cases h
            | ok r => exact ⟨r, hl, rfl⟩
          · have : c.from' (n + 8) = .panic := by
              unfold Slice.from'
              rw [if_neg hfit]
            rw [this] at h
            cases h
  induction h with
  | here n rest hn hlt =>
    intro c hv p h
    have := (first c n rest hn hv p h).1
    omega
  | left n head inner right hbig h64 hn hi ih =>
    intro c hv p h
    obtain ⟨_, t, l, r, hl, _⟩ := first c n _ hbig hv p h
    rw [hn, List.take_left] at hl
    refine leaf_not_ok S h64 rfl ?_ ih l hl
    intro he
    have := PairOverruns.length hi
    rw [he] at this
    simp at this
  | right n left head inner hbig hn h64 hi ih =>
    intro c hv p h
    obtain ⟨_, t, l, r, _, hr⟩ := first c n _ hbig hv p h
    rw [hn, List.drop_left] at hr
    refine leaf_not_ok S h64 rfl ?_ ih r hr
    intro he
    have := PairOverruns.length hi
    rw [he] at this
    simp at this

theorem tree_not_ok (S : Sha) (c : Slice) (h : TreeOverruns c.vis) (t : Tree) : toHashTree S c ≠ .ok t := by
  obtain ⟨head, inner, h64, hv, hi⟩ := h
  intro hok
  unfold toHashTree at hok
  split at hok
  · cases hok
  · have hlen : 64 ≤ c.len := by
      unfold Slice.len
      rw [hv, List.length_append]
      omega
    obtain ⟨t', e1⟩ := c.sub_in (a := 0) (b := 64) (by omega) (by omega)
    have e2 := c.from_in (a := 64) (by omega)
    rw [e1, e2] at hok
    simp only [Res.bind_ok] at hok
    have hd : c.vis.drop 64 = inner := by rw [hv, List.drop_left' h64]
    cases hx : contentToParentLeaf S ⟨c.vis.drop 64, c.tail⟩ with
    | ok p => exact pair_not_ok S hi _ hd p hx
    | err => rw [hx] at hok; cases hok
    | panic => rw [hx] at hok; cases hok

end HashTree
end Rodkina
