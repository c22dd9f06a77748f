import Verif.DecodeLemmas
import Verif.HashTreeProps
import Verif.ReferencesProps
/-!
# C12 and C65: untrusted bytes, beyond the too short and the well-formed
-/

namespace Rodkina.Props

open HashTree DecodeSpec

/-- C12 (partial): for arbitrary bytes, with arbitrary bytes behind them in the buffer, the decoder of hash trees panics only if
a length field says more than there is (missing: these bytes; then a panic is possible, see `C12_decode_panics`). -/
theorem C12_panic_only_on_overrun_partial (S : Sha) (c : Slice) (h : ¬ TreeOverruns c.vis) : toHashTree S c ≠ .panic :=
  fun hp => h (toHashTree_panic S c hp)

/-- The hypothesis is met by 206 arbitrary bytes, which are no tree (the decoder returns an error): the length of the left leaf is
right, and what follows the head of the right leaf is too short for a pair. -/
example : ¬ TreeOverruns (List.replicate 64 7 ++ (le64 64 ++ (List.replicate 64 9 ++ List.replicate 70 3))) := by
  rintro ⟨head, inner, h64, he, hi⟩
  have := List.append_inj he (by simp [h64])
  obtain ⟨_, rfl⟩ := this
  generalize hb : le64 64 ++ (List.replicate 64 9 ++ List.replicate 70 3) = b at hi
  cases hi with
  | here n rest hn hlt =>
    obtain ⟨h1, rfl⟩ := List.append_inj hb (by simp [le64_length])
    have := le64_inj (by decide) hn h1
    simp at hlt
    omega
  | left n head inner right hn h64 hl hi =>
    obtain ⟨h1, h2⟩ := List.append_inj hb (by simp [le64_length])
    have := le64_inj (by decide) hn h1
    have := PairOverruns.length hi
    simp at hl
    omega
  | right n left head inner hn hl h64 hi =>
    obtain ⟨h1, h2⟩ := List.append_inj hb (by simp [le64_length])
    have := le64_inj (by decide) hn h1
    have := PairOverruns.length hi
    have := congrArg List.length h2
    simp at this
    omega

/-- C12: and bytes in which a length field says more than there is are never accepted. -/
theorem C12_overrun_never_accepted (S : Sha) (c : Slice) (h : TreeOverruns c.vis) (t : Tree) : toHashTree S c ≠ .ok t :=
  tree_not_ok S c h t

example : TreeOverruns (List.replicate 64 7 ++ (le64 64 ++ (List.replicate 64 9 ++ (List.replicate 64 3 ++ (le64 200 ++
    List.replicate 150 1))))) := by
  refine ⟨List.replicate 64 7, _, by simp, rfl, ?_⟩
  exact .right 64 (List.replicate 64 9) (List.replicate 64 3) _ (by decide) (by simp) (by simp)
    (.here 200 _ (by decide) (by simp))

/-- C65 (partial): for arbitrary bytes, with arbitrary bytes behind them in the buffer, the decoder of references panics only if
a length or count field says more than there is (missing: these bytes; then a panic is possible, see
`C65_reference_decode_panics`). -/
theorem C65_panic_only_on_overrun_partial (S : Sha) (mv : UInt8) (c : Slice) (h : ¬ ReferenceOverruns c.vis) :
    Ref.toReference S mv c ≠ .panic :=
  fun hp => h (Ref.toReference_panic S mv c hp)

/-- The hypothesis is met by bytes that are no reference: no content keys at all, and then no commits. -/
example : ¬ ReferenceOverruns (le64 0 ++ (le64 0 ++ List.replicate 400 255)) := by
  rintro ⟨n, rest, hn, he, h⟩
  obtain ⟨h1, rfl⟩ := List.append_inj he (by simp [le64_length])
  have h0 := le64_inj (by decide) hn h1
  subst h0
  rcases h with h | ⟨keys, more, hk, hl, h⟩
  · omega
  · have : keys = [] := List.length_eq_zero_iff.1 hl
    subst this
    simp only [List.nil_append] at hk
    subst hk
    rcases h with ⟨m, r, hm, hr, h⟩ | h | ⟨m, rest', hm, he', h⟩
    · have := congrArg List.length hr
      simp [le64_length] at this
      omega
    · rw [List.length_append, le64_length] at h
      omega
    · obtain ⟨h2, rfl⟩ := List.append_inj he' (by simp [le64_length])
      have h0 := le64_inj (by decide) hm h2
      subst h0
      rcases h with h | ⟨commits, hc, _, h⟩
      · omega
      · have : commits = [] := List.length_eq_zero_iff.1 hc.symm
        subst this
        generalize hb : ([] : Bytes) = b at h
        cases h with
        | short _ hne _ => exact hne hb.symm
        | here n rest _ _ =>
          have := congrArg List.length hb
          simp [le64_length] at this
          omega
        | first n c rest _ _ =>
          have := congrArg List.length hb
          simp [le64_length] at this
          omega
        | next n c rest _ _ =>
          have := congrArg List.length hb
          simp [le64_length] at this
          omega

end Rodkina.Props
