import Verif.CrashLemmas3
import Verif.DecodeProps
/-!
# C134: which bytes the decoders accept, refuse and crash on

Every outcome of a decoder is a value, an error or a crash. For every bytes `b` and every bytes `t` behind them in their buffer,
the theorems say when it is a value and when a crash; in all other cases it is an error.
-/

namespace Rodkina.Props

open HashTree DecodeSpec CrashSpec

/-- C134: hash trees. Which bytes are accepted does not depend on the buffer; which crash does. -/
theorem C134_hash_trees (S : Sha) (b t : Bytes) :
    ((∃ x, toHashTree S ⟨b, t⟩ = .ok x) ↔ TreeBytes b) ∧ (toHashTree S ⟨b, t⟩ = .panic ↔ TreeCrashes b t) :=
  tree_outcomes S b t

/-- C134: compact hash trees. -/
theorem C134_compact_trees (S : Sha) (b t : Bytes) :
    ((∃ x, contentToCompact S ⟨b, t⟩ = .ok x) ↔ CompactBytes b t) ∧ (contentToCompact S ⟨b, t⟩ = .panic ↔ CompactCrashes b t) :=
  contentToCompact_is S b t

/-- C134: one content key never crashes its decoder. -/
theorem C134_content_key (S : Sha) (b t : Bytes) :
    ((∃ x, Ref.toContentKey S ⟨b, t⟩ = .ok x) ↔ KeyBytes b) ∧ Ref.toContentKey S ⟨b, t⟩ ≠ .panic :=
  ⟨(Ref.toContentKey_is S b t).1, fun h => (Ref.toContentKey_is S b t).2.1 h⟩

/-- C134: lists of content keys. -/
theorem C134_content_keys (S : Sha) (b t : Bytes) :
    ((∃ x, Ref.toContentKeys S ⟨b, t⟩ = .ok x) ↔ KeysBytes b t) ∧ (Ref.toContentKeys S ⟨b, t⟩ = .panic ↔ KeysCrash b t) :=
  Ref.toContentKeys_is S b t

/-- C134: one commit. -/
theorem C134_commit (S : Sha) (mv : UInt8) (b t : Bytes) :
    ((∃ x, Ref.toCommit S mv ⟨b, t⟩ = .ok x) ↔ CommitBytes b) ∧ (Ref.toCommit S mv ⟨b, t⟩ = .panic ↔ CommitCrashes b t) :=
  Ref.toCommit_is S mv b t

/-- C134: lists of commits. -/
theorem C134_commits (S : Sha) (mv : UInt8) (b t : Bytes) :
    ((∃ x, Ref.toCommits S mv ⟨b, t⟩ = .ok x) ↔ 216 ≤ b.length ∧ CommitsBytes b) ∧
      (Ref.toCommits S mv ⟨b, t⟩ = .panic ↔ 216 ≤ b.length ∧ CommitsCrash b t) :=
  Ref.toCommits_is S mv b t

/-- C134: references. -/
theorem C134_references (S : Sha) (mv : UInt8) (b t : Bytes) :
    ((∃ x, Ref.toReference S mv ⟨b, t⟩ = .ok x) ↔ ReferenceBytes b t) ∧
      (Ref.toReference S mv ⟨b, t⟩ = .panic ↔ ReferenceCrashes b t) :=
  Ref.toReference_is S mv b t

/-- C134: one content: anything of at least 73 bytes; it never crashes its decoder. -/
theorem C134_content (S : Sha) (b t : Bytes) :
    ((∃ x, Ref.toContentInstance S ⟨b, t⟩ = .ok x) ↔ 73 ≤ b.length) ∧ Ref.toContentInstance S ⟨b, t⟩ ≠ .panic :=
  ⟨(Ref.toContentInstance_is S b t).1, fun h => (Ref.toContentInstance_is S b t).2.1 h⟩

/-- C134: lists of contents. -/
theorem C134_contents (S : Sha) (b t : Bytes) :
    ((∃ x, Ref.toContentsInstance S ⟨b, t⟩ = .ok x) ↔ 81 ≤ b.length ∧ ContentsBytes b) ∧
      (Ref.toContentsInstance S ⟨b, t⟩ = .panic ↔ 81 ≤ b.length ∧ ContentsCrash b t) :=
  Ref.toContentsInstance_is S b t

/-! ## Cases: for each decoder, bytes that are accepted and bytes that crash it -/

/-- A leaf with two bottom leaves. -/
def sampleLeafBytes : Bytes := List.replicate 64 3 ++ (le64 (List.replicate 64 (1 : UInt8)).length ++ (List.replicate 64 1 ++ List.replicate 64 2))

/-- A tree of three leaves. -/
def sampleTreeBytes : Bytes := List.replicate 64 7 ++ (le64 (List.replicate 64 (9 : UInt8)).length ++ (List.replicate 64 9 ++ sampleLeafBytes))

theorem sampleTree_length : sampleTreeBytes.length = 336 := by
  simp only [sampleTreeBytes, sampleLeafBytes, List.length_append, List.length_replicate, le64_length]

theorem sampleTree_bytes : TreeBytes sampleTreeBytes :=
  ⟨List.replicate 64 7, List.replicate 64 9, sampleLeafBytes, List.length_replicate, by rw [List.length_replicate]; decide,
    .bottom _ List.length_replicate,
    .inner _ _ _ List.length_replicate (by rw [List.length_replicate]; decide) (.bottom _ List.length_replicate)
      (.bottom _ List.length_replicate), rfl⟩

example (S : Sha) (t : Bytes) : ∃ x, toHashTree S ⟨sampleTreeBytes, t⟩ = .ok x := (C134_hash_trees S _ t).1.2 sampleTree_bytes

/-- A tree whose left leaf would have 128 bytes, of which there are 120. -/
def longTreeBytes : Bytes := List.replicate 64 7 ++ (le64 128 ++ List.replicate 120 9)

/-- At the end of the buffer it crashes the decoder. -/
theorem longTree_crashes : TreeCrashes longTreeBytes [] :=
  ⟨List.replicate 64 7, _, List.length_replicate, rfl,
    .far 128 _ _ (by decide) (by rw [List.length_replicate]) (by rw [List.length_replicate]; decide)⟩

/-- In front of 8 other bytes it is refused: the left leaf has 64 bytes behind its head, too few for a pair. -/
example (S : Sha) : toHashTree S ⟨longTreeBytes, List.replicate 8 9⟩ = .err := by
  have hb : ∀ l : Bytes, LeafBytes l → l.length = 128 → False := by
    intro l h hl
    cases h with
    | bottom _ h => omega
    | inner head left right h1 _ h2 h3 =>
      have := LeafBytes.length h2
      have := LeafBytes.length h3
      simp at hl
      omega
  cases e : toHashTree S ⟨longTreeBytes, List.replicate 8 9⟩ with
  | err => rfl
  | ok x =>
    obtain ⟨head, left, right, h64, hlt, hl, hr, he⟩ := (C134_hash_trees S _ _).1.1 ⟨x, e⟩
    obtain ⟨_, h2⟩ := List.append_inj he (by rw [h64, List.length_replicate])
    obtain ⟨h3, h4⟩ := List.append_inj h2 (by simp only [le64_length])
    exact (hb left hl (le64_inj (by decide) hlt h3).symm).elim
  | panic =>
    obtain ⟨head, inner, h64, he, h⟩ := (C134_hash_trees S _ _).2.1 e
    obtain ⟨_, h2⟩ := List.append_inj he (by rw [h64, List.length_replicate])
    have key : ∀ i t, PairCrashes i t → le64 128 ++ List.replicate 120 9 = i → t = List.replicate 8 9 → False := by
      intro i t h he ht
      cases h with
      | far n rest behind hn h120 hlt =>
        obtain ⟨h3, rfl⟩ := List.append_inj he (by simp only [le64_length])
        have := le64_inj (by decide) hn h3
        rw [ht, List.length_replicate, List.length_replicate] at hlt
        omega
      | left n rest behind head inner more hn h120 hl he' h64' hi =>
        obtain ⟨h3, rfl⟩ := List.append_inj he (by simp only [le64_length])
        have := le64_inj (by decide) hn h3
        have := PairCrashes.length hi
        simp only [List.length_append] at hl
        omega
      | past n rest behind left more hn h120 hl he' hb' hlt =>
        obtain ⟨h3, rfl⟩ := List.append_inj he (by simp only [le64_length])
        exact hb left hb' (hl ▸ (le64_inj (by decide) hn h3).symm)
      | right n behind left head inner hn hl hb' h64' hi =>
        obtain ⟨h3, h4⟩ := List.append_inj he (by simp only [le64_length])
        exact hb left hb' (hl ▸ (le64_inj (by decide) hn h3).symm)
    exact (key _ _ h h2 rfl).elim

/-- A compact tree that says it has two leaves, and one leaf. -/
def shortCompactBytes : Bytes := List.replicate 64 7 ++ (le64 2 ++ listed [List.replicate 64 9])

/-- The second leaf may lie behind the bytes given; -/
example : CompactBytes shortCompactBytes (listed [List.replicate 64 5]) := by
  refine ⟨List.replicate 64 7, _, List.length_replicate, rfl, [List.replicate 64 9, List.replicate 64 5], [], ?_, by simp,
    by simp, ?_, ?_⟩
  · simp only [listed, List.length_append, List.length_replicate, le64_length]; decide
  · intro l hl
    simp only [List.mem_cons, List.not_mem_nil, or_false] at hl
    rcases hl with rfl | rfl <;>
      exact ⟨.bottom _ List.length_replicate, by rw [List.length_replicate]; decide⟩
  · simp only [listed, List.length_cons, List.length_nil, List.append_assoc, List.append_nil]

/-- at the end of the buffer the decoder crashes. -/
example : CompactCrashes shortCompactBytes [] := by
  refine ⟨List.replicate 64 7, _, List.length_replicate, rfl, 2, [List.replicate 64 9], [], ?_, by decide, by simp,
    ?_, by simp only [List.append_nil], .inl (by simp)⟩
  · simp only [listed, List.length_append, List.length_replicate, le64_length]; decide
  · intro l hl
    simp only [List.mem_cons, List.not_mem_nil, or_false] at hl
    subst hl
    exact ⟨.bottom _ List.length_replicate, by rw [List.length_replicate]; decide⟩

/-- A content key. -/
def sampleKeyBytes : Bytes := List.replicate 64 1 ++ (List.replicate 8 0 ++ (List.replicate 8 0 ++ (le64 5 ++ List.replicate 64 2)))

theorem sampleKey_length : sampleKeyBytes.length = 152 := by
  simp only [sampleKeyBytes, List.length_append, List.length_replicate, le64_length]

theorem sampleKey_bytes : KeyBytes sampleKeyBytes :=
  ⟨_, _, _, _, 5, List.length_replicate, List.length_replicate, List.length_replicate, by decide, by decide,
    List.length_replicate, rfl⟩

/-- With 0 as its length it is refused. -/
example (S : Sha) (t : Bytes) : Ref.toContentKey S ⟨List.replicate 152 0, t⟩ = .err := by
  have h := C134_content_key S (List.replicate 152 0) t
  cases e : Ref.toContentKey S ⟨List.replicate 152 0, t⟩ with
  | err => rfl
  | panic => exact (h.2 e).elim
  | ok x =>
    obtain ⟨hash, kind, start, commit, length, h1, h2, h3, h4, h5, h6, he⟩ := h.1.1 ⟨x, e⟩
    have hm : ∀ y ∈ le64 length, y = 0 := by
      intro y hy
      exact List.eq_of_mem_replicate (n := 152) (by rw [he]; simp [hy])
    have : le64 length = le64 0 := by
      rw [List.eq_replicate_of_mem hm, le64_length]
      rfl
    exact (h5 (le64_inj h4 (by decide) this)).elim

/-- One key is a list of keys, whatever follows. -/
theorem sampleKeys_bytes (t : Bytes) : KeysBytes (le64 1 ++ sampleKeyBytes) t := by
  refine ⟨[sampleKeyBytes], t, ?_, by simp, by simp, ?_, ?_⟩
  · rw [List.length_append, sampleKey_length, le64_length]
  · intro k hk
    simp only [List.mem_cons, List.not_mem_nil, or_false] at hk
    subst hk
    exact sampleKey_bytes
  · simp only [List.flatten_cons, List.flatten_nil, List.append_nil, List.length_cons, List.length_nil, List.append_assoc]

/-- With 2 as their number they crash the decoder when fewer than 152 bytes follow. -/
example (t : Bytes) (h : t.length < 152) : KeysCrash (le64 2 ++ sampleKeyBytes) t := by
  refine ⟨2, [sampleKeyBytes], t, ?_, by decide, by simp, h, ?_, ?_⟩
  · rw [List.length_append, sampleKey_length, le64_length]
  · intro k hk
    simp only [List.mem_cons, List.not_mem_nil, or_false] at hk
    subst hk
    exact sampleKey_bytes
  · simp only [List.flatten_cons, List.flatten_nil, List.append_nil, List.append_assoc]

/-- A commit: a time, the tree, no proof and a parent that is no hash. -/
def sampleCommitBytes : Bytes := List.replicate 8 0 ++ (le64 sampleTreeBytes.length ++ (sampleTreeBytes ++ [1, 5, 5]))

theorem sampleCommit_length : sampleCommitBytes.length = 355 := by
  simp only [sampleCommitBytes, List.length_append, List.length_replicate, le64_length, sampleTree_length, List.length_cons, List.length_nil]

theorem sampleCommit_bytes : CommitBytes sampleCommitBytes :=
  ⟨_, _, _, List.length_replicate, by rw [sampleTree_length]; decide, sampleTree_bytes,
    by rintro ⟨r, h, _⟩; simp at h, rfl⟩

/-- The same with a zero byte for the mark of the parent: it announces a proof, which is not there. -/
example (t : Bytes) : CommitCrashes (List.replicate 8 0 ++ (le64 336 ++ (sampleTreeBytes ++ [0, 5, 5]))) t :=
  ⟨_, 336, _, List.length_replicate, by decide, by rw [List.length_append, sampleTree_length]; decide, rfl,
    .inr (.inr ⟨_, _, rfl, sampleTree_length, sampleTree_bytes, [5, 5], rfl, .inl (by decide)⟩)⟩

/-- A list of one commit. -/
def sampleCommitsBytes : Bytes := le64 sampleCommitBytes.length ++ (sampleCommitBytes ++ [])

theorem sampleCommits_length : sampleCommitsBytes.length = 363 := by
  simp only [sampleCommitsBytes, List.length_append, le64_length, sampleCommit_length, List.length_nil]

theorem sampleCommits_bytes : CommitsBytes sampleCommitsBytes :=
  .cons _ _ (by rw [sampleCommit_length]; decide) sampleCommit_bytes .nil

/-- One byte after the commits crashes the decoder, if fewer than 7 follow. -/
theorem sampleCommits_crash (t : Bytes) (h : t.length < 7) : CommitsCrash (le64 355 ++ (sampleCommitBytes ++ [0])) t :=
  .next 355 _ _ t (by decide) sampleCommit_length.symm sampleCommit_bytes (.short [0] t (by simp) (by simp; omega))

/-- A reference: a list of one key, a list of one commit, and anything. -/
example (more t : Bytes) : ReferenceBytes (le64 (le64 1 ++ sampleKeyBytes).length ++ ((le64 1 ++ sampleKeyBytes) ++
    (le64 sampleCommitsBytes.length ++ (sampleCommitsBytes ++ more)))) t :=
  ⟨_, _, _, by rw [List.length_append, sampleKey_length, le64_length, sampleCommits_length]; decide, sampleKeys_bytes _,
    by rw [sampleCommits_length]; decide, sampleCommits_bytes, rfl⟩

/-- A reference with one byte after the last commit. -/
example : ReferenceCrashes (le64 160 ++ ((le64 1 ++ sampleKeyBytes) ++ (le64 364 ++ ((le64 355 ++ (sampleCommitBytes ++ [0])) ++ [])))) [] := by
  have hk : (le64 1 ++ sampleKeyBytes).length = 160 := by rw [List.length_append, sampleKey_length, le64_length]
  have hc : (le64 355 ++ (sampleCommitBytes ++ [0])).length = 364 := by
    simp only [List.length_append, sampleCommit_length, le64_length, List.length_cons, List.length_nil]
  refine ⟨?_, 160, _, by decide, rfl, .inr ⟨_, _, rfl, hk, .inr ⟨sampleKeys_bytes _, .inr ⟨364, _, by decide, List.append_nil _,
    .inr ⟨_, [], rfl, hc.symm, by decide, sampleCommits_crash _ (by decide)⟩⟩⟩⟩⟩
  simp only [List.length_append, sampleKey_length, sampleCommit_length, le64_length, List.length_cons, List.length_nil]
  decide

/-- Two contents. -/
example : ContentsBytes (le64 (List.replicate 73 (4 : UInt8)).length ++ (List.replicate 73 4 ++ (le64 (List.replicate 90 (5 : UInt8)).length ++
    (List.replicate 90 5 ++ [])))) :=
  .cons _ _ (by rw [List.length_replicate]) (by rw [List.length_replicate]; decide)
    (.cons _ _ (by rw [List.length_replicate]; decide) (by rw [List.length_replicate]; decide) .nil)

/-- A content, and one that says it is longer than it is. -/
example : ContentsCrash (le64 73 ++ (List.replicate 73 4 ++ (le64 90 ++ List.replicate 80 5))) (List.replicate 30 0) :=
  .next 73 _ _ _ (by decide) List.length_replicate.symm (by decide)
    (.past 90 _ _ (List.replicate 80 5 ++ List.replicate 30 0) (by simp) (by decide) (by rw [List.append_assoc])
      (by rw [List.length_append, List.length_replicate, List.length_replicate]; decide) (by decide)
      (by rw [List.length_append, List.length_replicate, le64_length]; decide))

end Rodkina.Props
