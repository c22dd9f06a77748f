import Verif.CanonLemmas
import Verif.CrashProps
/-!
# C135: what is read is written back byte for byte
-/

namespace Rodkina.Props

open HashTree CrashSpec CanonSpec Ref

/-- **C135 (partial, equal).** Hash trees, single content keys, single contents and lists of contents: encoding what was decoded
gives the bytes it was decoded from. (Sizes below 2^63, as those of all slices.) Missing: the other decoders, for which
`C135_exact_partial` says when it holds. -/
theorem C135_equal_partial (S : Sha) (b t : Bytes) (hb : b.length < 2 ^ 63) :
    (∀ x, toHashTree S ⟨b, t⟩ = .ok x → toContent x = b) ∧ (∀ x, toContentKey S ⟨b, t⟩ = .ok x → contentKeyToContent x = b) ∧
    (∀ x, toContentInstance S ⟨b, t⟩ = .ok x → contentToContent x = b) ∧
    (∀ x, toContentsInstance S ⟨b, t⟩ = .ok x → contentsToContent x = b) :=
  ⟨fun _ h => tree_written S (by omega) h, fun _ h => key_written S h, fun _ h => content_written S h,
    fun _ h => contents_written S hb h⟩

/-- The hypotheses are met. -/
example (S : Sha) (t : Bytes) : ∃ x, toHashTree S ⟨sampleTreeBytes, t⟩ = .ok x ∧ toContent x = sampleTreeBytes := by
  obtain ⟨x, h⟩ := (C134_hash_trees S _ t).1.2 sampleTree_bytes
  exact ⟨x, h, (C135_equal_partial S _ t (by rw [sampleTree_length]; decide)).1 x h⟩

/-- **C135 (partial, exact).** Compact trees, content keys, commits and references: encoding what was decoded gives the bytes it
was decoded from exactly if these have the form in which such values are written: nothing behind the last leaf, key or commit, no
leading zeros in a proof, the mark 1 in front of a parent, and a parent of 64 bytes. Missing: all other bytes that are
accepted (`C135_negation`). -/
theorem C135_exact_partial (S : Sha) (mv : UInt8) (b t : Bytes) (hb : b.length < 2 ^ 63) :
    (∀ x, contentToCompact S ⟨b, t⟩ = .ok x → (compactToContent x = b ↔ CompactWritten b)) ∧
    (∀ x, toContentKeys S ⟨b, t⟩ = .ok x → (contentKeysToContent x = b ↔ KeysWritten b)) ∧
    (∀ x, toCommit S mv ⟨b, t⟩ = .ok x → (commitToContent x = b ↔ CommitWritten b)) ∧
    (∀ x, toCommits S mv ⟨b, t⟩ = .ok x → (commitsToContent x = b ↔ CommitsWritten b)) ∧
    (∀ x, toReference S mv ⟨b, t⟩ = .ok x → (referenceToContent x = b ↔ ReferenceWritten b)) :=
  ⟨fun _ h => (compact_written S h).2, fun _ h => (keys_written_iff S h).1, fun _ h => (commit_written S mv h).1,
    fun _ h => commits_written S mv hb h, fun _ h => reference_written S mv hb h⟩

/-- A commit with a proof and a parent, as it is written. -/
def writtenCommitBytes : Bytes :=
  List.replicate 8 0 ++ (le64 sampleTreeBytes.length ++ (sampleTreeBytes ++ (0 :: (le64 [7, 0].length ++ ([7, 0] ++ (1 :: List.replicate 64 5))))))

example (S : Sha) (mv : UInt8) (t : Bytes) : ∃ x, toCommit S mv ⟨writtenCommitBytes, t⟩ = .ok x ∧ commitToContent x = writtenCommitBytes := by
  have hb : CommitBytes writtenCommitBytes := by
    refine ⟨_, _, _, List.length_replicate, by rw [sampleTree_length]; decide, sampleTree_bytes, ?_, rfl⟩
    rintro ⟨r, hr, h⟩
    injection hr with _ hr
    subst hr
    rcases h with h | ⟨n, rest, hn, he, h⟩
    · simp only [List.length_append, le64_length] at h
      omega
    · obtain ⟨e1, rfl⟩ := List.append_inj he (by simp only [le64_length])
      have := le64_inj (by decide) hn e1
      subst this
      simp at h
  obtain ⟨x, h⟩ := (C134_commit S mv _ t).1.2 hb
  refine ⟨x, h, ((C135_exact_partial S mv _ t ?_).2.2.1 x h).2 ⟨_, _, _, List.length_replicate, by rw [sampleTree_length]; decide,
    .inr ⟨[7, 0], _, by decide, by decide, .inr ⟨_, List.length_replicate, rfl⟩, rfl⟩, rfl⟩⟩
  simp only [writtenCommitBytes, List.length_append, List.length_cons, List.length_replicate, le64_length, sampleTree_length, List.length_nil]
  decide

/-- The form in which references are written is that of some bytes: one key, one commit without proof and parent. -/
example : ReferenceWritten (le64 (le64 1 ++ sampleKeyBytes).length ++ ((le64 1 ++ sampleKeyBytes) ++
    (le64 (le64 352 ++ ((List.replicate 8 0 ++ (le64 sampleTreeBytes.length ++ (sampleTreeBytes ++ []))) ++ [])).length ++
      (le64 352 ++ ((List.replicate 8 0 ++ (le64 sampleTreeBytes.length ++ (sampleTreeBytes ++ []))) ++ []))))) := by
  have hl : (List.replicate 8 (0 : UInt8) ++ (le64 sampleTreeBytes.length ++ (sampleTreeBytes ++ []))).length = 352 := by
    simp only [List.length_append, List.length_replicate, le64_length, sampleTree_length, List.length_nil]
  refine ⟨_, _, ?_, ?_, ⟨1, sampleKeyBytes, by decide, sampleKey_length, rfl⟩, ?_, rfl⟩
  · rw [List.length_append, le64_length, sampleKey_length]; decide
  · rw [List.length_append, List.length_append, hl, le64_length]; decide
  · have := CommitsWritten.cons (List.replicate 8 0 ++ (le64 sampleTreeBytes.length ++ (sampleTreeBytes ++ []))) []
      (by rw [hl]; decide) ⟨_, _, _, List.length_replicate, by rw [sampleTree_length]; decide, .inl (.inl rfl), rfl⟩ .nil
    rwa [hl] at this

/-- C135 is false: there are commits that are accepted and written differently (whatever follows them); -/
theorem C135_negation (S : Sha) (mv : UInt8) (t : Bytes) :
    ∃ b x, b.length < 2 ^ 63 ∧ toCommit S mv ⟨b, t⟩ = .ok x ∧ commitToContent x ≠ b := by
  obtain ⟨x, h⟩ := (C134_commit S mv _ t).1.2 sampleCommit_bytes
  have hb : sampleCommitBytes.length < 2 ^ 63 := by rw [sampleCommit_length]; decide
  refine ⟨sampleCommitBytes, x, hb, h, fun e => ?_⟩
  obtain ⟨time, values, rest, h8, hlt, hE, he⟩ := ((C135_exact_partial S mv _ t hb).2.2.1 x h).1 e
  obtain ⟨_, e2⟩ := List.append_inj he (by rw [List.length_replicate, h8])
  obtain ⟨e3, e4⟩ := List.append_inj e2 (by simp only [le64_length])
  obtain ⟨_, rfl⟩ := List.append_inj e4 (le64_inj (by rw [sampleTree_length]; decide) hlt e3)
  rcases hE with h | ⟨proof, parent, _, _, _, h⟩
  · rcases h with h | ⟨p, hp, h⟩
    · cases h
    · injection h with _ h
      subst h
      cases hp
  · cases h

/-- and different bytes are read as one and the same commit: the mark in front of the parent may be any byte but 0. -/
theorem C135_same_commit (S : Sha) (mv : UInt8) (t : Bytes) :
    ∃ b b' x, b ≠ b' ∧ toCommit S mv ⟨b, t⟩ = .ok x ∧ toCommit S mv ⟨b', t⟩ = .ok x := by
  have hb : ∀ m : UInt8, m ≠ 0 → CommitBytes (List.replicate 8 0 ++ (le64 sampleTreeBytes.length ++ (sampleTreeBytes ++ m :: List.replicate 64 5))) := by
    intro m hm
    refine ⟨_, _, _, List.length_replicate, by rw [sampleTree_length]; decide, sampleTree_bytes, ?_, rfl⟩
    rintro ⟨r, hr, _⟩
    injection hr with hr
    exact hm hr
  obtain ⟨x, hx⟩ := (C134_commit S mv _ t).1.2 (hb 1 (by decide))
  obtain ⟨y, hy⟩ := (C134_commit S mv _ t).1.2 (hb 2 (by decide))
  have e := commit_mark S mv List.length_replicate (by rw [sampleTree_length]; decide) (by decide) (by decide) hx hy
  subst e
  refine ⟨_, _, x, fun h => ?_, hx, hy⟩
  have h := List.append_cancel_left (List.append_cancel_left (List.append_cancel_left h))
  injection h with h
  exact absurd h (by decide)

end Rodkina.Props
