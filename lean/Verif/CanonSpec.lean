import Verif.CrashSpec
/-!
# Specification: commits in the form in which they are written
-/

namespace Rodkina
namespace CanonSpec

/-- A compact tree as it is written, with nothing behind the leaves. -/
def CompactWritten (b : Bytes) : Prop :=
  ∃ (head : Bytes) (leaves : List Bytes), head.length = 64 ∧ leaves.length < 2 ^ 63 ∧
    (∀ l ∈ leaves, CrashSpec.LeafBytes l ∧ l.length < 2 ^ 64) ∧ b = head ++ (le64 leaves.length ++ CrashSpec.listed leaves)

/-- The parent of a commit as it is written: nothing, or the mark 1 and a hash. -/
def ParentWritten (b : Bytes) : Prop := b = [] ∨ ∃ p : Bytes, p.length = 64 ∧ b = 1 :: p

/-- What follows the values of a commit as it is written: the mark 0, the length of the proof and the proof without leading zeros,
or nothing; then the parent. -/
def EndWritten (b : Bytes) : Prop :=
  ParentWritten b ∨ ∃ proof parent : Bytes, proof.head? ≠ some 0 ∧ proof.length < 2 ^ 64 ∧ ParentWritten parent ∧
    b = 0 :: (le64 proof.length ++ (proof ++ parent))

/-- A commit as it is written. -/
def CommitWritten (b : Bytes) : Prop :=
  ∃ time values rest : Bytes, time.length = 8 ∧ values.length < 2 ^ 64 ∧ EndWritten rest ∧
    b = time ++ (le64 values.length ++ (values ++ rest))

/-- Commits as they are written, one after the other, each after its length. -/
inductive CommitsWritten : Bytes → Prop
  | nil : CommitsWritten []
  | cons (c rest : Bytes) : c.length < 2 ^ 64 → CommitWritten c → CommitsWritten rest → CommitsWritten (le64 c.length ++ (c ++ rest))

/-- Content keys as they are written: their number and the keys, of 152 bytes each. -/
def KeysWritten (b : Bytes) : Prop := ∃ (n : Nat) (keys : Bytes), n < 2 ^ 63 ∧ keys.length = 152 * n ∧ b = le64 n ++ keys

/-- A reference as it is written, with nothing behind the commits. -/
def ReferenceWritten (b : Bytes) : Prop :=
  ∃ keys commits : Bytes, keys.length < 2 ^ 63 ∧ commits.length < 2 ^ 63 ∧ KeysWritten keys ∧ CommitsWritten commits ∧
    b = le64 keys.length ++ (keys ++ (le64 commits.length ++ commits))

end CanonSpec
end Rodkina
