import Verif.References
/-!
# Specification: length and count fields that say more than there is

On byte strings, without slices or capacities.
-/

namespace Rodkina
namespace DecodeSpec

/-- A pair of leaves (8 bytes length of the left leaf, left leaf, right leaf; a leaf is a 64-byte head, followed by a pair unless
it is a bottom leaf) in which a length is larger than what follows it. -/
inductive PairOverruns : Bytes → Prop
  | here (n : Nat) (rest : Bytes) : n < 2 ^ 64 → rest.length < n → PairOverruns (le64 n ++ rest)
  | left (n : Nat) (head inner right : Bytes) : n < 2 ^ 64 → head.length = 64 → n = (head ++ inner).length → PairOverruns inner →
      PairOverruns (le64 n ++ ((head ++ inner) ++ right))
  | right (n : Nat) (left head inner : Bytes) : n < 2 ^ 64 → n = left.length → head.length = 64 → PairOverruns inner →
      PairOverruns (le64 n ++ (left ++ (head ++ inner)))

/-- A hash tree: 64-byte head, then a pair of leaves. -/
def TreeOverruns (b : Bytes) : Prop := ∃ head inner, head.length = 64 ∧ b = head ++ inner ∧ PairOverruns inner

/-- What follows the values of a commit: if it starts with a zero byte, 8 bytes of length and the proof follow. -/
def ProofOverruns (b : Bytes) : Prop :=
  ∃ r, b = 0 :: r ∧ (r.length < 8 ∨ ∃ n rest, n < 2 ^ 64 ∧ r = le64 n ++ rest ∧ rest.length < n)

/-- A commit: 8 bytes of time, 8 bytes of length, the values, proof and parent. -/
def CommitOverruns (b : Bytes) : Prop :=
  ∃ (time : Bytes) (n : Nat) (rest : Bytes), time.length = 8 ∧ n < 2 ^ 64 ∧ b = time ++ (le64 n ++ rest) ∧
    (rest.length < n ∨ ∃ values rem, rest = values ++ rem ∧ values.length = n ∧ (TreeOverruns values ∨ ProofOverruns rem))

/-- Commits one after the other, each after its length. -/
inductive CommitsOverrun : Bytes → Prop
  | short (b : Bytes) : b ≠ [] → b.length < 8 → CommitsOverrun b
  | here (n : Nat) (rest : Bytes) : n < 2 ^ 64 → rest.length < n → CommitsOverrun (le64 n ++ rest)
  | first (n : Nat) (c rest : Bytes) : n = c.length → CommitOverruns c → CommitsOverrun (le64 n ++ (c ++ rest))
  | next (n : Nat) (c rest : Bytes) : n = c.length → CommitsOverrun rest → CommitsOverrun (le64 n ++ (c ++ rest))

/-- Content keys: their number, then 152 bytes for each. -/
def KeysOverrun (b : Bytes) : Prop := ∃ n rest, n < 2 ^ 64 ∧ b = le64 n ++ rest ∧ rest.length < n * 152

/-- A reference: length and bytes of the content keys, length and bytes of the commits. A length alone is checked by the decoder
unless it is close to or above `2^63`. -/
def ReferenceOverruns (b : Bytes) : Prop :=
  ∃ n rest, n < 2 ^ 64 ∧ b = le64 n ++ rest ∧
    (2 ^ 63 ≤ n + 8 ∨ ∃ keys more, rest = keys ++ more ∧ keys.length = n ∧
      (KeysOverrun keys ∨ more.length < 8 ∨ ∃ m rest', m < 2 ^ 64 ∧ more = le64 m ++ rest' ∧
        (2 ^ 63 ≤ m + (8 + n + 8) ∨ ∃ commits, m = commits.length ∧ commits <+: rest' ∧ CommitsOverrun commits)))

end DecodeSpec
end Rodkina
