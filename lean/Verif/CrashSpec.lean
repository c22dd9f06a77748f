import Verif.DecodeSpec
/-!
# Specification: which bytes the decoders accept and which crash them

On byte strings, without slices. `behind` is what follows the bytes in their buffer, up to its capacity: a length field that says
more than there is takes the bytes behind first.
-/

namespace Rodkina
namespace CrashSpec

open DecodeSpec

/-! ## Hash trees -/

/-- The bytes of a leaf: a head of 64 bytes; or a head, 8 bytes of length of the left leaf, the left leaf and the right leaf. -/
inductive LeafBytes : Bytes → Prop
  | bottom (head : Bytes) : head.length = 64 → LeafBytes head
  | inner (head left right : Bytes) : head.length = 64 → left.length < 2 ^ 64 → LeafBytes left → LeafBytes right →
      LeafBytes (head ++ (le64 left.length ++ (left ++ right)))

/-- The bytes of a hash tree: those of a leaf that is not a bottom leaf. -/
def TreeBytes (b : Bytes) : Prop :=
  ∃ head left right, head.length = 64 ∧ left.length < 2 ^ 64 ∧ LeafBytes left ∧ LeafBytes right ∧
    b = head ++ (le64 left.length ++ (left ++ right))

/-- A pair of leaves of at least 128 bytes that crashes its decoder. -/
inductive PairCrashes : Bytes → Bytes → Prop
  /-- The left leaf would end behind the buffer. -/
  | far (n : Nat) (rest behind : Bytes) : n < 2 ^ 64 → 120 ≤ rest.length → rest.length + behind.length < n →
      PairCrashes (le64 n ++ rest) behind
  /-- The left leaf crashes. -/
  | left (n : Nat) (rest behind head inner more : Bytes) : n < 2 ^ 64 → 120 ≤ rest.length → n = (head ++ inner).length →
      rest ++ behind = (head ++ inner) ++ more → head.length = 64 → PairCrashes inner more → PairCrashes (le64 n ++ rest) behind
  /-- The left leaf is one, but ends behind the bytes. -/
  | past (n : Nat) (rest behind left more : Bytes) : n < 2 ^ 64 → 120 ≤ rest.length → n = left.length →
      rest ++ behind = left ++ more → LeafBytes left → rest.length < n → PairCrashes (le64 n ++ rest) behind
  /-- The left leaf is one, and the right leaf crashes. -/
  | right (n : Nat) (behind left head inner : Bytes) : n < 2 ^ 64 → n = left.length → LeafBytes left → head.length = 64 →
      PairCrashes inner behind → PairCrashes (le64 n ++ (left ++ (head ++ inner))) behind

/-- A leaf that crashes its decoder: a pair that does, after a head. -/
def LeafCrashes (b behind : Bytes) : Prop := ∃ head inner, head.length = 64 ∧ b = head ++ inner ∧ PairCrashes inner behind

/-- A hash tree that crashes its decoder. -/
def TreeCrashes (b behind : Bytes) : Prop := LeafCrashes b behind

/-- Leaves one after the other, each after its length. -/
def listed : List Bytes → Bytes
  | [] => []
  | l :: ls => le64 l.length ++ (l ++ listed ls)

/-- Bytes, with those behind, that are read as the leaves of a compact tree: their number, and the leaves. -/
def LeavesBytes (b behind : Bytes) : Prop :=
  ∃ (leaves : List Bytes) (more : Bytes), 80 ≤ b.length ∧ leaves ≠ [] ∧ leaves.length < 2 ^ 63 ∧
    (∀ l ∈ leaves, LeafBytes l ∧ l.length < 2 ^ 64) ∧ b ++ behind = le64 leaves.length ++ (listed leaves ++ more)

/-- Leaves that crash their decoder: after some leaves, fewer than there are to be, there is no room for a length, the next leaf
would end behind the buffer, or it crashes. -/
def LeavesCrash (b behind : Bytes) : Prop :=
  ∃ (n : Nat) (leaves : List Bytes) (more : Bytes), 80 ≤ b.length ∧ n < 2 ^ 63 ∧ leaves.length < n ∧
    (∀ l ∈ leaves, LeafBytes l ∧ l.length < 2 ^ 64) ∧ b ++ behind = le64 n ++ (listed leaves ++ more) ∧
    (more.length < 8 ∨ ∃ m rest, m < 2 ^ 64 ∧ more = le64 m ++ rest ∧
      (rest.length < m ∨ ∃ l rest', rest = l ++ rest' ∧ l.length = m ∧ LeafCrashes l rest'))

/-- A compact tree: a head and leaves. -/
def CompactBytes (b behind : Bytes) : Prop := ∃ head rest, head.length = 64 ∧ b = head ++ rest ∧ LeavesBytes rest behind

/-- A compact tree that crashes its decoder. -/
def CompactCrashes (b behind : Bytes) : Prop := ∃ head rest, head.length = 64 ∧ b = head ++ rest ∧ LeavesCrash rest behind

/-! ## Commits -/

/-- What may follow the values: nothing, a proof (marked by a zero byte) with its length, and then anything. -/
def ProofBytes (b : Bytes) : Prop := ¬ ProofOverruns b

/-- The bytes of a commit. -/
def CommitBytes (b : Bytes) : Prop :=
  ∃ time values rest : Bytes, time.length = 8 ∧ values.length < 2 ^ 64 ∧ TreeBytes values ∧ ProofBytes rest ∧
    b = time ++ (le64 values.length ++ (values ++ rest))

/-- A commit of at least 208 bytes that crashes its decoder. -/
def CommitCrashes (b behind : Bytes) : Prop :=
  ∃ (time : Bytes) (n : Nat) (rest : Bytes), time.length = 8 ∧ n < 2 ^ 64 ∧ 192 ≤ rest.length ∧ b = time ++ (le64 n ++ rest) ∧
    (rest.length + behind.length < n ∨
      (∃ values more, rest ++ behind = values ++ more ∧ values.length = n ∧
        (TreeCrashes values more ∨ TreeBytes values ∧ rest.length < n)) ∨
      ∃ values more, rest = values ++ more ∧ values.length = n ∧ TreeBytes values ∧ ProofOverruns more)

/-- Commits one after the other, each after its length. -/
inductive CommitsBytes : Bytes → Prop
  | nil : CommitsBytes []
  | cons (c rest : Bytes) : c.length < 2 ^ 64 → CommitBytes c → CommitsBytes rest → CommitsBytes (le64 c.length ++ (c ++ rest))

/-- Commits one after the other that crash their decoder. -/
inductive CommitsCrash : Bytes → Bytes → Prop
  /-- No room for a length. -/
  | short (b behind : Bytes) : b ≠ [] → b.length + behind.length < 8 → CommitsCrash b behind
  /-- The commit would end behind the buffer. -/
  | far (n : Nat) (b behind rest : Bytes) : b ≠ [] → n < 2 ^ 64 → b ++ behind = le64 n ++ rest → rest.length < n →
      CommitsCrash b behind
  /-- The commit crashes. -/
  | commit (n : Nat) (b behind c rest : Bytes) : b ≠ [] → n < 2 ^ 64 → n = c.length → b ++ behind = le64 n ++ (c ++ rest) →
      CommitCrashes c rest → CommitsCrash b behind
  /-- The commit is one, but ends behind the bytes. -/
  | past (n : Nat) (b behind c rest : Bytes) : b ≠ [] → n < 2 ^ 64 → n = c.length → b ++ behind = le64 n ++ (c ++ rest) →
      CommitBytes c → b.length < 8 + n → CommitsCrash b behind
  /-- The commit is one, and one of those that follow crashes. -/
  | next (n : Nat) (c rest behind : Bytes) : n < 2 ^ 64 → n = c.length → CommitBytes c → CommitsCrash rest behind →
      CommitsCrash (le64 n ++ (c ++ rest)) behind

/-! ## Content keys -/

/-- The bytes of a content key: hash, kind, where the content starts, its length (not zero), hash of the commit. -/
def KeyBytes (b : Bytes) : Prop :=
  ∃ hash kind start commit : Bytes, ∃ length : Nat, hash.length = 64 ∧ kind.length = 8 ∧ start.length = 8 ∧ length < 2 ^ 64 ∧
    length ≠ 0 ∧ commit.length = 64 ∧ b = hash ++ (kind ++ (start ++ (le64 length ++ commit)))

/-- Bytes, with those behind, that are read as content keys. -/
def KeysBytes (b behind : Bytes) : Prop :=
  ∃ (keys : List Bytes) (more : Bytes), 160 ≤ b.length ∧ keys ≠ [] ∧ keys.length < 2 ^ 63 ∧ (∀ k ∈ keys, KeyBytes k) ∧
    b ++ behind = le64 keys.length ++ (keys.flatten ++ more)

/-- Content keys that crash their decoder: those in the buffer are keys, and it ends before their number is reached. -/
def KeysCrash (b behind : Bytes) : Prop :=
  ∃ (n : Nat) (keys : List Bytes) (more : Bytes), 160 ≤ b.length ∧ n < 2 ^ 63 ∧ keys.length < n ∧ more.length < 152 ∧
    (∀ k ∈ keys, KeyBytes k) ∧ b ++ behind = le64 n ++ (keys.flatten ++ more)

/-! ## References -/

/-- The bytes of a reference, with those behind, that are accepted. -/
def ReferenceBytes (b behind : Bytes) : Prop :=
  ∃ keys commits more : Bytes, 16 + keys.length + commits.length < 2 ^ 63 ∧ KeysBytes keys (le64 commits.length ++ (commits ++ (more ++ behind))) ∧
    216 ≤ commits.length ∧ CommitsBytes commits ∧ b = le64 keys.length ++ (keys ++ (le64 commits.length ++ (commits ++ more)))

/-- References of at least 360 bytes that crash their decoder. -/
def ReferenceCrashes (b behind : Bytes) : Prop :=
  360 ≤ b.length ∧
  ∃ n rest, n < 2 ^ 64 ∧ b = le64 n ++ rest ∧
    (2 ^ 63 ≤ n + 8 ∨ ∃ keys more, rest = keys ++ more ∧ keys.length = n ∧
      (KeysCrash keys (more ++ behind) ∨
        KeysBytes keys (more ++ behind) ∧
          (more.length + behind.length < 8 ∨ ∃ m rest', m < 2 ^ 64 ∧ more ++ behind = le64 m ++ rest' ∧
            (2 ^ 63 ≤ m + (8 + n + 8) ∨
              ∃ commits rest'', more = le64 m ++ (commits ++ rest'') ∧ m = commits.length ∧ 216 ≤ m ∧
                CommitsCrash commits (rest'' ++ behind)))))

/-! ## Contents -/

/-- Contents one after the other, each after its length; a content has 64 bytes of hash, 8 of kind and at least one of data. -/
inductive ContentsBytes : Bytes → Prop
  | nil : ContentsBytes []
  | cons (c rest : Bytes) : 73 ≤ c.length → c.length < 2 ^ 64 → ContentsBytes rest → ContentsBytes (le64 c.length ++ (c ++ rest))

/-- Contents one after the other that crash their decoder. -/
inductive ContentsCrash : Bytes → Bytes → Prop
  | short (b behind : Bytes) : b ≠ [] → b.length + behind.length < 8 → ContentsCrash b behind
  | far (n : Nat) (b behind rest : Bytes) : b ≠ [] → n < 2 ^ 64 → b ++ behind = le64 n ++ rest → rest.length < n →
      ContentsCrash b behind
  | past (n : Nat) (b behind rest : Bytes) : b ≠ [] → n < 2 ^ 64 → b ++ behind = le64 n ++ rest → n ≤ rest.length → 73 ≤ n →
      b.length < 8 + n → ContentsCrash b behind
  | next (n : Nat) (c rest behind : Bytes) : n < 2 ^ 64 → n = c.length → 73 ≤ n → ContentsCrash rest behind →
      ContentsCrash (le64 n ++ (c ++ rest)) behind

end CrashSpec
end Rodkina
