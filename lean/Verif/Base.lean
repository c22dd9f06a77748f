/-!
# Go semantics shared by every model

Outcomes (value / error / panic), byte strings, little-endian `uint64` encoding and Go byte slices.
-/

namespace Rodkina

/-- Byte strings (Go `[]byte` seen as a value). -/
abbrev Bytes := List UInt8

/-- Outcome of a Go call returning `(T, error)`: the value, an error, or a run-time panic
(index or slice out of range, nil dereference, division by zero, stack exhaustion).
Models the calling convention used in every file of /repo; error *messages* are dropped. -/
inductive Res (α : Type) where
  | ok (a : α)
  | err
  | panic
  deriving Repr, DecidableEq

namespace Res

/-- `if err != nil { return nil, err }` sequencing (used throughout /repo, e.g.
libs/cryptography/domain/hashtrees/adapter.go:49-70); a panic propagates. -/
protected def bind {α β : Type} (x : Res α) (f : α → Res β) : Res β :=
  match x with
  | .ok a => f a
  | .err => .err
  | .panic => .panic

instance : Monad Res where
  pure := Res.ok
  bind := Res.bind

@[simp] theorem bind_ok {α β : Type} (a : α) (f : α → Res β) : (Res.ok a >>= f) = f a := rfl
@[simp] theorem bind_err {α β : Type} (f : α → Res β) : ((Res.err : Res α) >>= f) = Res.err := rfl
@[simp] theorem bind_panic {α β : Type} (f : α → Res β) : ((Res.panic : Res α) >>= f) = Res.panic := rfl
@[simp] theorem pure_eq {α : Type} (a : α) : (pure a : Res α) = Res.ok a := rfl

theorem bind_eq_ok {α β : Type} {x : Res α} {f : α → Res β} {b : β} :
    (x >>= f) = Res.ok b ↔ ∃ a, x = Res.ok a ∧ f a = Res.ok b := by
  cases x <;> simp

theorem bind_eq_panic {α β : Type} {x : Res α} {f : α → Res β} :
    (x >>= f) = Res.panic ↔ x = Res.panic ∨ ∃ a, x = Res.ok a ∧ f a = Res.panic := by
  cases x <;> simp

instance : LawfulMonad Res := LawfulMonad.mk'
  (id_map := by intro α x; cases x <;> rfl)
  (pure_bind := by intros; rfl)
  (bind_assoc := by intro α β γ x f g; cases x <;> rfl)

end Res

/-! ## Little-endian 64-bit integers -/

/-- `binary.LittleEndian.PutUint64` on the value modulo 2^64 with `k` bytes (`k = 8`).
Go standard library; called e.g. at libs/databases/domain/references/pointer_adapter.go:23-35. -/
def leBytes : Nat → Nat → Bytes
  | 0, _ => []
  | k + 1, n => UInt8.ofNat (n % 256) :: leBytes k (n / 256)

/-- `binary.LittleEndian.PutUint64(make([]byte, 8), uint64(n))`. -/
def le64 (n : Nat) : Bytes := leBytes 8 n

/-- `binary.LittleEndian.Uint64` on the given bytes. Go standard library; called e.g. at
libs/cryptography/domain/hashtrees/leaf_adapter.go:157. -/
def leNat : Bytes → Nat
  | [] => 0
  | b :: bs => b.toNat + 256 * leNat bs

@[simp] theorem leBytes_length (k n : Nat) : (leBytes k n).length = k := by
  induction k generalizing n with
  | zero => rfl
  | succ k ih => simp [leBytes, ih]

@[simp] theorem le64_length (n : Nat) : (le64 n).length = 8 := leBytes_length 8 n

theorem leNat_leBytes (k n : Nat) : leNat (leBytes k n) = n % 256 ^ k := by
  induction k generalizing n with
  | zero => simp [leBytes, leNat, Nat.mod_one]
  | succ k ih =>
    have h1 : (UInt8.ofNat (n % 256)).toNat = n % 256 := by
      simp [UInt8.toNat_ofNat']
    simp only [leBytes, leNat, ih, h1]
    rw [Nat.pow_succ', Nat.mod_mul]

theorem leNat_le64 (n : Nat) (h : n < 2 ^ 64) : leNat (le64 n) = n := by
  unfold le64
  rw [leNat_leBytes]
  exact Nat.mod_eq_of_lt (by simpa using h)

theorem leNat_lt (bs : Bytes) : leNat bs < 256 ^ bs.length := by
  induction bs with
  | nil => simp [leNat]
  | cons b bs ih =>
    have hb : b.toNat < 256 := b.toNat_lt
    simp only [leNat, List.length_cons, Nat.pow_succ']
    omega

theorem leBytes_leNat (bs : Bytes) : leBytes bs.length (leNat bs) = bs := by
  induction bs with
  | nil => rfl
  | cons b bs ih =>
    have hb : b.toNat < 256 := b.toNat_lt
    have h1 : (b.toNat + 256 * leNat bs) % 256 = b.toNat := by omega
    have h2 : (b.toNat + 256 * leNat bs) / 256 = leNat bs := by omega
    simp only [List.length_cons, leBytes, leNat, h1, h2, ih]
    simp

theorem le64_leNat (bs : Bytes) (h : bs.length = 8) : le64 (leNat bs) = bs := by
  have := leBytes_leNat bs
  rw [h] at this
  exact this

theorem le64_inj {m n : Nat} (hm : m < 2 ^ 64) (hn : n < 2 ^ 64) (h : le64 m = le64 n) : m = n := by
  have := congrArg leNat h
  rwa [leNat_le64 m hm, leNat_le64 n hn] at this

/-! ## Go byte slices -/

/-- A Go byte slice: the visible bytes (`len`) and the bytes of the backing array between `len` and `cap`.
Go language semantics; relevant wherever /repo re-slices decoded content, e.g.
libs/cryptography/domain/hashtrees/leaf_adapter.go:158. -/
structure Slice where
  vis : Bytes
  tail : Bytes
  deriving Repr, DecidableEq

namespace Slice

/-- `len(s)`. -/
def len (s : Slice) : Nat := s.vis.length

/-- `cap(s)`. -/
def cap (s : Slice) : Nat := s.vis.length + s.tail.length

/-- `s[a:b]`: legal when `a ≤ b ≤ cap(s)` (Go specification, "Simple slice expressions"), otherwise a panic.
Simplification: indices are natural numbers. In Go they are `int`s obtained by converting a `uint64`; a value of
2^63 or more becomes negative (or the addition of a header size wraps to a negative number) and panics. Since no slice
has a capacity of 2^63 or more, "index > cap" describes the same panics. -/
def sub (s : Slice) (a b : Nat) : Res Slice :=
  if a ≤ b ∧ b ≤ s.cap then
    .ok ⟨((s.vis ++ s.tail).drop a).take (b - a), (s.vis ++ s.tail).drop b⟩
  else .panic

/-- `s[a:]`: legal when `a ≤ len(s)`. -/
def from' (s : Slice) (a : Nat) : Res Slice :=
  if a ≤ s.len then .ok ⟨s.vis.drop a, s.tail⟩ else .panic

/-- A freshly read byte string with nothing behind it. -/
def ofBytes (b : Bytes) : Slice := ⟨b, []⟩

theorem sub_append (a b c t : Bytes) :
    sub ⟨a ++ b ++ c, t⟩ a.length (a.length + b.length) = .ok ⟨b, c ++ t⟩ := by
  unfold sub
  rw [if_pos (by simp [cap]; omega)]
  congr 2
  · simp
  · rw [show a.length + b.length = (a ++ b).length by simp]
    simp

theorem sub_zero_append (b c t : Bytes) :
    sub ⟨b ++ c, t⟩ 0 b.length = .ok ⟨b, c ++ t⟩ := by
  have := sub_append [] b c t
  simpa using this

theorem from_append (a b t : Bytes) : from' ⟨a ++ b, t⟩ a.length = .ok ⟨b, t⟩ := by
  unfold from'
  rw [if_pos (by simp [len])]
  simp

theorem sub_cap {s t : Slice} {a b : Nat} (h : s.sub a b = .ok t) : t.cap + a = s.cap := by
  unfold sub at h
  split at h
  · rename_i hc
    injection h with h
    subst h
    simp only [cap] at hc ⊢
    simp only [List.length_take, List.length_drop, List.length_append]
    omega
  · exact absurd h (by simp)

theorem from_cap {s t : Slice} {a : Nat} (h : s.from' a = .ok t) : t.cap + a = s.cap := by
  unfold from' at h
  split at h
  · rename_i hc
    injection h with h
    subst h
    simp only [cap, len] at hc ⊢
    simp only [List.length_drop]
    omega
  · exact absurd h (by simp)

theorem sub_len {s t : Slice} {a b : Nat} (h : s.sub a b = .ok t) : t.len = b - a := by
  unfold sub at h
  split at h
  · rename_i hc
    injection h with h
    subst h
    simp only [cap, len] at hc ⊢
    simp only [List.length_take, List.length_drop, List.length_append]
    omega
  · exact absurd h (by simp)

theorem from_len {s t : Slice} {a : Nat} (h : s.from' a = .ok t) : t.len = s.len - a := by
  unfold from' at h
  split at h
  · rename_i hc
    injection h with h
    subst h
    simp [len]
  · exact absurd h (by simp)

end Slice

end Rodkina
