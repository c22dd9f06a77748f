import Verif.Base
/-!
# Model of libs/cryptography/domain/hash
-/

namespace Rodkina

/-- SHA-512 as an arbitrary function with 64-byte results (`crypto/sha512`, used at
libs/cryptography/domain/hash/adapter.go:19-25). No other property of it is assumed anywhere. -/
structure Sha where
  f : Bytes → Bytes
  len : ∀ b, (f b).length = 64

namespace Hash

/-- `hash.Size`, libs/cryptography/domain/hash/sdk.go:4. -/
def size : Nat := 64

/-- `adapter.FromBytes`, libs/cryptography/domain/hash/adapter.go:17-34. The error of `h.Write` never occurs
(`hash.Hash.Write` never returns an error), so the function is total. -/
def fromBytes (S : Sha) (input : Bytes) : Bytes :=
  if input.length ≠ size then S.f input else input

/-- `adapter.FromMultiBytes`, libs/cryptography/domain/hash/adapter.go:37-44. -/
def fromMultiBytes (S : Sha) (input : List Bytes) : Bytes :=
  fromBytes S (input.foldl (fun merged row => merged ++ row) [])

/-- `Hash.Compare`, libs/cryptography/domain/hash/hash.go:9-21 (`bytes.Compare(a, b) == 0`). -/
def compare (a b : Bytes) : Bool := a == b

/-- One lower-case hexadecimal digit, as printed by `%x` (libs/cryptography/domain/hash/hash.go:36). -/
def hexDigit (n : Nat) : Char :=
  if n < 10 then Char.ofNat (48 + n) else Char.ofNat (87 + n)

/-- `Hash.String` = `fmt.Sprintf("%x", bytes)`, libs/cryptography/domain/hash/hash.go:34-37. -/
def toString (h : Bytes) : List Char :=
  h.flatMap (fun b => [hexDigit (b.toNat / 16), hexDigit (b.toNat % 16)])

/-- Value of one hexadecimal digit, upper or lower case (`encoding/hex.fromHexChar`, used by
libs/cryptography/domain/hash/adapter.go:48). -/
def hexValue (c : Char) : Option Nat :=
  if 48 ≤ c.toNat ∧ c.toNat ≤ 57 then some (c.toNat - 48)
  else if 97 ≤ c.toNat ∧ c.toNat ≤ 102 then some (c.toNat - 87)
  else if 65 ≤ c.toNat ∧ c.toNat ≤ 70 then some (c.toNat - 55)
  else none

/-- `hex.DecodeString` (Go standard library), called at libs/cryptography/domain/hash/adapter.go:48: pairs of digits;
an odd number of characters or a non-digit is an error. -/
def hexDecode : List Char → Res Bytes
  | [] => .ok []
  | [_] => .err
  | a :: b :: rest =>
    match hexValue a, hexValue b with
    | some x, some y =>
      match hexDecode rest with
      | .ok bs => .ok (UInt8.ofNat (16 * x + y) :: bs)
      | .err => .err
      | .panic => .panic
    | _, _ => .err

/-- `adapter.FromString`, libs/cryptography/domain/hash/adapter.go:47-59. -/
def fromString (S : Sha) (input : List Char) : Res Bytes := do
  let bytes ← hexDecode input
  pure (fromBytes S bytes)

end Hash
end Rodkina
