import Verif.AstSpec

/-!
# Specification of the shipped tokens

Character classes, white space and comments, stated directly on bytes.
-/

namespace Rodkina.Ast.Shipped

/-- `a` to `z`. -/
def isLower (b : UInt8) : Bool := decide (97 ≤ b.toNat ∧ b.toNat ≤ 122)
/-- `A` to `Z`. -/
def isUpper (b : UInt8) : Bool := decide (65 ≤ b.toNat ∧ b.toNat ≤ 90)
/-- `a` to `f`. -/
def isAfLower (b : UInt8) : Bool := decide (97 ≤ b.toNat ∧ b.toNat ≤ 102)
/-- `A` to `F`. -/
def isAfUpper (b : UInt8) : Bool := decide (65 ≤ b.toNat ∧ b.toNat ≤ 70)
/-- `0` to `9`. -/
def isDigit (b : UInt8) : Bool := decide (48 ≤ b.toNat ∧ b.toNat ≤ 57)
/-- A letter. -/
def isLetter (b : UInt8) : Bool := isUpper b || isLower b
/-- A hexadecimal digit. -/
def isHex (b : UInt8) : Bool := isAfLower b || isAfUpper b || isDigit b

/-- Space, tab, new line, carriage return. -/
def isBlank (b : UInt8) : Bool := decide (b = 32 ∨ b = 9 ∨ b = 10 ∨ b = 13)

/-- The second slash of a comment, followed by at least one byte that is not a new line. -/
def opensComment : Bytes → Bool
  | 47 :: c :: _ => c != 10
  | _ => false

/-- Skip white space and comments (`//` and at least one more byte, to the end of the line); the flag
says whether we are inside a comment. -/
def skipB : Bool → Bytes → Bytes
  | _, [] => []
  | true, b :: r => if b = 10 then skipB false r else skipB true r
  | false, b :: r =>
    if isBlank b then skipB false r
    else if b = 47 ∧ opensComment r = true then skipB true r
    else b :: r

/-- White space and comments at the front are dropped. -/
def skipBlanks (d : Bytes) : Bytes := skipB false d

/-- Remove all white space and comments; the number bounds the length. -/
def significantN : Nat → Bytes → Bytes
  | 0, _ => []
  | k + 1, d => match skipBlanks d with
    | [] => []
    | b :: r => b :: significantN k r

/-- The bytes that are neither white space nor part of a comment. -/
def significant (d : Bytes) : Bytes := significantN d.length d

end Rodkina.Ast.Shipped

namespace Rodkina.Ast

mutual
/-- The bytes at the leaves of a shape. -/
def Shape.bytes : Shape → Bytes
  | .byte b => [b]
  | .node _ _ es => shapeElemsBytes es
/-- Leaves of elements. -/
def shapeElemsBytes : List ShapeElem → Bytes
  | [] => []
  | e :: es => ShapeElem.bytes e ++ shapeElemsBytes es
/-- Leaves of an element. -/
def ShapeElem.bytes : ShapeElem → Bytes
  | .mk _ cs => shapesBytes cs
/-- Leaves of shapes. -/
def shapesBytes : List Shape → Bytes
  | [] => []
  | c :: cs => Shape.bytes c ++ shapesBytes cs
end

end Rodkina.Ast
