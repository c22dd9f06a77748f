import Verif.AstShippedSpec
import Mathlib.Computability.Language

/-!
# Specification: how the parts of a grammar file are written

Every part is a set of texts, built with concatenation (`*`), choice (`+`) and repetition (`∗`).
Nothing here refers to tokens, to the parser or to the reference interpreter.
-/

namespace Rodkina.GrammarText

open Rodkina.Ast.Shipped (isLower isLetter isDigit isHex)
open scoped Computability

/-- Texts. -/
abbrev Text := Language UInt8

/-- Exactly this byte. -/
def byte (b : UInt8) : Text := ({[b]} : Set Bytes)

/-- Exactly these bytes. -/
def word (w : Bytes) : Text := ({w} : Set Bytes)

/-- One byte of a class. -/
def oneOf (p : UInt8 → Bool) : Text := ({w | ∃ b, p b = true ∧ w = [b]} : Set Bytes)

/-- At least one. -/
def some1 (L : Text) : Text := L * L∗

/-- At most one. -/
def optional (L : Text) : Text := 1 + L

/-- A lower case letter, then letters. -/
def name : Text := oneOf isLower * (oneOf isLetter)∗

/-- At least one digit. -/
def number : Text := some1 (oneOf isDigit)

/-- 128 hexadecimal digits. -/
def hash : Text := ({w | w.length = 128 ∧ ∀ b ∈ w, isHex b = true} : Set Bytes)

/-- `@name;` -/
def root : Text := byte 64 * name * byte 59

/-- `previous:next`, `:next` or `previous`. -/
def condition : Text := name * byte 58 * name + byte 58 * name + name

/-- A condition in brackets. -/
def bracketed : Text := byte 91 * condition * byte 93

/-- `-name;` or `-name[condition];` -/
def channel : Text := byte 45 * name * optional bracketed * byte 59

/-- `name:` and at least one byte of any kind. -/
def value : Text := name * byte 58 * some1 (oneOf fun _ => true)

/-- `&name` -/
def further : Text := byte 38 * name

/-- `:name&name...;` -/
def inputs : Text := byte 58 * name * further∗ * byte 59

/-- `valid:...;` -/
def valid : Text := word [118, 97, 108, 105, 100] * inputs

/-- `invalid:...;` -/
def invalid : Text := word [105, 110, 118, 97, 108, 105, 100] * inputs

/-- `---`, then valid or invalid inputs or both, in this order. -/
def suite : Text := word [45, 45, 45] * (valid * optional invalid + optional valid * invalid)

/-- `?`, `+`, `*`, `[n]`, `[n,]` or `[n,m]`. -/
def cardinality : Text :=
  byte 63 + byte 43 + byte 42 + byte 91 * number * byte 93 +
    byte 91 * number * byte 44 * (oneOf isDigit)∗ * byte 93

/-- A name and any number of cardinalities. -/
def element : Text := name * cardinality∗

/-- At least one element. -/
def line : Text := some1 element

/-- `|` and a line. -/
def alternative : Text := byte 124 * line

/-- Lines separated by `|`. -/
def block : Text := line * alternative∗

/-- `|` and a number. -/
def amount : Text := byte 124 * number

/-- A name and any number of amounts. -/
def compose : Text := name * amount∗

/-- `#name!name` -/
def escaped : Text := byte 35 * name * byte 33 * name

/-- `#name` -/
def unescaped : Text := byte 35 * name

/-- `#name` or `#name!name` -/
def everything : Text := escaped + unescaped

/-- `name:`, the body, a suite and `;`. -/
def assign (body : Text) : Text := name * byte 58 * body * suite * byte 59

/-- Any assignment. -/
def instruction : Text :=
  value + assign compose + assign everything + assign block + assign hash

/-- A root, channels and at least one assignment. -/
def file : Text := root * channel∗ * some1 instruction

/-- `m` is the longest text of the set that the input starts with, `r` is what follows. -/
def Longest (L : Text) (input m r : Bytes) : Prop :=
  input = m ++ r ∧ m ∈ L ∧ ∀ m' r', input = m' ++ r' → m' ∈ L → m'.length ≤ m.length

/-- The input starts with no text of the set. -/
def StartsWithNone (L : Text) (input : Bytes) : Prop := ∀ m r, input = m ++ r → m ∉ L

end Rodkina.GrammarText
