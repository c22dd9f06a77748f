import Verif.Ast

/-!
# Model of the shipped grammar (instances/grammars)

The grammar of grammar files, function by function.  Simplified throughout: suites (test inputs of a
token) are left out, they are only read by `Coverages`.  All strings of the Go code are ASCII, so a
Go string is written as the list of its byte codes.
-/

namespace Rodkina.Ast.Shipped

open Rodkina.Ast

/-! ## Components -/

/-- An element that occurs exactly once: instances/grammars/components/cardinalities/cardinality.go:22-25. -/
def once (c : Content) : Container := .element 1 (some 1) c

/-- `FromValue`: the name is the decimal number of the byte.
instances/grammars/components/elements/element.go:81-101. -/
def fromValue (b : UInt8) : Container := once (.value (toString b.toNat) b)

/-- `FromToken` with a cardinality: instances/grammars/components/elements/element.go:59-78. -/
def fromToken (t : Token) (min : Nat) (max : Option Nat) : Container := .element min max (.token t)

/-- `FromEverything`: instances/grammars/components/elements/element.go:36-56. -/
def fromEverything (name : String) (exception : Token) (escape : Option Token) : Container :=
  once (.everything name exception escape)

/-- `FromBlock` of lines given by their elements: instances/grammars/components/tokens/token.go:87-102,
instances/grammars/components/lines/line.go:23-35, instances/grammars/components/blocks/block.go:20-30. -/
def fromLines (name : String) (lines : List (List Container)) : Token :=
  .mk name (lines.map .mk) []

/-- `AnyElement`: instances/grammars/components/tokens/token.go:68-84. -/
def anyElement (name : String) (elements : List Container) : Token :=
  fromLines name (elements.map (fun e => [e]))

/-- `AnyCharacter`: instances/grammars/components/tokens/token.go:51-65. -/
def anyCharacter (name : String) (values : Bytes) : Token := anyElement name (values.map fromValue)

/-- `AllCharacters`: instances/grammars/components/tokens/token.go:38-48, 116-124. -/
def allCharacters (name : String) (values : Bytes) : Token := fromLines name [values.map fromValue]

/-! ## Channels -/

/-- `channelFromValue`: instances/grammars/components/channels/channels.go:104-116. -/
def channelFromValue (name : String) (b : UInt8) : Channel :=
  .mk (fromLines name [[fromValue b]]) none none

/-- The exception of the comment channel, `"\n"` or `"\r"`:
instances/grammars/components/channels/channels.go:70-80. -/
def endOfLine : Token := anyElement "endOfLineSpaces" [fromValue 10, fromValue 13]

/-- The single-line comment: instances/grammars/components/channels/channels.go:60-91. -/
def comment : Token :=
  fromLines "singleLineComment"
    [[fromToken (allCharacters "doubleSlash" [47, 47]) 1 (some 1),
      fromEverything "everythingExceptEndOfLine" endOfLine none]]

/-- `Channels`: space, tab, new line, return, comment.
instances/grammars/components/channels/channels.go:53-102. -/
def channels : List Channel :=
  [channelFromValue "space" 32, channelFromValue "tab" 9, channelFromValue "newLine" 10,
    channelFromValue "retChar" 13, .mk comment none none]

/-! ## Tokens -/

/-- `"abcdefghijklmnopqrstuvwxyz"`: instances/grammars/tokens/token.go:253. -/
def lowerBytes : Bytes := (List.range' 97 26).map UInt8.ofNat

/-- `"ABCDEFGHIJKLMNOPQRSTUVWXYZ"`: instances/grammars/tokens/token.go:247. -/
def upperBytes : Bytes := (List.range' 65 26).map UInt8.ofNat

/-- `"abcdef"`: instances/grammars/tokens/token.go:241. -/
def afLowerBytes : Bytes := (List.range' 97 6).map UInt8.ofNat

/-- `"ABCDEF"`: instances/grammars/tokens/token.go:235. -/
def afUpperBytes : Bytes := (List.range' 65 6).map UInt8.ofNat

/-- `"0123456789"`: instances/grammars/tokens/token.go:229. -/
def digitBytes : Bytes := (List.range' 48 10).map UInt8.ofNat

/-- `byte(i)` for `i` below `byteLength = 256`: instances/grammars/tokens/token.go:218,
instances/grammars/tokens/sdk.go:8. -/
def allBytes : Bytes := (List.range' 0 256).map UInt8.ofNat

/-- `LowerCaseLetters`: instances/grammars/tokens/token.go:252-255. -/
def lowerCaseLetter : Token := anyCharacter "lowerCaseLetter" lowerBytes

/-- `UpperCaseLetters`: instances/grammars/tokens/token.go:246-249. -/
def upperCaseLetter : Token := anyCharacter "uppercaseLetter" upperBytes

/-- `AToFLowerCaseLetters`: instances/grammars/tokens/token.go:240-243. -/
def aToFLower : Token := anyCharacter "aToFLowerCaseLetter" afLowerBytes

/-- `AToFUpperCaseLetters`: instances/grammars/tokens/token.go:234-237. -/
def aToFUpper : Token := anyCharacter "aToFUpperCaseLetters" afUpperBytes

/-- `AnyNumber`: instances/grammars/tokens/token.go:228-231. -/
def anyNumber : Token := anyCharacter "anyNumber" digitBytes

/-- `AnyByte`: instances/grammars/tokens/token.go:214-225. -/
def anyByte : Token := anyCharacter "anyByte" allBytes

/-- `AnyLetter`: instances/grammars/tokens/token.go:144-211. -/
def anyLetter : Token :=
  fromLines "anyLetter" [[fromToken upperCaseLetter 1 (some 1)],
    [fromToken lowerCaseLetter 1 (some 1)]]

/-- `AnyHexCharacter`: instances/grammars/tokens/token.go:62-141. -/
def anyHexChar : Token :=
  fromLines "anyHexChar" [[fromToken aToFLower 1 (some 1)], [fromToken aToFUpper 1 (some 1)],
    [fromToken anyNumber 1 (some 1)]]

/-- `VariableName`: instances/grammars/tokens/token.go:25-41. -/
def variableName : Token :=
  fromLines "variableName" [[fromToken lowerCaseLetter 1 (some 1), fromToken anyLetter 0 none]]

/-- `Sha512Hex`: instances/grammars/tokens/token.go:44-59. -/
def sha512Hex : Token :=
  fromLines "sha512Hex" [[fromToken anyHexChar 128 (some 128)]]

/-! ## The grammar of grammar files -/

/-- `rootToken`, `@name;`: instances/grammars/grammars/grammar.go:238-252. -/
def root : Token :=
  fromLines "root" [[fromValue 64, fromToken variableName 1 (some 1), fromValue 59]]

/-- `channelPreviousNextInsideToken`: instances/grammars/grammars/grammar.go:293-316. -/
def channelPreviousNextInside : Token :=
  fromLines "channelPreviousNextInside"
    [[fromToken variableName 1 (some 1), fromValue 58, fromToken variableName 1 (some 1)],
      [fromValue 58, fromToken variableName 1 (some 1)],
      [fromToken variableName 1 (some 1)]]

/-- `channelPreviousNextToken`: instances/grammars/grammars/grammar.go:275-291. -/
def channelPreviousNext : Token :=
  fromLines "channelPreviousNext"
    [[fromValue 91, fromToken channelPreviousNextInside 1 (some 1), fromValue 93]]

/-- `channelToken`: instances/grammars/grammars/grammar.go:254-273. -/
def channel : Token :=
  fromLines "channel"
    [[fromValue 45, fromToken variableName 1 (some 1), fromToken channelPreviousNext 0 (some 1),
      fromValue 59]]

/-- `valueAssignmentToken`: instances/grammars/grammars/grammar.go:356-372. -/
def valueAssignment : Token :=
  fromLines "valueAssignment"
    [[fromToken variableName 1 (some 1), fromValue 58, fromToken anyByte 1 none]]

/-- `delimiterThenSuiteElementToken`: instances/grammars/grammars/grammar.go:487-500. -/
def delimiterThenSuiteElement : Token :=
  fromLines "delimiterThenSuiteElement" [[fromValue 38, fromToken variableName 1 (some 1)]]

/-- `suiteBlockToken`: instances/grammars/grammars/grammar.go:469-485. -/
def suiteBlock : Token :=
  fromLines "suiteBlock"
    [[fromValue 58, fromToken variableName 1 (some 1), fromToken delimiterThenSuiteElement 0 none,
      fromValue 59]]

/-- `suiteValidToken` (`"valid"`): instances/grammars/grammars/grammar.go:449-467. -/
def suiteValid : Token :=
  fromLines "suiteValid"
    [[fromToken (allCharacters "validConst" [118, 97, 108, 105, 100]) 1 (some 1),
      fromToken suiteBlock 1 (some 1)]]

/-- `suiteInvalidToken` (`"invalid"`): instances/grammars/grammars/grammar.go:428-447. -/
def suiteInvalid : Token :=
  fromLines "suiteInvalid"
    [[fromToken (allCharacters "invalidConst" [105, 110, 118, 97, 108, 105, 100]) 1 (some 1),
      fromToken suiteBlock 1 (some 1)]]

/-- `suiteToken` (`"---"`): instances/grammars/grammars/grammar.go:374-426. -/
def suite : Token :=
  fromLines "suite"
    [[fromToken (allCharacters "suitePrefixConst" [45, 45, 45]) 1 (some 1),
      fromToken suiteValid 1 (some 1), fromToken suiteInvalid 0 (some 1)],
     [fromToken (allCharacters "suitePrefixConst" [45, 45, 45]) 1 (some 1),
      fromToken suiteValid 0 (some 1), fromToken suiteInvalid 1 (some 1)]]

/-- `cardinalityToken`: instances/grammars/grammars/grammar.go:574-611. -/
def cardinality : Token :=
  fromLines "cardinality"
    [[fromValue 63], [fromValue 43], [fromValue 42],
      [fromValue 91, fromToken anyNumber 1 none, fromValue 93],
      [fromValue 91, fromToken anyNumber 1 none, fromValue 44, fromToken anyNumber 0 none,
        fromValue 93]]

/-- `elementToken`: instances/grammars/grammars/grammar.go:552-572. -/
def element : Token :=
  fromLines "element" [[fromToken variableName 1 (some 1), fromToken cardinality 0 none]]

/-- `lineToken`: instances/grammars/grammars/grammar.go:538-550. -/
def line : Token := fromLines "line" [[fromToken element 1 none]]

/-- `delimiterThenLineToken`: instances/grammars/grammars/grammar.go:523-536. -/
def delimiterThenLine : Token :=
  fromLines "delimiterThenLine" [[fromValue 124, fromToken line 1 (some 1)]]

/-- `blockToken`: instances/grammars/grammars/grammar.go:502-521. -/
def block : Token :=
  fromLines "block" [[fromToken line 1 (some 1), fromToken delimiterThenLine 0 none]]

/-- `separatorAmountOfComposeToken`: instances/grammars/grammars/grammar.go:662-676. -/
def composeWithAmount : Token :=
  fromLines "composeWithAmount" [[fromValue 124, fromToken anyNumber 1 none]]

/-- `composeToken`: instances/grammars/grammars/grammar.go:645-660. -/
def compose : Token :=
  fromLines "compose" [[fromToken variableName 1 (some 1), fromToken composeWithAmount 0 none]]

/-- `everythingWithEscapeToken`: instances/grammars/grammars/grammar.go:722-737. -/
def everythingWithEscape : Token :=
  fromLines "everythingWithEscape"
    [[fromValue 35, fromToken variableName 1 (some 1), fromValue 33,
      fromToken variableName 1 (some 1)]]

/-- `everythingWithoutEscapeToken`: instances/grammars/grammars/grammar.go:739-752. -/
def everythingWithoutEscape : Token :=
  fromLines "everythingWithoutEscape" [[fromValue 35, fromToken variableName 1 (some 1)]]

/-- `everythingToken`: instances/grammars/grammars/grammar.go:704-720. -/
def everything : Token :=
  fromLines "everything" [[fromToken everythingWithEscape 1 (some 1)],
    [fromToken everythingWithoutEscape 1 (some 1)]]

/-- The common form `name : body suite ;` of the assignments at
instances/grammars/grammars/grammar.go:213-236, 318-354, 613-643, 678-702. -/
def assignment (name : String) (body : Token) : Token :=
  fromLines name
    [[fromToken variableName 1 (some 1), fromValue 58, fromToken body 1 (some 1),
      fromToken suite 1 (some 1), fromValue 59]]

/-- `composeAssignmentToken`: instances/grammars/grammars/grammar.go:613-643. -/
def composeAssignment : Token := assignment "composeAssignment" compose

/-- `everythingAssignmentToken`: instances/grammars/grammars/grammar.go:678-702. -/
def everythingAssignment : Token := assignment "everythingAssignment" everything

/-- `tokenAssignmentToken`: instances/grammars/grammars/grammar.go:318-354. -/
def tokenAssignment : Token := assignment "tokenAssignment" block

/-- `externalTokenAssignmentToken`: instances/grammars/grammars/grammar.go:213-236. -/
def externalTokenAssignment : Token := assignment "externalTokenAssignment" sha512Hex

/-- `instructionToken`: instances/grammars/grammars/grammar.go:153-211. -/
def instruction : Token :=
  fromLines "instruction"
    [[fromToken valueAssignment 1 (some 1)], [fromToken composeAssignment 1 (some 1)],
      [fromToken everythingAssignment 1 (some 1)], [fromToken tokenAssignment 1 (some 1)],
      [fromToken externalTokenAssignment 1 (some 1)]]

/-- `GrammarToken`: instances/grammars/grammars/grammar.go:96-151. -/
def grammarToken : Token :=
  fromLines "grammar"
    [[fromToken root 1 (some 1), fromToken channel 0 none, fromToken instruction 1 none]]

/-- `Grammar`: instances/grammars/grammars/grammar.go:80-93. -/
def grammar : Grammar := .mk grammarToken channels

end Rodkina.Ast.Shipped
