import Verif.Builders
/-!
# Model of the grammar components (instances/grammars/components)

Functions that make grammar parts with the builders of `Builders` and panic when a builder answers an error. Arguments of interface
type are taken to be non-nil, except suites and escape tokens, which the code itself passes as nil.

A Go string is the list of its characters here; its bytes are their UTF-8 encoding. Strings that are not valid UTF-8 are left out.
A Go map is the list of its entries in the order in which the loop meets them.
-/

namespace Rodkina.Ast
namespace Comp

open Build

/-- `if err != nil { panic(err) }`, for instance instances/grammars/components/blocks/block.go:25-27. -/
def must {α : Type} : Res α → Res α
  | .ok a => .ok a
  | .err => .panic
  | .panic => .panic

/-- `[]byte(text)`: UTF-8; used at instances/grammars/components/suites/suite.go:32. -/
def textBytes (text : List Char) : Bytes := text.flatMap String.utf8EncodeChar

/-- `byte(oneValue)` of a rune keeps its low eight bits: instances/grammars/components/tokens/token.go:41, 55. -/
def byteOf (c : Char) : UInt8 := UInt8.ofNat c.toNat

/-- `strconv.Itoa(int(value))`: instances/grammars/components/elements/element.go:83. -/
def itoa (b : UInt8) : String := toString b.toNat

/-- `string(values)` as a name: instances/grammars/components/composes/compose.go:55. Names are only compared, so each byte is
written as the character with its number. -/
def bytesName (values : Bytes) : String := String.ofList (values.map (fun b => Char.ofNat b.toNat))

/-- `Cardinality`: instances/grammars/components/cardinalities/cardinality.go:28-40. -/
def cardinality (min : Nat) (max : Option Nat) : Res Cardinality :=
  must (cardinalityBuilder.build ([none, some (.withMin min)] ++
    (match max with | some m => [some (.withMax m)] | none => [])))

/-- `Once`: instances/grammars/components/cardinalities/cardinality.go:22-25. -/
def once : Res Cardinality := cardinality 1 (some 1)

/-- The loop of `Compose`: instances/grammars/components/composes/compose.go:33-53. -/
def composeElements : Bytes → Res (List (UInt8 × Nat))
  | [] => .ok []
  | b :: bs => do
    let v ← must (valueBuilder.build [none, some (.withName (itoa b)), some (.withNumber b)])
    let e ← must (composeElementBuilder.build [none, some (.withValue (some v)), some (.withOccurences 1)])
    let rest ← composeElements bs
    .ok (e :: rest)

/-- `Compose`: instances/grammars/components/composes/compose.go:31-61. -/
def compose (values : Bytes) : Res Compose := do
  let elements ← composeElements values
  must (composeBuilder.build [none, some (.withName (bytesName values)), some (.withList (some elements))])

/-- `suite`: instances/grammars/components/suites/suite.go:48-65. -/
def suite (values : Bytes) (isValid : Bool) : Res Suite := do
  let c ← compose values
  must (suiteBuilder.build [none, some (if isValid then .withValid (some c) else .withInvalid (some c))])

/-- The loop of `Suites`: instances/grammars/components/suites/suite.go:30-34. -/
def suiteList : List (List Char × Bool) → Res (List Suite)
  | [] => .ok []
  | (text, isValid) :: rest => do
    let s ← suite (textBytes text) isValid
    let list ← suiteList rest
    .ok (s :: list)

/-- `Suites`: instances/grammars/components/suites/suite.go:29-46. -/
def suites (values : List (List Char × Bool)) : Res (Option (List Suite)) := do
  let list ← suiteList values
  if list.length = 0 then .ok none
  else do
    let l ← must ((listBuilder Suite).build [none, some (some list)])
    .ok (some l)

/-- `FromValue`: instances/grammars/components/elements/element.go:81-101. -/
def fromValue (b : UInt8) : Res Element := do
  let v ← must (valueBuilder.build [none, some (.withName (itoa b)), some (.withNumber b)])
  let c ← once
  must (elementBuilder.build [none, some (.withValue (some v)), some (.withCardinality (some c))])

/-- `FromToken`: instances/grammars/components/elements/element.go:59-78. -/
def fromToken (t : Token) (c : Cardinality) : Res Element := do
  let i ← must (instanceBuilder.build [none, some (.withToken (some t))])
  must (elementBuilder.build [none, some (.withInstance (some i)), some (.withCardinality (some c))])

/-- `FromEverything`: instances/grammars/components/elements/element.go:36-56. -/
def fromEverything (e : Everything) : Res Element := do
  let i ← must (instanceBuilder.build [none, some (.withEverything (some e))])
  let c ← once
  must (elementBuilder.build [none, some (.withInstance (some i)), some (.withCardinality (some c))])

/-- `Everything`, `WithoutEscape`: instances/grammars/components/everythings/everything.go:20-40. -/
def everything (name : String) (exception : Token) (escape : Option Token) : Res Everything :=
  must (everythingBuilder.build ([none, some (.withName name), some (.withException (some exception))] ++
    (match escape with | some t => [some (.withEscape (some t))] | none => [])))

/-- The loop of `FromElements`: instances/grammars/components/lines/line.go:24-32. -/
def containers : List Element → Res (List Container)
  | [] => .ok []
  | e :: es => do
    let c ← must (containerBuilder.build [none, some (.withElement (some e))])
    let rest ← containers es
    .ok (c :: rest)

/-- `FromElements`: instances/grammars/components/lines/line.go:23-47. -/
def fromElements (elements : List Element) : Res GLine := do
  let cs ← containers elements
  let l ← must ((listBuilder Container).build [none, some (some cs)])
  .ok (.mk l)

/-- `FromLines`: instances/grammars/components/blocks/block.go:20-30. -/
def fromLines (lines : List GLine) : Res (List GLine) := must ((listBuilder GLine).build [none, some (some lines)])

/-- `FromBlock`: instances/grammars/components/tokens/token.go:87-102. -/
def fromBlock (name : String) (block : List GLine) (suites : Option (List Suite)) : Res Token :=
  must (tokenBuilder.build ([none, some (.withName name), some (.withBlock (some block))] ++
    (match suites with | some l => [some (.withSuites (some l))] | none => [])))

/-- The loop of `AnyElement`: instances/grammars/components/tokens/token.go:69-77. -/
def singleLines : List Element → Res (List GLine)
  | [] => .ok []
  | e :: es => do
    let l ← fromElements [e]
    let rest ← singleLines es
    .ok (l :: rest)

/-- `AnyElement`: instances/grammars/components/tokens/token.go:68-84. -/
def anyElement (name : String) (elements : List Element) (s : Option (List Suite)) : Res Token := do
  let lines ← singleLines elements
  let block ← fromLines lines
  fromBlock name block s

/-- The loops of `AllCharacters` and `AnyCharacter` over the characters: instances/grammars/components/tokens/token.go:39-43,
52-58. -/
def characterElements : List Char → Res (List Element)
  | [] => .ok []
  | c :: cs => do
    let e ← fromValue (byteOf c)
    let rest ← characterElements cs
    .ok (e :: rest)

/-- `AnyCharacter`: instances/grammars/components/tokens/token.go:51-65. `order` is the order in which the map of suites, which
has every character once as a key, is traversed. -/
def anyCharacter (name : String) (values order : List Char) : Res Token := do
  let es ← characterElements values
  let s ← suites (order.map (fun c => ([c], true)))
  anyElement name es s

/-- `AllCharacters`: instances/grammars/components/tokens/token.go:38-48, 116-124. -/
def allCharacters (name : String) (values : List Char) : Res Token := do
  let es ← characterElements values
  let s ← suites [(values, true)]
  let l ← fromElements es
  let block ← fromLines [l]
  fromBlock name block s

/-- `channelFromToken`: instances/grammars/components/channels/channels.go:118-128. -/
def channelFromToken (t : Token) : Res Channel := must (channelBuilder.build [none, some (.withToken (some t))])

/-- `channelFromValue`: instances/grammars/components/channels/channels.go:104-116. -/
def channelFromValue (name : String) (b : UInt8) : Res Channel := do
  let e ← fromValue b
  let l ← fromElements [e]
  let block ← fromLines [l]
  let s ← suites []
  let t ← fromBlock name block s
  channelFromToken t

end Comp
end Rodkina.Ast
