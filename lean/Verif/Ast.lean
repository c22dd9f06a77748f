import Verif.Base

/-!
# Model of the grammar / parse-tree library (libs/asts)

Grammar objects, parse trees, the parser `Execute`, and `Compose`.

Conventions.
* Grammar objects in Go are immutable interface values built by builders, so they are finite trees;
  recursion in a grammar only goes through *names* (`recursive`).
* Every recursive call of the parser goes through `application.token`.  The Lean parser is therefore
  written as a body `tokenBody rec` that receives the recursive call `rec`, and `token n` is the
  `n`-fold iteration of that body: `n` bounds the *nesting depth* of `token` calls (the Go call
  stack).  The outcome `oof` ("out of fuel") means that the nesting was deeper than `n`.
* The Go map `stackMap` is shared by all calls of one grammar execution and mutated in place, also
  by calls that end in an error.  It is threaded as a state through every outcome.
* Error messages are dropped.  Go strings are Lean strings.
-/

namespace Rodkina.Ast

/-! ## Grammars -/

/-- A compose: a name and a list of (byte, number of occurrences).
libs/asts/domain/grammars/compose.go:3-28, libs/asts/domain/grammars/composeelement.go:7-32.
Simplified: the *name* of the value of a compose element is dropped (no modelled code reads it). -/
structure Compose where
  name : String
  list : List (UInt8 × Nat)

/-- A test suite of a token: expected validity and the composed input.
libs/asts/domain/grammars/suite.go:3-40. -/
structure Suite where
  isValid : Bool
  content : Compose

mutual
/-- A token: name, alternatives (the block) and suites (`[]` when the Go field is nil; the builder
refuses an empty list).  libs/asts/domain/grammars/token.go:3-56, libs/asts/domain/grammars/block.go:3-20. -/
inductive Token where
  | mk (name : String) (lines : List GLine) (suites : List Suite)

/-- An alternative: the sequence of its containers.  libs/asts/domain/grammars/line.go:3-20. -/
inductive GLine where
  | mk (containers : List Container)

/-- A container: an element with its cardinality, or a compose.
libs/asts/domain/grammars/container.go:3-59, libs/asts/domain/grammars/element.go:7-49, libs/asts/domain/grammars/cardinalities/cardinality.go:3-46. -/
inductive Container where
  | element (min : Nat) (max : Option Nat) (content : Content)
  | compose (c : Compose)

/-- What an element stands for: a byte value, an external grammar, a token instance, an
"everything except" instance, or a reference by name to an enclosing token.
libs/asts/domain/grammars/elementcontent.go:7-92, libs/asts/domain/grammars/instance.go:3-59, libs/asts/domain/grammars/everything.go:3-56,
libs/asts/domain/grammars/external.go:3-28, libs/asts/domain/grammars/values/value.go:3-28. -/
inductive Content where
  | value (name : String) (number : UInt8)
  | external (name : String) (grammar : Grammar)
  | token (t : Token)
  | everything (name : String) (exception : Token) (escape : Option Token)
  | recursive (name : String)

/-- A grammar: root token and channels (`[]` when the Go field is nil; the builder refuses an empty
list).  libs/asts/domain/grammars/grammar.go:3-46, libs/asts/domain/grammars/channels.go:3-20. -/
inductive Grammar where
  | mk (root : Token) (channels : List Channel)

/-- A channel: token and condition.  A nil condition and a condition with neither part behave the
same (libs/asts/applications/application.go:1053-1068) and are both represented by `none none`.
libs/asts/domain/grammars/channel.go:3-46, libs/asts/domain/grammars/channelcondition.go:3-57. -/
inductive Channel where
  | mk (token : Token) (previous : Option Token) (next : Option Token)
end

/-- `Name`, libs/asts/domain/grammars/token.go:38-41. -/
def Token.name : Token → String
  | .mk n _ _ => n

/-- `Block().Lines()`, libs/asts/domain/grammars/token.go:43-46, libs/asts/domain/grammars/block.go:17-20. -/
def Token.lines : Token → List GLine
  | .mk _ ls _ => ls

/-- `Suites().List()`, libs/asts/domain/grammars/token.go:53-56, libs/asts/domain/grammars/suites.go:17-20. -/
def Token.suites : Token → List Suite
  | .mk _ _ ss => ss

/-- `Containers`, libs/asts/domain/grammars/line.go:17-20. -/
def GLine.containers : GLine → List Container
  | .mk cs => cs

/-- `Root`, libs/asts/domain/grammars/grammar.go:33-36. -/
def Grammar.root : Grammar → Token
  | .mk r _ => r

/-- `Channels`, libs/asts/domain/grammars/grammar.go:43-46. -/
def Grammar.channels : Grammar → List Channel
  | .mk _ cs => cs

/-- `Token`, libs/asts/domain/grammars/channel.go:33-36. -/
def Channel.token : Channel → Token
  | .mk t _ _ => t

/-- `Condition().Previous()`, libs/asts/domain/grammars/channelcondition.go:44-47. -/
def Channel.previous : Channel → Option Token
  | .mk _ p _ => p

/-- `Condition().Next()`, libs/asts/domain/grammars/channelcondition.go:54-57. -/
def Channel.next : Channel → Option Token
  | .mk _ _ n => n

/-- `element.Name` (libs/asts/domain/grammars/element.go:24-39) with `instance.Name`
(libs/asts/domain/grammars/instance.go:32-39). -/
def Content.name : Content → String
  | .value n _ => n
  | .external n _ => n
  | .token t => t.name
  | .everything n _ _ => n
  | .recursive n => n

/-- `container.Name`, libs/asts/domain/grammars/container.go:32-39. -/
def Container.name : Container → String
  | .element _ _ c => c.name
  | .compose c => c.name

/-- Sum of the occurrences of a compose: libs/asts/domain/trees/line.go:111-116 and
libs/asts/domain/trees/element.go:117-121.  Simplified: no overflow of `uint`. -/
def Compose.amount (c : Compose) : Nat := (c.list.map (·.2)).sum

/-! ## Trees -/

mutual
/-- A parse tree: grammar token, block, suffix (the channel trees after it; `[]` when nil) and
remaining bytes (`[]` when nil: the builder refuses an empty slice).
libs/asts/domain/trees/tree.go:10-63, libs/asts/domain/trees/tree_builder.go:57-83. -/
inductive Tree where
  | mk (grammar : Token) (block : Block) (suffix : List Tree) (remaining : Bytes)

/-- A block: recorded lines and the successful one, if any.
libs/asts/domain/trees/block.go:3-46. -/
inductive Block where
  | mk (lines : List TLine) (successful : Option TLine)

/-- A line: index of the alternative, the alternative, reverse flag and elements (`[]` when nil: the
elements builder refuses an empty list).  libs/asts/domain/trees/line.go:7-70. -/
inductive TLine where
  | mk (index : Nat) (grammar : GLine) (isReverse : Bool) (elements : List TElement)

/-- An element: grammar container (nil for the bytes of an "everything") and contents.
libs/asts/domain/trees/element.go:10-38, 130-148. -/
inductive TElement where
  | mk (grammar : Option Container) (contents : List TContent)

/-- A content: a byte with the channel trees before it, or a tree.
libs/asts/domain/trees/content.go:3-61, libs/asts/domain/trees/value.go:3-46. -/
inductive TContent where
  | value (prefix_ : List Tree) (byte : UInt8)
  | tree (t : Tree)
end

/-- `Grammar`, libs/asts/domain/trees/tree.go:120-123. -/
def Tree.grammar : Tree → Token
  | .mk g _ _ _ => g

/-- `Block`, libs/asts/domain/trees/tree.go:125-128. -/
def Tree.block : Tree → Block
  | .mk _ b _ _ => b

/-- `Suffix`, libs/asts/domain/trees/tree.go:135-138. -/
def Tree.suffix : Tree → List Tree
  | .mk _ _ s _ => s

/-- `Remaining` (empty when there is none), libs/asts/domain/trees/tree.go:145-148. -/
def Tree.remaining : Tree → Bytes
  | .mk _ _ _ r => r

/-- `Lines`, libs/asts/domain/trees/block.go:33-36. -/
def Block.lines : Block → List TLine
  | .mk ls _ => ls

/-- `Successful`, libs/asts/domain/trees/block.go:43-46. -/
def Block.successful : Block → Option TLine
  | .mk _ s => s

/-- `HasSuccessful` of the tree's block, libs/asts/domain/trees/block.go:38-41. -/
def Tree.isSuccessful (t : Tree) : Bool := t.block.successful.isSome

/-- `Index`, libs/asts/domain/trees/line.go:47-50. -/
def TLine.index : TLine → Nat
  | .mk i _ _ _ => i

/-- `Grammar`, libs/asts/domain/trees/line.go:57-60. -/
def TLine.grammar : TLine → GLine
  | .mk _ g _ _ => g

/-- `IsReverse`, libs/asts/domain/trees/line.go:52-55. -/
def TLine.isReverse : TLine → Bool
  | .mk _ _ r _ => r

/-- `Elements().List()`, libs/asts/domain/trees/line.go:67-70, libs/asts/domain/trees/elements.go:25-28. -/
def TLine.elements : TLine → List TElement
  | .mk _ _ _ es => es

/-- `Grammar`, libs/asts/domain/trees/element.go:135-138. -/
def TElement.grammar : TElement → Option Container
  | .mk g _ => g

/-- `Contents().List()`, libs/asts/domain/trees/element.go:130-133. -/
def TElement.contents : TElement → List TContent
  | .mk _ cs => cs

/-- `Amount`, libs/asts/domain/trees/element.go:145-148. -/
def TElement.amount (e : TElement) : Nat := e.contents.length

mutual
/-- `tree.Bytes(includeChannels)`, libs/asts/domain/trees/tree.go:101-118. -/
def Tree.bytes (ch : Bool) : Tree → Bytes
  | .mk _ b suffix _ => Block.bytesWith ch b (treesBytes ch suffix)

/-- Body of `tree.Bytes` (libs/asts/domain/trees/tree.go:103-117): nothing without a successful
line, else the elements of that line and the suffix bytes (dropped when `ch` is false). -/
def Block.bytesWith (ch : Bool) : Block → Bytes → Bytes
  | .mk _ none, _ => []
  | .mk _ (some l), suffix => TLine.bytes ch l ++ (if ch then suffix else [])

/-- Loop at libs/asts/domain/trees/tree.go:108-111. -/
def TLine.bytes (ch : Bool) : TLine → Bytes
  | .mk _ _ _ es => elementsBytes ch es

/-- Loop at libs/asts/domain/trees/tree.go:109-111. -/
def elementsBytes (ch : Bool) : List TElement → Bytes
  | [] => []
  | e :: es => TElement.bytes ch e ++ elementsBytes ch es

/-- `element.Bytes`, libs/asts/domain/trees/element.go:72-91. -/
def TElement.bytes (ch : Bool) : TElement → Bytes
  | .mk _ cs => contentsBytes ch cs

/-- Loop at libs/asts/domain/trees/element.go:76-88. -/
def contentsBytes (ch : Bool) : List TContent → Bytes
  | [] => []
  | c :: cs => TContent.bytes ch c ++ contentsBytes ch cs

/-- Body of the loop at libs/asts/domain/trees/element.go:76-88: prefix (when channels are
included) and byte of a value, bytes of a tree. -/
def TContent.bytes (ch : Bool) : TContent → Bytes
  | .value p b => (if ch then treesBytes ch p else []) ++ [b]
  | .tree t => Tree.bytes ch t

/-- `trees.Bytes`, libs/asts/domain/trees/trees.go:18-25. -/
def treesBytes (ch : Bool) : List Tree → Bytes
  | [] => []
  | t :: ts => Tree.bytes ch t ++ treesBytes ch ts
end

/-- `content.Bytes` (libs/asts/domain/trees/content.go:33-41), which drops the
prefix of a value whatever `includeChannels`. -/
def TContent.ownBytes (ch : Bool) : TContent → Bytes
  | .value _ b => [b]
  | .tree t => t.bytes ch

/-- The comparison of an amount with an optional maximum: libs/asts/domain/trees/element.go:107-112. -/
def withinMax (max : Option Nat) (amount : Nat) : Bool :=
  match max with
  | none => true
  | some m => decide (amount ≤ m)

/-- `element.IsSuccessful`, libs/asts/domain/trees/element.go:93-128. -/
def TElement.isSuccessful : TElement → Bool
  | .mk none _ => true
  | .mk (some (.element min max _)) cs => decide (min ≤ cs.length) && withinMax max cs.length
  | .mk (some (.compose c)) cs => decide (c.amount ≤ cs.length)

/-- Name under which an element is stored in the elements map (none without grammar):
libs/asts/domain/trees/elements_builder.go:39-46. -/
def TElement.key (e : TElement) : Option String := e.grammar.map Container.name

/-- `elements.Fetch`: the map is filled in list order, so the last element with that name wins.
libs/asts/domain/trees/elements.go:30-38, libs/asts/domain/trees/elements_builder.go:38-46. -/
def fetchElement (es : List TElement) (name : String) : Option TElement :=
  es.reverse.find? (fun e => e.key == some name)

/-- The check of one requested container in `line.IsSuccessful`:
libs/asts/domain/trees/line.go:90-129. -/
def containerSatisfied (es : List TElement) : Container → Bool
  | .element min _ c =>
      decide (min = 0) || (fetchElement es c.name).any (fun e => decide (min ≤ e.amount))
  | .compose c => (fetchElement es c.name).any (fun e => decide (e.amount = c.amount))

/-- `line.IsSuccessful`, libs/asts/domain/trees/line.go:72-132. -/
def TLine.isSuccessful : TLine → Bool
  | .mk _ g rev es =>
      !es.isEmpty && es.all TElement.isSuccessful &&
        (rev || g.containers.all (containerSatisfied es))

/-- `blockBuilder.Now` on a non-empty list: the first successful line is recorded.
libs/asts/domain/trees/block_builder.go:28-51. -/
def mkBlock (ls : List TLine) : Block := .mk ls (ls.find? TLine.isSuccessful)

/-- Does a content count as matched: a value, or a tree whose block has a successful line.
libs/asts/applications/application.go:867-873. -/
def TContent.isSuccessful : TContent → Bool
  | .value _ _ => true
  | .tree t => t.isSuccessful

/-! ## Outcomes and state -/

/-- Outcome of a parser call: value, error, run-time panic, or nesting deeper than the fuel. -/
inductive Out (α : Type) where
  | ok (a : α)
  | err
  | panic
  | oof

/-- `stack`: token and, per line index, the data on which that line was last started.
libs/asts/applications/stack.go:5-8. -/
structure Entry where
  token : Token
  lines : List (Nat × Bytes)

/-- The Go map `stackMap` (`map[string]*stack`), libs/asts/applications/application.go:504, 512. -/
abbrev Stk := List (String × Entry)

namespace Stk

/-- Map lookup (libs/asts/applications/application.go:514, 593, 602, 929). -/
def get (s : Stk) (k : String) : Option Entry := s.lookup k

/-- `delete(stackMap, k)` (libs/asts/applications/application.go:523). -/
def del (s : Stk) (k : String) : Stk := s.filter (fun e => e.1 != k)

/-- Map assignment (libs/asts/applications/application.go:515, 603). -/
def put (s : Stk) (k : String) (e : Entry) : Stk := (k, e) :: s.del k

end Stk

/-- A parser computation: threads the shared map through every outcome. -/
def M (α : Type) : Type := Stk → Out α × Stk

namespace M

/-- Return a value. -/
def ret {α : Type} (a : α) : M α := fun s => (.ok a, s)

/-- `if err != nil { return err }`: errors and panics stop the computation; the map keeps the
changes made so far. -/
def andThen {α β : Type} (m : M α) (f : α → M β) : M β := fun s =>
  match m s with
  | (.ok a, s') => f a s'
  | (.err, s') => (.err, s')
  | (.panic, s') => (.panic, s')
  | (.oof, s') => (.oof, s')

instance : Monad M where
  pure := ret
  bind := andThen

/-- Return an error. -/
def fail {α : Type} : M α := fun s => (.err, s)

/-- A run-time panic. -/
def crash {α : Type} : M α := fun s => (.panic, s)

/-- Nesting deeper than the fuel. -/
def oof {α : Type} : M α := fun s => (.oof, s)

/-- Inspect the error of a call instead of returning it (`if err != nil { continue }` and the like);
a panic is not caught.  Used at libs/asts/applications/application.go:536-540, 622-628, 653-656, 706-709, 803-806,
964-968, 1013-1016. -/
def attempt {α : Type} (m : M α) : M (Option α) := fun s =>
  match m s with
  | (.ok a, s') => (.ok (some a), s')
  | (.err, s') => (.ok none, s')
  | (.panic, s') => (.panic, s')
  | (.oof, s') => (.oof, s')

/-- Run with a new empty map, leaving the current map as it is (libs/asts/applications/application.go:504, 1048, 1077,
1088). -/
def fresh {α : Type} (m : M α) : M α := fun s => ((m []).1, s)

/-- Run, then delete a name from the map whatever the outcome (libs/asts/applications/application.go:522-523). -/
def thenDelete {α : Type} (name : String) (m : M α) : M α := fun s =>
  ((m s).1, (m s).2.del name)

end M

open M

/-- The parameters passed down unchanged by most calls: escape token, channels (`[]` = nil) and
reverse flag (libs/asts/applications/application.go:512). -/
structure Ctx where
  escape : Option Token
  channels : List Channel
  reverse : Bool

/-- The parameters used for channel tokens and conditions (libs/asts/applications/application.go:1048, 1077, 1088). -/
def Ctx.plain : Ctx := ⟨none, [], false⟩

/-- The type of the recursive call: `application.token` (token, parameters, previous data, current
data), libs/asts/applications/application.go:512. -/
abbrev Rec := Token → Ctx → Bytes → Bytes → M Tree

/-! ## Channels -/

/-- One side of `channelCondition`: parse with a new map; the result is never a nil tree.
libs/asts/applications/application.go:1074-1083 and 1085-1094. -/
def condMatch (rec : Rec) (t : Option Token) (data : Bytes) : M Bool :=
  match t with
  | none => pure true
  | some t => do
    let _ ← fresh (rec t Ctx.plain [] data)
    pure true

/-- `channelCondition`, libs/asts/applications/application.go:1073-1096. -/
def channelCondition (rec : Rec) (c : Channel) (prev next : Bytes) : M Bool := do
  let p ← condMatch rec c.previous prev
  let n ← condMatch rec c.next next
  pure (p && n)

/-- `channel`, libs/asts/applications/application.go:1046-1071. -/
def channel (rec : Rec) (c : Channel) (prev cur : Bytes) : M (Option Tree) := do
  let tree ← fresh (rec c.token Ctx.plain prev cur)
  let accepted ← channelCondition rec c prev tree.remaining
  pure (if accepted then some tree else none)

/-- The Go slice expression `l[k:]`, which panics when `k > len(l)`: libs/asts/applications/application.go:1023. -/
def sliceFrom (l : Bytes) (k : Nat) : M Bytes :=
  if k ≤ l.length then pure (l.drop k) else crash

/-- Local variables of `channels`: collected trees, previous data, remaining data.
libs/asts/applications/application.go:1006-1008. -/
structure ChState where
  list : List Tree
  prev : Bytes
  rem : Bytes

/-- Use of the tree returned by `channel`: libs/asts/applications/application.go:1018-1030. -/
def channelApply (st : ChState) (r : Option (Option Tree)) : M ChState :=
  match r with
  | some (some tree) => do
    let rem ← sliceFrom st.rem (tree.bytes true).length
    if rem.length = st.rem.length then pure st
    else pure ⟨st.list ++ [tree], st.rem, rem⟩
  | _ => pure st

/-- The inner loop of `channels`: libs/asts/applications/application.go:1012-1031. -/
def channelRound (rec : Rec) : List Channel → ChState → M ChState
  | [], st => pure st
  | c :: cs, st => do
    let r ← attempt (channel rec c st.prev st.rem)
    let st' ← channelApply st r
    channelRound rec cs st'

/-- The outer loop of `channels`: libs/asts/applications/application.go:1010-1036.  The counter starts above the number of
remaining bytes; it never reaches zero (every round that continues consumes a byte, theorem
`tm_channelLoop` of AstTerm.lean). -/
def channelLoop (rec : Rec) (chs : List Channel) : Nat → ChState → M ChState
  | 0, _ => oof
  | k + 1, st => do
    let st' ← channelRound rec chs st
    if st'.list.length = st.list.length then pure st' else channelLoop rec chs k st'

/-- `channels`, libs/asts/applications/application.go:1004-1044: an error when nothing was collected. -/
def channels (rec : Rec) (chs : List Channel) (prev cur : Bytes) : M (List Tree × Bytes) := do
  let st ← channelLoop rec chs (cur.length + 1) ⟨[], prev, cur⟩
  if st.list.isEmpty then fail else pure (st.list, st.rem)

/-- Result of `channels` in its callers: on an error nothing changes. -/
def orUnchanged (cur : Bytes) (r : Option (List Tree × Bytes)) : List Tree × Bytes :=
  match r with
  | some x => x
  | none => ([], cur)

/-- The idiom around `channels` in `token` (libs/asts/applications/application.go:535-541) and `elementValue`
(libs/asts/applications/application.go:963-969). -/
def skipChannels (rec : Rec) (chs : List Channel) (prev cur : Bytes) : M (List Tree × Bytes) :=
  if chs.isEmpty then pure ([], cur)
  else do
    let r ← attempt (channels rec chs prev cur)
    pure (orUnchanged cur r)

/-! ## Elements -/

/-- Comparison of the next byte in `elementValue`: libs/asts/applications/application.go:971-985. -/
def matchByte (number : UInt8) (pre : List Tree) (rem : Bytes) : M (Option (TContent × Bytes)) :=
  match rem with
  | [] => fail
  | b :: rest => if number = b then pure (some (.value pre b, rest)) else pure none

/-- `elementValue`, libs/asts/applications/application.go:960-986; `none` is the nil value returned without error. -/
def elementValue (rec : Rec) (number : UInt8) (ctx : Ctx) (prev cur : Bytes) :
    M (Option (TContent × Bytes)) := do
  let r ← skipChannels rec ctx.channels prev cur
  matchByte number r.1 r.2

/-- `external`, libs/asts/applications/application.go:555-582: the inner tree's block under a token with the external's
name; the suffix and the remaining bytes of the inner tree are not copied.  Simplified: the token
builder cannot fail because external names are not empty (libs/asts/domain/grammars/external_builder.go:39-49). -/
def external (rec : Rec) (name : String) (g : Grammar) (rev : Bool) (prev cur : Bytes) : M Tree := do
  let t ← fresh (rec g.root ⟨none, g.channels, rev⟩ prev cur)
  pure (.mk (.mk name g.root.lines g.root.suites) t.block [] [])

/-- A tree as content, with the bytes it leaves: libs/asts/applications/application.go:904-909, 919-924, 935-940. -/
def treeContent (t : Tree) : Option (TContent × Bytes) := some (.tree t, t.remaining)

/-- Lookup of a recursive name: libs/asts/applications/application.go:928-944. -/
def recursiveToken (name : String) : M Token := fun s =>
  match s.get name with
  | some e => (.ok e.token, s)
  | none => (.err, s)

/-- `elementContent`, libs/asts/applications/application.go:892-958, with `instance` (988-996) and `everything`
(998-1002). -/
def elementContent (rec : Rec) (c : Content) (ctx : Ctx) (prev cur : Bytes) :
    M (Option (TContent × Bytes)) :=
  match c with
  | .external name g => do
    let t ← external rec name g ctx.reverse prev cur
    pure (treeContent t)
  | .token t => do
    let t ← rec t ctx prev cur
    pure (treeContent t)
  | .everything _ exception escape => do
    let t ← rec exception ⟨escape, [], !ctx.reverse⟩ prev cur
    pure (treeContent t)
  | .recursive name => do
    let tok ← recursiveToken name
    let t ← rec tok ctx prev cur
    pure (treeContent t)
  | .value _ number =>
    if cur.isEmpty then fail else elementValue rec number ctx prev cur

/-- The checks on the content found: libs/asts/applications/application.go:867-889. -/
def acceptContent (r : Option (TContent × Bytes)) : M (TContent × Bytes) :=
  match r with
  | none => fail
  | some x => if x.1.isSuccessful then pure x else fail

/-- `element`, libs/asts/applications/application.go:856-890. -/
def element (rec : Rec) (c : Content) (ctx : Ctx) (prev cur : Bytes) : M (TContent × Bytes) :=
  if cur.isEmpty then fail
  else do
    let r ← elementContent rec c ctx prev cur
    acceptContent r

/-- Local variables of the element loop of `line`: contents, previous data, remaining data
(libs/asts/applications/application.go:736-737, 787). -/
structure ElState where
  list : List TContent
  prev : Bytes
  rem : Bytes

/-- `cardinality.HasMax() && amount >= *pMax`: libs/asts/applications/application.go:796-801. -/
def reachedMax (max : Option Nat) (amount : Nat) : Bool :=
  match max with
  | none => false
  | some m => decide (m ≤ amount)

/-- Continuation of the element loop after one call: libs/asts/applications/application.go:803-812. -/
def elementNext (st : ElState) (next : ElState → M ElState) (r : Option (TContent × Bytes)) :
    M ElState :=
  match r with
  | none => pure st
  | some x => next ⟨st.list ++ [x.1], st.rem, x.2⟩

/-- The element loop of `line`: libs/asts/applications/application.go:790-812.  The counter starts above the number of
remaining bytes; it never reaches zero (every content consumes a byte). -/
def elementLoop (rec : Rec) (c : Content) (max : Option Nat) (ctx : Ctx) : Nat → ElState → M ElState
  | 0, _ => oof
  | k + 1, st =>
    if st.rem.isEmpty then pure st
    else if reachedMax max st.list.length then pure st
    else do
      let r ← attempt (element rec c ctx st.prev st.rem)
      elementNext st (elementLoop rec c max ctx k) r

/-- `len(contentsList) < int(min)`: an unsigned minimum of 2^63 or more becomes negative
(libs/asts/applications/application.go:814-815). -/
def goMin (min : Nat) : Nat := if min < 2 ^ 63 then min else 0

/-! ## Lines -/

/-- Local variables of `line`: elements, previous data, remaining data (libs/asts/applications/application.go:734-737). -/
structure LnState where
  list : List TElement
  prev : Bytes
  rem : Bytes

/-- Continuation after `elementValue` in the compose loop: a nil value makes the content builder
fail (libs/asts/applications/application.go:751-759). -/
def composeNext (next : Bytes → M Unit) (r : Option (TContent × Bytes)) : M Unit :=
  match r with
  | none => fail
  | some x => next x.2

/-- The loop over the elements of a compose in `line`: libs/asts/applications/application.go:744-770.  The contents list
built at 761-765 is a new variable that shadows the outer one and is dropped, so nothing is
collected. -/
def composeLoop (rec : Rec) (ctx : Ctx) (prev : Bytes) : List (UInt8 × Nat) → Bytes → M Unit
  | [], _ => pure ()
  | e :: es, rem => do
    let r ← elementValue rec e.1 ctx prev rem
    composeNext (composeLoop rec ctx prev es) r

/-- One container in `line`: libs/asts/applications/application.go:739-833.  For a compose the outer contents list is
still empty at 772, so the contents builder fails (libs/asts/domain/trees/contents_builder.go:29-39). -/
def lineStep (rec : Rec) (ctx : Ctx) (prev0 : Bytes) (c : Container) (st : LnState) : M LnState :=
  match c with
  | .compose cmp => do
    composeLoop rec ctx prev0 cmp.list st.rem
    fail
  | .element min max content => do
    let r ← elementLoop rec content max ctx (st.rem.length + 1) ⟨[], st.prev, st.rem⟩
    if r.list.length < goMin min then fail
    else pure ⟨if r.list.isEmpty then st.list else st.list ++ [.mk (some c) r.list], r.prev, r.rem⟩

/-- The container loop of `line`: libs/asts/applications/application.go:739-833. -/
def lineLoop (rec : Rec) (ctx : Ctx) (prev0 : Bytes) : List Container → LnState → M LnState
  | [], st => pure st
  | c :: cs, st => do
    let st' ← lineStep rec ctx prev0 c st
    lineLoop rec ctx prev0 cs st'

/-- `line`, libs/asts/applications/application.go:733-854. -/
def line (rec : Rec) (idx : Nat) (g : GLine) (ctx : Ctx) (prev cur : Bytes) : M (TLine × Bytes) := do
  let st ← lineLoop rec ctx prev g.containers ⟨[], prev, cur⟩
  pure (.mk idx g false st.list, st.rem)

/-! ## Blocks -/

/-- The bytes of an escaped exception become contents without channel prefix:
libs/asts/applications/application.go:631-643. -/
def byteContents (bs : Bytes) : List TContent := bs.map (fun b => .value [] b)

/-- Local variables of the reverse loop: contents, previous data, remaining data
(libs/asts/applications/application.go:613-614). -/
abbrev RvState := ElState

/-- Use of the line found after an escape token: libs/asts/applications/application.go:627-647. -/
def escapeApply (st : RvState) (escRem : Bytes) (r : Option (TLine × Bytes)) : M RvState :=
  match r with
  | none => pure st
  | some x =>
    if x.1.isSuccessful then
      if x.2.length ≤ escRem.length then
        pure ⟨st.list ++ byteContents (escRem.take (escRem.length - x.2.length)), escRem,
          escRem.drop (escRem.length - x.2.length)⟩
      else crash
    else pure st

/-- Use of the escape tree: libs/asts/applications/application.go:623-649. -/
def escapeLine (rec : Rec) (idx : Nat) (g : GLine) (ctx : Ctx) (st : RvState) (r : Option Tree) :
    M RvState :=
  match r with
  | none => pure st
  | some t =>
    if t.isSuccessful && !t.remaining.isEmpty then do
      let r ← attempt (line rec idx g ctx st.rem t.remaining)
      escapeApply st t.remaining r
    else pure st

/-- The escape part of the reverse loop: libs/asts/applications/application.go:621-651. -/
def escapeStep (rec : Rec) (idx : Nat) (g : GLine) (ctx : Ctx) (st : RvState) : M RvState :=
  match ctx.escape with
  | none => pure st
  | some esc => do
    let r ← attempt (rec esc ⟨none, ctx.channels, false⟩ st.prev st.rem)
    escapeLine rec idx g ctx st r

/-- End of one turn of the reverse loop: libs/asts/applications/application.go:653-670.  `remaining[0]` panics when the
escape part consumed everything. -/
def reverseNext (st : RvState) (next : RvState → M RvState) (r : Option (TLine × Bytes)) :
    M RvState :=
  match r with
  | some _ => pure st
  | none =>
    match st.rem with
    | [] => crash
    | b :: rest => next ⟨st.list ++ [.value [] b], st.rem, rest⟩

/-- The reverse loop: libs/asts/applications/application.go:616-671.  The counter starts above the number of remaining
bytes; every turn consumes at least one. -/
def reverseLoop (rec : Rec) (idx : Nat) (g : GLine) (ctx : Ctx) : Nat → RvState → M RvState
  | 0, _ => oof
  | k + 1, st =>
    if st.rem.isEmpty then pure st
    else do
      let st' ← escapeStep rec idx g ctx st
      let r ← attempt (line rec idx g ctx st'.prev st'.rem)
      reverseNext st' (reverseLoop rec idx g ctx k) r

/-- The loop guard of `block`: skip the line when it was already started on the same data
(libs/asts/applications/application.go:593-600). -/
def alreadyTried (tok : Token) (idx : Nat) (cur : Bytes) : M Bool := fun s =>
  (.ok ((s.get tok.name).any (fun e => e.lines.lookup idx == some cur)), s)

/-- Record the start of a line: libs/asts/applications/application.go:602-609. -/
def recordLine (tok : Token) (idx : Nat) (cur : Bytes) : M Unit := fun s =>
  let e := (s.get tok.name).getD ⟨tok, []⟩
  (.ok (), s.put tok.name ⟨e.token, (idx, cur) :: e.lines⟩)

/-- The reverse branch of `block`: libs/asts/applications/application.go:612-703.  An empty contents list is an error
(libs/asts/domain/trees/contents_builder.go:29-39); otherwise the line is recorded and the loop over the lines
stops. -/
def reverseLine (rec : Rec) (idx : Nat) (g : GLine) (ctx : Ctx) (prev cur : Bytes)
    (acc : List TLine) : M (List TLine × Bytes) := do
  let st ← reverseLoop rec idx g ctx (cur.length + 1) ⟨[], prev, cur⟩
  if st.list.isEmpty then fail
  else pure (acc ++ [.mk idx g true [.mk none st.list]], st.rem)

/-- Continuation after `line` in `block`: libs/asts/applications/application.go:706-717. -/
def lineNext (acc : List TLine) (next : List TLine → M (List TLine × Bytes))
    (r : Option (TLine × Bytes)) : M (List TLine × Bytes) :=
  match r with
  | none => next acc
  | some x => if x.1.isSuccessful then pure (acc ++ [x.1], x.2) else next (acc ++ [x.1])

/-- The loop over the lines in `block`: libs/asts/applications/application.go:591-718.  Returns the recorded lines and the
remaining bytes. -/
def blockLoop (rec : Rec) (tok : Token) (ctx : Ctx) (prev cur : Bytes) :
    Nat → List GLine → List TLine → M (List TLine × Bytes)
  | _, [], acc => pure (acc, cur)
  | idx, g :: gs, acc => do
    let skip ← alreadyTried tok idx cur
    if skip then blockLoop rec tok ctx prev cur (idx + 1) gs acc
    else do
      recordLine tok idx cur
      if ctx.reverse then reverseLine rec idx g ctx prev cur acc
      else do
        let r ← attempt (line rec idx g ctx prev cur)
        lineNext acc (blockLoop rec tok ctx prev cur (idx + 1) gs) r

/-! ## Tokens -/

/-- Add the token to the map unless its name is there: libs/asts/applications/application.go:513-519. -/
def enter (tok : Token) : M Unit := fun s =>
  match s.get tok.name with
  | some _ => (.ok (), s)
  | none => (.ok (), s.put tok.name ⟨tok, []⟩)

/-- `token`, libs/asts/applications/application.go:512-553. -/
def tokenBody (rec : Rec) (tok : Token) (ctx : Ctx) (prev cur : Bytes) : M Tree := do
  enter tok
  let r ← thenDelete tok.name (blockLoop rec tok ctx prev cur 0 tok.lines [])
  if r.1.isEmpty then fail
  else do
    let s ← skipChannels rec ctx.channels prev r.2
    pure (.mk tok (mkBlock r.1) s.1 s.2)

/-- `token` with nesting depth at most `n`. -/
def token : Nat → Rec
  | 0 => fun _ _ _ _ => oof
  | n + 1 => tokenBody (token n)

/-- `Execute` and `grammar`, libs/asts/applications/application.go:113-115, 501-510, with nesting depth at most `n`. -/
def execute (n : Nat) (g : Grammar) (input : Bytes) : Out Tree :=
  (token n g.root ⟨none, g.channels, false⟩ [] input []).1

/-! ## Compose -/

/-- `int(occurences)` as a loop bound: 2^63 or more becomes negative (libs/asts/applications/application.go:103-104). -/
def goCount (n : Nat) : Nat := if n < 2 ^ 63 then n else 0

/-- `composeCompose`, libs/asts/applications/application.go:98-110. -/
def composeCompose (c : Compose) : Bytes :=
  c.list.flatMap (fun e => List.replicate (goCount e.2) e.1)

/-- The loop of `Compose` over the containers: libs/asts/applications/application.go:80-93. -/
def composeContainers : List Container → Res Bytes
  | [] => .ok []
  | .element _ _ _ :: _ => .err
  | .compose c :: cs => do
    let rest ← composeContainers cs
    pure (composeCompose c ++ rest)

/-- `Compose`, libs/asts/applications/application.go:70-96 (`lines[0]` panics without lines, which the block builder
excludes). -/
def composeToken (t : Token) : Res Bytes :=
  match t.lines with
  | [] => .panic
  | [g] => composeContainers g.containers
  | _ :: _ :: _ => .err

end Rodkina.Ast
