import Verif.Ast
/-!
# Model of the grammar builders (libs/asts/domain/grammars)

A builder is an object with a field for each part; `WithX` overwrites the field and returns the same object, `Create` gives a
builder with no field set, `Now` checks the fields and makes the object. `nil` is `none`. `Now` replaces an empty list by `nil` in
the builder's field, which no later call can tell from the empty list; this is left out. Lists are
taken by value; that objects share them with the caller is not modelled.
-/

namespace Rodkina.Ast
namespace Build

/-- A builder with fields `σ`, calls `κ` and results `α`; every `*_builder.go` in libs/asts/domain/grammars has this shape, for
instance libs/asts/domain/grammars/block_builder.go:7-41. -/
structure Builder (σ κ α : Type) where
  init : σ
  set : κ → σ → σ
  now : σ → Res α

/-- The fields after some calls on a new builder; `none` is `Create` (libs/asts/domain/grammars/block_builder.go:20-22 and likewise in the others). -/
def Builder.run {σ κ α : Type} (b : Builder σ κ α) (calls : List (Option κ)) : σ :=
  calls.foldl (fun s k => match k with | none => b.init | some k => b.set k s) b.init

/-- `Now` after some calls. -/
def Builder.build {σ κ α : Type} (b : Builder σ κ α) (calls : List (Option κ)) : Res α := b.now (b.run calls)

/-- `WithLines`, `WithContainers`, `WithList` and `Now` of the builders of lists: libs/asts/domain/grammars/block_builder.go:7-41, libs/asts/domain/grammars/line_builder.go:7-41,
libs/asts/domain/grammars/suites_builder.go:7-41, libs/asts/domain/grammars/tokens_builder.go:7-41, libs/asts/domain/grammars/channels_builder.go:7-41. The only call gives the whole list. -/
def listBuilder (α : Type) : Builder (Option (List α)) (Option (List α)) (List α) where
  init := none
  set := fun l _ => l
  now := fun l =>
    match l with
    | none => .err
    | some [] => .err
    | some l => .ok l

/-- A value: libs/asts/domain/grammars/values/value.go:3-28. -/
structure Value where
  name : String
  number : UInt8

/-- Calls of libs/asts/domain/grammars/values/builder.go:27-36. -/
inductive ValueCall where
  | withName (name : String)
  | withNumber (number : UInt8)

/-- libs/asts/domain/grammars/values/builder.go:7-49. -/
def valueBuilder : Builder (String × Option UInt8) ValueCall Value where
  init := ("", none)
  set := fun k s =>
    match k with
    | .withName n => (n, s.2)
    | .withNumber b => (s.1, some b)
  now := fun s =>
    if s.1 = "" then .err
    else match s.2 with
      | none => .err
      | some b => .ok ⟨s.1, b⟩

/-- A cardinality: libs/asts/domain/grammars/cardinalities/cardinality.go:3-31. -/
structure Cardinality where
  min : Nat
  max : Option Nat

/-- Calls of libs/asts/domain/grammars/cardinalities/builder.go:27-36. -/
inductive CardinalityCall where
  | withMin (min : Nat)
  | withMax (max : Nat)

/-- libs/asts/domain/grammars/cardinalities/builder.go:7-49, libs/asts/domain/grammars/cardinalities/cardinality.go:8-31. -/
def cardinalityBuilder : Builder (Option Nat × Option Nat) CardinalityCall Cardinality where
  init := (none, none)
  set := fun k s =>
    match k with
    | .withMin n => (some n, s.2)
    | .withMax n => (s.1, some n)
  now := fun s =>
    match s.1 with
    | none => .err
    | some min =>
      match s.2 with
      | some max => .ok ⟨min, some max⟩
      | none => .ok ⟨min, none⟩

/-- Calls of libs/asts/domain/grammars/composeelement_builder.go:29-38. -/
inductive ComposeElementCall where
  | withValue (v : Option Value)
  | withOccurences (n : Nat)

/-- libs/asts/domain/grammars/composeelement_builder.go:9-51. As in `Compose`, the name of the value is dropped. -/
def composeElementBuilder : Builder (Option Value × Nat) ComposeElementCall (UInt8 × Nat) where
  init := (none, 0)
  set := fun k s =>
    match k with
    | .withValue v => (v, s.2)
    | .withOccurences n => (s.1, n)
  now := fun s =>
    match s.1 with
    | none => .err
    | some v => if s.2 = 0 then .err else .ok (v.number, s.2)

/-- Calls of libs/asts/domain/grammars/compose_builder.go:27-36. -/
inductive ComposeCall where
  | withName (name : String)
  | withList (l : Option (List (UInt8 × Nat)))

/-- libs/asts/domain/grammars/compose_builder.go:7-53. -/
def composeBuilder : Builder (String × Option (List (UInt8 × Nat))) ComposeCall Compose where
  init := ("", none)
  set := fun k s =>
    match k with
    | .withName n => (n, s.2)
    | .withList l => (s.1, l)
  now := fun s =>
    if s.1 = "" then .err
    else match s.2 with
      | none => .err
      | some [] => .err
      | some l => .ok ⟨s.1, l⟩

/-- Calls of libs/asts/domain/grammars/suite_builder.go:27-36. -/
inductive SuiteCall where
  | withValid (c : Option Compose)
  | withInvalid (c : Option Compose)

/-- libs/asts/domain/grammars/suite_builder.go:7-50, libs/asts/domain/grammars/suite.go:8-30. -/
def suiteBuilder : Builder (Option Compose × Option Compose) SuiteCall Suite where
  init := (none, none)
  set := fun k s =>
    match k with
    | .withValid c => (c, s.2)
    | .withInvalid c => (s.1, c)
  now := fun s =>
    match s.1 with
    | some c => .ok ⟨true, c⟩
    | none =>
      match s.2 with
      | some c => .ok ⟨false, c⟩
      | none => .err

/-- Calls of libs/asts/domain/grammars/token_builder.go:29-44. The block and the suites are the lists they hold. -/
inductive TokenCall where
  | withName (name : String)
  | withBlock (b : Option (List GLine))
  | withSuites (s : Option (List Suite))

/-- libs/asts/domain/grammars/token_builder.go:7-61, libs/asts/domain/grammars/token.go:9-36. -/
def tokenBuilder : Builder (String × Option (List GLine) × Option (List Suite)) TokenCall Token where
  init := ("", none, none)
  set := fun k s =>
    match k with
    | .withName n => (n, s.2.1, s.2.2)
    | .withBlock b => (s.1, b, s.2.2)
    | .withSuites x => (s.1, s.2.1, x)
  now := fun s =>
    if s.1 = "" then .err
    else match s.2.1 with
      | none => .err
      | some b =>
        match s.2.2 with
        | some x => .ok (.mk s.1 b x)
        | none => .ok (.mk s.1 b [])

/-- An "everything except": libs/asts/domain/grammars/everything.go:3-56. -/
structure Everything where
  name : String
  exception : Token
  escape : Option Token

/-- Calls of libs/asts/domain/grammars/everything_builder.go:29-44. -/
inductive EverythingCall where
  | withName (name : String)
  | withException (t : Option Token)
  | withEscape (t : Option Token)

/-- libs/asts/domain/grammars/everything_builder.go:7-61. -/
def everythingBuilder : Builder (String × Option Token × Option Token) EverythingCall Everything where
  init := ("", none, none)
  set := fun k s =>
    match k with
    | .withName n => (n, s.2.1, s.2.2)
    | .withException t => (s.1, t, s.2.2)
    | .withEscape t => (s.1, s.2.1, t)
  now := fun s =>
    match s.2.1 with
    | none => .err
    | some x =>
      if s.1 = "" then .err
      else match s.2.2 with
        | some e => .ok ⟨s.1, x, some e⟩
        | none => .ok ⟨s.1, x, none⟩

/-- An instance: libs/asts/domain/grammars/instance.go:3-59. -/
inductive Instance where
  | token (t : Token)
  | everything (e : Everything)

/-- Calls of libs/asts/domain/grammars/instance_builder.go:25-34. -/
inductive InstanceCall where
  | withToken (t : Option Token)
  | withEverything (e : Option Everything)

/-- libs/asts/domain/grammars/instance_builder.go:5-47. -/
def instanceBuilder : Builder (Option Token × Option Everything) InstanceCall Instance where
  init := (none, none)
  set := fun k s =>
    match k with
    | .withToken t => (t, s.2)
    | .withEverything e => (s.1, e)
  now := fun s =>
    match s.1 with
    | some t => .ok (.token t)
    | none =>
      match s.2 with
      | some e => .ok (.everything e)
      | none => .err

/-- An external grammar: libs/asts/domain/grammars/external.go:3-28. -/
structure External where
  name : String
  grammar : Grammar

/-- Calls of libs/asts/domain/grammars/external_builder.go:27-36. -/
inductive ExternalCall where
  | withName (name : String)
  | withGrammar (g : Option Grammar)

/-- libs/asts/domain/grammars/external_builder.go:7-49. -/
def externalBuilder : Builder (String × Option Grammar) ExternalCall External where
  init := ("", none)
  set := fun k s =>
    match k with
    | .withName n => (n, s.2)
    | .withGrammar g => (s.1, g)
  now := fun s =>
    if s.1 = "" then .err
    else match s.2 with
      | none => .err
      | some g => .ok ⟨s.1, g⟩

/-- An element: libs/asts/domain/grammars/element.go:7-22. -/
structure Element where
  cardinality : Cardinality
  content : Content

/-- The content of an instance: libs/asts/domain/grammars/elementcontent.go:26-30 with libs/asts/domain/grammars/instance.go:3-59. -/
def Instance.content : Instance → Content
  | .token t => .token t
  | .everything e => .everything e.name e.exception e.escape

/-- The fields of libs/asts/domain/grammars/element_builder.go:10-16. -/
structure ElementFields where
  cardinality : Option Cardinality
  value : Option Value
  external : Option External
  inst : Option Instance
  recursive : String

/-- Calls of libs/asts/domain/grammars/element_builder.go:36-63. -/
inductive ElementCall where
  | withCardinality (c : Option Cardinality)
  | withValue (v : Option Value)
  | withExternal (e : Option External)
  | withInstance (i : Option Instance)
  | withRecursive (name : String)

/-- libs/asts/domain/grammars/element_builder.go:10-92. -/
def elementBuilder : Builder ElementFields ElementCall Element where
  init := ⟨none, none, none, none, ""⟩
  set := fun k s =>
    match k with
    | .withCardinality c => { s with cardinality := c }
    | .withValue v => { s with value := v }
    | .withExternal e => { s with external := e }
    | .withInstance i => { s with inst := i }
    | .withRecursive n => { s with recursive := n }
  now := fun s =>
    match s.cardinality with
    | none => .err
    | some c =>
      match s.value with
      | some v => .ok ⟨c, .value v.name v.number⟩
      | none =>
        match s.external with
        | some e => .ok ⟨c, .external e.name e.grammar⟩
        | none =>
          match s.inst with
          | some i => .ok ⟨c, i.content⟩
          | none => if s.recursive = "" then .err else .ok ⟨c, .recursive s.recursive⟩

/-- Calls of libs/asts/domain/grammars/container_builder.go:25-34. -/
inductive ContainerCall where
  | withElement (e : Option Element)
  | withCompose (c : Option Compose)

/-- libs/asts/domain/grammars/container_builder.go:5-47. -/
def containerBuilder : Builder (Option Element × Option Compose) ContainerCall Container where
  init := (none, none)
  set := fun k s =>
    match k with
    | .withElement e => (e, s.2)
    | .withCompose c => (s.1, c)
  now := fun s =>
    match s.1 with
    | some e => .ok (.element e.cardinality.min e.cardinality.max e.content)
    | none =>
      match s.2 with
      | some c => .ok (.compose c)
      | none => .err

/-- A channel condition: libs/asts/domain/grammars/channelcondition.go:3-57. -/
structure Condition where
  previous : Option Token
  next : Option Token

/-- Calls of libs/asts/domain/grammars/channelcondition_builder.go:23-32. -/
inductive ConditionCall where
  | withPrevious (t : Option Token)
  | withNext (t : Option Token)

/-- libs/asts/domain/grammars/channelcondition_builder.go:3-45. -/
def conditionBuilder : Builder (Option Token × Option Token) ConditionCall Condition where
  init := (none, none)
  set := fun k s =>
    match k with
    | .withPrevious t => (t, s.2)
    | .withNext t => (s.1, t)
  now := fun s =>
    match s.2, s.1 with
    | some n, some p => .ok ⟨some p, some n⟩
    | some n, none => .ok ⟨none, some n⟩
    | none, p => .ok ⟨p, none⟩

/-- Calls of libs/asts/domain/grammars/channel_builder.go:27-36. -/
inductive ChannelCall where
  | withToken (t : Option Token)
  | withCondition (c : Option Condition)

/-- libs/asts/domain/grammars/channel_builder.go:7-49. -/
def channelBuilder : Builder (Option Token × Option Condition) ChannelCall Channel where
  init := (none, none)
  set := fun k s =>
    match k with
    | .withToken t => (t, s.2)
    | .withCondition c => (s.1, c)
  now := fun s =>
    match s.1 with
    | none => .err
    | some t =>
      match s.2 with
      | some c => .ok (.mk t c.previous c.next)
      | none => .ok (.mk t none none)

/-- Calls of libs/asts/domain/grammars/builder.go:27-36. The channels are the list they hold. -/
inductive GrammarCall where
  | withRoot (t : Option Token)
  | withChannels (c : Option (List Channel))

/-- libs/asts/domain/grammars/builder.go:7-49, libs/asts/domain/grammars/grammar.go:8-31. -/
def grammarBuilder : Builder (Option Token × Option (List Channel)) GrammarCall Grammar where
  init := (none, none)
  set := fun k s =>
    match k with
    | .withRoot t => (t, s.2)
    | .withChannels c => (s.1, c)
  now := fun s =>
    match s.1 with
    | none => .err
    | some t =>
      match s.2 with
      | some c => .ok (.mk t c)
      | none => .ok (.mk t [])

end Build
end Rodkina.Ast
