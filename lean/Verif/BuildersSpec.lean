import Verif.Builders
/-!
# Specification of the grammar builders

What was last given since `Create`, and well-formed grammars.
-/

namespace Rodkina.Ast
namespace BuildSpec

open Build

/-- The calls since the last `Create`. -/
def since {κ : Type} (calls : List (Option κ)) : List κ :=
  (calls.reverse.takeWhile (·.isSome)).reverse.filterMap id

/-- What was last given for one part; `part` says what a call gives for it. -/
def given {κ β : Type} (part : κ → Option β) (calls : List (Option κ)) : Option β :=
  ((since calls).filterMap part).getLast?

/-- The same for a part that can be `nil`: giving `nil` takes it back. -/
def givenPart {κ β : Type} (part : κ → Option (Option β)) (calls : List (Option κ)) : Option β := (given part calls).join

/-- The same for a name: no name is the empty name. -/
def givenName {κ : Type} (part : κ → Option String) (calls : List (Option κ)) : String := (given part calls).getD ""

/-! ### What a call gives for each part -/

/-- The name a call gives. -/
def _root_.Rodkina.Ast.Build.ValueCall.name? : ValueCall → Option (String)
  | .withName x => some x
  | _ => none

/-- The number a call gives. -/
def _root_.Rodkina.Ast.Build.ValueCall.number? : ValueCall → Option (Option UInt8)
  | .withNumber x => some (some x)
  | _ => none

/-- The min a call gives. -/
def _root_.Rodkina.Ast.Build.CardinalityCall.min? : CardinalityCall → Option (Option Nat)
  | .withMin x => some (some x)
  | _ => none

/-- The max a call gives. -/
def _root_.Rodkina.Ast.Build.CardinalityCall.max? : CardinalityCall → Option (Option Nat)
  | .withMax x => some (some x)
  | _ => none

/-- The value a call gives. -/
def _root_.Rodkina.Ast.Build.ComposeElementCall.value? : ComposeElementCall → Option (Option Value)
  | .withValue x => some x
  | _ => none

/-- The occurences a call gives. -/
def _root_.Rodkina.Ast.Build.ComposeElementCall.occurences? : ComposeElementCall → Option (Nat)
  | .withOccurences x => some x
  | _ => none

/-- The name a call gives. -/
def _root_.Rodkina.Ast.Build.ComposeCall.name? : ComposeCall → Option (String)
  | .withName x => some x
  | _ => none

/-- The list a call gives. -/
def _root_.Rodkina.Ast.Build.ComposeCall.list? : ComposeCall → Option (Option (List (UInt8 × Nat)))
  | .withList x => some x
  | _ => none

/-- The valid a call gives. -/
def _root_.Rodkina.Ast.Build.SuiteCall.valid? : SuiteCall → Option (Option Compose)
  | .withValid x => some x
  | _ => none

/-- The invalid a call gives. -/
def _root_.Rodkina.Ast.Build.SuiteCall.invalid? : SuiteCall → Option (Option Compose)
  | .withInvalid x => some x
  | _ => none

/-- The name a call gives. -/
def _root_.Rodkina.Ast.Build.TokenCall.name? : TokenCall → Option (String)
  | .withName x => some x
  | _ => none

/-- The block a call gives. -/
def _root_.Rodkina.Ast.Build.TokenCall.block? : TokenCall → Option (Option (List GLine))
  | .withBlock x => some x
  | _ => none

/-- The suites a call gives. -/
def _root_.Rodkina.Ast.Build.TokenCall.suites? : TokenCall → Option (Option (List Suite))
  | .withSuites x => some x
  | _ => none

/-- The name a call gives. -/
def _root_.Rodkina.Ast.Build.EverythingCall.name? : EverythingCall → Option (String)
  | .withName x => some x
  | _ => none

/-- The exception a call gives. -/
def _root_.Rodkina.Ast.Build.EverythingCall.exception? : EverythingCall → Option (Option Token)
  | .withException x => some x
  | _ => none

/-- The escape a call gives. -/
def _root_.Rodkina.Ast.Build.EverythingCall.escape? : EverythingCall → Option (Option Token)
  | .withEscape x => some x
  | _ => none

/-- The token a call gives. -/
def _root_.Rodkina.Ast.Build.InstanceCall.token? : InstanceCall → Option (Option Token)
  | .withToken x => some x
  | _ => none

/-- The everything a call gives. -/
def _root_.Rodkina.Ast.Build.InstanceCall.everything? : InstanceCall → Option (Option Everything)
  | .withEverything x => some x
  | _ => none

/-- The name a call gives. -/
def _root_.Rodkina.Ast.Build.ExternalCall.name? : ExternalCall → Option (String)
  | .withName x => some x
  | _ => none

/-- The grammar a call gives. -/
def _root_.Rodkina.Ast.Build.ExternalCall.grammar? : ExternalCall → Option (Option Grammar)
  | .withGrammar x => some x
  | _ => none

/-- The cardinality a call gives. -/
def _root_.Rodkina.Ast.Build.ElementCall.cardinality? : ElementCall → Option (Option Cardinality)
  | .withCardinality x => some x
  | _ => none

/-- The value a call gives. -/
def _root_.Rodkina.Ast.Build.ElementCall.value? : ElementCall → Option (Option Value)
  | .withValue x => some x
  | _ => none

/-- The external a call gives. -/
def _root_.Rodkina.Ast.Build.ElementCall.external? : ElementCall → Option (Option External)
  | .withExternal x => some x
  | _ => none

/-- The inst a call gives. -/
def _root_.Rodkina.Ast.Build.ElementCall.inst? : ElementCall → Option (Option Instance)
  | .withInstance x => some x
  | _ => none

/-- The recursive a call gives. -/
def _root_.Rodkina.Ast.Build.ElementCall.recursive? : ElementCall → Option (String)
  | .withRecursive x => some x
  | _ => none

/-- The element a call gives. -/
def _root_.Rodkina.Ast.Build.ContainerCall.element? : ContainerCall → Option (Option Element)
  | .withElement x => some x
  | _ => none

/-- The compose a call gives. -/
def _root_.Rodkina.Ast.Build.ContainerCall.compose? : ContainerCall → Option (Option Compose)
  | .withCompose x => some x
  | _ => none

/-- The previous a call gives. -/
def _root_.Rodkina.Ast.Build.ConditionCall.previous? : ConditionCall → Option (Option Token)
  | .withPrevious x => some x
  | _ => none

/-- The next a call gives. -/
def _root_.Rodkina.Ast.Build.ConditionCall.next? : ConditionCall → Option (Option Token)
  | .withNext x => some x
  | _ => none

/-- The token a call gives. -/
def _root_.Rodkina.Ast.Build.ChannelCall.token? : ChannelCall → Option (Option Token)
  | .withToken x => some x
  | _ => none

/-- The condition a call gives. -/
def _root_.Rodkina.Ast.Build.ChannelCall.condition? : ChannelCall → Option (Option Condition)
  | .withCondition x => some x
  | _ => none

/-- The root a call gives. -/
def _root_.Rodkina.Ast.Build.GrammarCall.root? : GrammarCall → Option (Option Token)
  | .withRoot x => some x
  | _ => none

/-- The channels a call gives. -/
def _root_.Rodkina.Ast.Build.GrammarCall.channels? : GrammarCall → Option (Option (List Channel))
  | .withChannels x => some x
  | _ => none

/-! ### Well-formed grammars -/

/-- A compose has a name and at least one part, each occurring. -/
def ComposeWF (c : Compose) : Prop := c.name ≠ "" ∧ c.list ≠ [] ∧ ∀ p ∈ c.list, p.2 ≠ 0

mutual
/-- A token has a name and at least one alternative. -/
inductive TokenWF : Token → Prop
  | mk (name : String) (lines : List GLine) (suites : List Suite) : name ≠ "" → lines ≠ [] → (∀ l ∈ lines, LineWF l) →
      (∀ s ∈ suites, ComposeWF s.content) → TokenWF (.mk name lines suites)

/-- An alternative is not empty. -/
inductive LineWF : GLine → Prop
  | mk (containers : List Container) : containers ≠ [] → (∀ c ∈ containers, ContainerWF c) → LineWF (.mk containers)

/-- What is repeated is well-formed; nothing is said about the numbers. -/
inductive ContainerWF : Container → Prop
  | element (min : Nat) (max : Option Nat) (c : Content) : ContentWF c → ContainerWF (.element min max c)
  | compose (c : Compose) : ComposeWF c → ContainerWF (.compose c)

/-- Everything that has a name of its own has a non-empty one. -/
inductive ContentWF : Content → Prop
  | value (name : String) (b : UInt8) : name ≠ "" → ContentWF (.value name b)
  | external (name : String) (g : Grammar) : name ≠ "" → GrammarWF g → ContentWF (.external name g)
  | token (t : Token) : TokenWF t → ContentWF (.token t)
  | everything (name : String) (x : Token) (e : Option Token) : name ≠ "" → TokenWF x → (∀ t, e = some t → TokenWF t) →
      ContentWF (.everything name x e)
  | recursive (name : String) : name ≠ "" → ContentWF (.recursive name)

/-- Root and channels. -/
inductive GrammarWF : Grammar → Prop
  | mk (root : Token) (channels : List Channel) : TokenWF root → (∀ c ∈ channels, ChannelWF c) → GrammarWF (.mk root channels)

/-- A channel. -/
inductive ChannelWF : Channel → Prop
  | mk (t : Token) (p n : Option Token) : TokenWF t → (∀ x, p = some x → TokenWF x) → (∀ x, n = some x → TokenWF x) →
      ChannelWF (.mk t p n)
end

/-! ### Grammars that can be built

Every part given to a builder was itself obtained from a builder. -/

/-- Composes that can be built. -/
def ComposeBuilt (c : Compose) : Prop :=
  ∃ calls, composeBuilder.build calls = .ok c ∧
    ∀ l, some (.withList (some l)) ∈ calls → ∀ p ∈ l, ∃ calls', composeElementBuilder.build calls' = .ok p

/-- Suites that can be built. -/
def SuiteBuilt (s : Suite) : Prop :=
  ∃ calls, suiteBuilder.build calls = .ok s ∧
    (∀ c, some (.withValid (some c)) ∈ calls → ComposeBuilt c) ∧ (∀ c, some (.withInvalid (some c)) ∈ calls → ComposeBuilt c)

mutual
/-- Tokens that can be built: blocks and suites come from their builders, the lines of the blocks too. -/
inductive TokenBuilt : Token → Prop
  | mk (t : Token) (calls : List (Option TokenCall)) : tokenBuilder.build calls = .ok t →
      (∀ b, some (.withBlock (some b)) ∈ calls → ∃ calls', (listBuilder GLine).build calls' = .ok b) →
      (∀ b, some (.withBlock (some b)) ∈ calls → ∀ l ∈ b, LineBuilt l) →
      (∀ b, some (.withSuites (some b)) ∈ calls → ∃ calls', (listBuilder Suite).build calls' = .ok b) →
      (∀ b, some (.withSuites (some b)) ∈ calls → ∀ s ∈ b, SuiteBuilt s) → TokenBuilt t

/-- Lines that can be built. -/
inductive LineBuilt : GLine → Prop
  | mk (cs : List Container) (calls : List (Option (Option (List Container)))) : (listBuilder Container).build calls = .ok cs →
      (∀ c ∈ cs, ContainerBuilt c) → LineBuilt (.mk cs)

/-- Containers that can be built. -/
inductive ContainerBuilt : Container → Prop
  | mk (c : Container) (calls : List (Option ContainerCall)) : containerBuilder.build calls = .ok c →
      (∀ e, some (.withElement (some e)) ∈ calls → ElementBuilt e) →
      (∀ x, some (.withCompose (some x)) ∈ calls → ComposeBuilt x) → ContainerBuilt c

/-- Elements that can be built. -/
inductive ElementBuilt : Element → Prop
  | mk (e : Element) (calls : List (Option ElementCall)) : elementBuilder.build calls = .ok e →
      (∀ c, some (.withCardinality (some c)) ∈ calls → ∃ calls', cardinalityBuilder.build calls' = .ok c) →
      (∀ v, some (.withValue (some v)) ∈ calls → ∃ calls', valueBuilder.build calls' = .ok v) →
      (∀ x, some (.withExternal (some x)) ∈ calls → ExternalBuilt x) →
      (∀ i, some (.withInstance (some i)) ∈ calls → InstanceBuilt i) → ElementBuilt e

/-- External grammars that can be built. -/
inductive ExternalBuilt : External → Prop
  | mk (e : External) (calls : List (Option ExternalCall)) : externalBuilder.build calls = .ok e →
      (∀ g, some (.withGrammar (some g)) ∈ calls → GrammarBuilt g) → ExternalBuilt e

/-- Instances that can be built. -/
inductive InstanceBuilt : Instance → Prop
  | mk (i : Instance) (calls : List (Option InstanceCall)) : instanceBuilder.build calls = .ok i →
      (∀ t, some (.withToken (some t)) ∈ calls → TokenBuilt t) →
      (∀ e, some (.withEverything (some e)) ∈ calls → EverythingBuilt e) → InstanceBuilt i

/-- "Everything except" that can be built. -/
inductive EverythingBuilt : Everything → Prop
  | mk (e : Everything) (calls : List (Option EverythingCall)) : everythingBuilder.build calls = .ok e →
      (∀ t, some (.withException (some t)) ∈ calls → TokenBuilt t) →
      (∀ t, some (.withEscape (some t)) ∈ calls → TokenBuilt t) → EverythingBuilt e

/-- Grammars that can be built. -/
inductive GrammarBuilt : Grammar → Prop
  | mk (g : Grammar) (calls : List (Option GrammarCall)) : grammarBuilder.build calls = .ok g →
      (∀ t, some (.withRoot (some t)) ∈ calls → TokenBuilt t) →
      (∀ l, some (.withChannels (some l)) ∈ calls → ∃ calls', (listBuilder Channel).build calls' = .ok l) →
      (∀ l, some (.withChannels (some l)) ∈ calls → ∀ c ∈ l, ChannelBuilt c) → GrammarBuilt g

/-- Channels that can be built. -/
inductive ChannelBuilt : Channel → Prop
  | mk (c : Channel) (calls : List (Option ChannelCall)) : channelBuilder.build calls = .ok c →
      (∀ t, some (.withToken (some t)) ∈ calls → TokenBuilt t) →
      (∀ x, some (.withCondition (some x)) ∈ calls → ConditionBuilt x) → ChannelBuilt c

/-- Conditions that can be built. -/
inductive ConditionBuilt : Condition → Prop
  | mk (c : Condition) (calls : List (Option ConditionCall)) : conditionBuilder.build calls = .ok c →
      (∀ t, some (.withPrevious (some t)) ∈ calls → TokenBuilt t) →
      (∀ t, some (.withNext (some t)) ∈ calls → TokenBuilt t) → ConditionBuilt c
end

end BuildSpec
end Rodkina.Ast
