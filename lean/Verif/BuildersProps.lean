import Verif.BuildersLemmas
import Verif.AstProps
/-!
# C95, C96, C97: the grammar builders
-/

namespace Rodkina.Props

open Rodkina.Ast
open Rodkina.Ast.Build
open Rodkina.Ast.BuildSpec

/-! ## C95: what is built is what was given -/

/-- **C95 (blocks, lines, suites, tokens, channels).** The list last given since `Create`, if there is one and it is not empty;
an error otherwise. -/
theorem C95_lists {α : Type} (calls : List (Option (Option (List α)))) (l : List α) :
    (listBuilder α).build calls = .ok l ↔ l ≠ [] ∧ some l = givenPart some calls :=
  list_build calls l

example : (listBuilder Nat).build [some (some [1, 2]), none, some (some [1]), some (some [3])] = .ok [3] ∧
    (listBuilder Nat).build [some (some [1, 2]), none] = .err :=
  ⟨(C95_lists _ _).mpr ⟨by simp, rfl⟩, rfl⟩

/-- **C95 (values).** -/
theorem C95_value (calls : List (Option ValueCall)) (v : Value) :
    valueBuilder.build calls = .ok v ↔
      v.name ≠ "" ∧ v.name = givenName ValueCall.name? calls ∧ some v.number = givenPart ValueCall.number? calls :=
  value_build calls v

example : valueBuilder.build [some (.withNumber 7), some (.withName "a"), some (.withNumber 9)] = .ok ⟨"a", 9⟩ :=
  (C95_value _ _).mpr ⟨by simp, rfl, rfl⟩

/-- **C95 (cardinalities).** -/
theorem C95_cardinality (calls : List (Option CardinalityCall)) (c : Cardinality) :
    cardinalityBuilder.build calls = .ok c ↔
      some c.min = givenPart CardinalityCall.min? calls ∧ c.max = givenPart CardinalityCall.max? calls :=
  cardinality_build calls c

example : cardinalityBuilder.build [some (.withMax 9), none, some (.withMin 2)] = .ok ⟨2, none⟩ :=
  (C95_cardinality _ _).mpr ⟨rfl, rfl⟩

/-- **C95 (parts of composes).** -/
theorem C95_composeElement (calls : List (Option ComposeElementCall)) (p : UInt8 × Nat) :
    composeElementBuilder.build calls = .ok p ↔
      (∃ v, givenPart ComposeElementCall.value? calls = some v ∧ p.1 = v.number) ∧ p.2 ≠ 0 ∧
        p.2 = (given ComposeElementCall.occurences? calls).getD 0 :=
  composeElement_build calls p

example : composeElementBuilder.build [some (.withOccurences 3), some (.withValue (some ⟨"a", 97⟩))] = .ok (97, 3) :=
  (C95_composeElement _ _).mpr ⟨⟨_, rfl, rfl⟩, by simp, rfl⟩

/-- **C95 (composes).** -/
theorem C95_compose (calls : List (Option ComposeCall)) (c : Compose) :
    composeBuilder.build calls = .ok c ↔
      c.name ≠ "" ∧ c.name = givenName ComposeCall.name? calls ∧ c.list ≠ [] ∧ some c.list = givenPart ComposeCall.list? calls :=
  compose_build calls c

example : composeBuilder.build [some (.withList (some [(97, 3)])), some (.withName "c")] = .ok ⟨"c", [(97, 3)]⟩ :=
  (C95_compose _ _).mpr ⟨by simp, rfl, by simp, rfl⟩

/-- **C95 (tokens).** -/
theorem C95_token (calls : List (Option TokenCall)) (t : Token) :
    tokenBuilder.build calls = .ok t ↔
      t.name ≠ "" ∧ t.name = givenName TokenCall.name? calls ∧ some t.lines = givenPart TokenCall.block? calls ∧
        t.suites = (givenPart TokenCall.suites? calls).getD [] :=
  token_build calls t

/-- A token of one alternative: the byte 97, once. -/
def builtToken : Token := .mk "t" [.mk [.element 1 (some 1) (.value "a" 97)]] []

example : tokenBuilder.build [some (.withSuites (some [⟨true, ⟨"c", [(97, 1)]⟩⟩])), some (.withBlock (some builtToken.lines)),
    some (.withName "t"), some (.withSuites none)] = .ok builtToken :=
  (C95_token _ _).mpr ⟨by simp [builtToken, Token.name], rfl, rfl, rfl⟩

/-- **C95 ("everything except").** -/
theorem C95_everything (calls : List (Option EverythingCall)) (e : Everything) :
    everythingBuilder.build calls = .ok e ↔
      e.name ≠ "" ∧ e.name = givenName EverythingCall.name? calls ∧
        some e.exception = givenPart EverythingCall.exception? calls ∧ e.escape = givenPart EverythingCall.escape? calls :=
  everything_build calls e

example : everythingBuilder.build [some (.withEscape (some builtToken)), some (.withException (some builtToken)),
    some (.withName "e")] = .ok ⟨"e", builtToken, some builtToken⟩ :=
  (C95_everything _ _).mpr ⟨by simp, rfl, rfl, rfl⟩

/-- **C95 (external grammars).** -/
theorem C95_external (calls : List (Option ExternalCall)) (e : External) :
    externalBuilder.build calls = .ok e ↔
      e.name ≠ "" ∧ e.name = givenName ExternalCall.name? calls ∧ some e.grammar = givenPart ExternalCall.grammar? calls :=
  external_build calls e

example : externalBuilder.build [some (.withGrammar (some (.mk builtToken []))), some (.withName "e")] =
    .ok ⟨"e", .mk builtToken []⟩ :=
  (C95_external _ _).mpr ⟨by simp, rfl, rfl⟩

/-- **C95 (channel conditions).** Both parts are optional. -/
theorem C95_condition (calls : List (Option ConditionCall)) (c : Condition) :
    conditionBuilder.build calls = .ok c ↔
      c.previous = givenPart ConditionCall.previous? calls ∧ c.next = givenPart ConditionCall.next? calls :=
  condition_build calls c

example : conditionBuilder.build [some (.withNext (some builtToken))] = .ok ⟨none, some builtToken⟩ :=
  (C95_condition _ _).mpr ⟨rfl, rfl⟩

/-- **C95 (channels).** -/
theorem C95_channel (calls : List (Option ChannelCall)) (c : Channel) :
    channelBuilder.build calls = .ok c ↔
      some c.token = givenPart ChannelCall.token? calls ∧
        c.previous = (givenPart ChannelCall.condition? calls).bind (·.previous) ∧
        c.next = (givenPart ChannelCall.condition? calls).bind (·.next) :=
  channel_build calls c

example : channelBuilder.build [some (.withCondition (some ⟨none, some builtToken⟩)), some (.withToken (some builtToken))] =
    .ok (.mk builtToken none (some builtToken)) :=
  (C95_channel _ _).mpr ⟨rfl, rfl, rfl⟩

/-- **C95 (grammars).** -/
theorem C95_grammar (calls : List (Option GrammarCall)) (g : Grammar) :
    grammarBuilder.build calls = .ok g ↔
      some g.root = givenPart GrammarCall.root? calls ∧ g.channels = (givenPart GrammarCall.channels? calls).getD [] :=
  grammar_build calls g

example : grammarBuilder.build [some (.withChannels (some [.mk builtToken none none])), some (.withRoot (some builtToken))] =
    .ok (.mk builtToken [.mk builtToken none none]) :=
  (C95_grammar _ _).mpr ⟨rfl, rfl⟩

/-- **C95 (errors).** Whatever the calls, no builder panics: the only other outcome is an error. -/
theorem C95_never_panics :
    (∀ (α : Type) calls, (listBuilder α).build calls ≠ .panic) ∧ (∀ calls, valueBuilder.build calls ≠ .panic) ∧
    (∀ calls, cardinalityBuilder.build calls ≠ .panic) ∧ (∀ calls, composeElementBuilder.build calls ≠ .panic) ∧
    (∀ calls, composeBuilder.build calls ≠ .panic) ∧ (∀ calls, suiteBuilder.build calls ≠ .panic) ∧
    (∀ calls, tokenBuilder.build calls ≠ .panic) ∧ (∀ calls, everythingBuilder.build calls ≠ .panic) ∧
    (∀ calls, instanceBuilder.build calls ≠ .panic) ∧ (∀ calls, externalBuilder.build calls ≠ .panic) ∧
    (∀ calls, elementBuilder.build calls ≠ .panic) ∧ (∀ calls, containerBuilder.build calls ≠ .panic) ∧
    (∀ calls, conditionBuilder.build calls ≠ .panic) ∧ (∀ calls, channelBuilder.build calls ≠ .panic) ∧
    (∀ calls, grammarBuilder.build calls ≠ .panic) := by
  refine ⟨?_, ?_, ?_, ?_, ?_, ?_, ?_, ?_, ?_, ?_, ?_, ?_, ?_, ?_, ?_⟩
  · intro α calls; unfold Builder.build; simp only [listBuilder]; split <;> simp
  · intro calls; unfold Builder.build; simp only [valueBuilder]; repeat' split
    all_goals simp
  · intro calls; unfold Builder.build; simp only [cardinalityBuilder]; repeat' split
    all_goals simp
  · intro calls; unfold Builder.build; simp only [composeElementBuilder]; repeat' split
    all_goals simp
  · intro calls; unfold Builder.build; simp only [composeBuilder]; repeat' split
    all_goals simp
  · intro calls; unfold Builder.build; simp only [suiteBuilder]; repeat' split
    all_goals simp
  · intro calls; unfold Builder.build; simp only [tokenBuilder]; repeat' split
    all_goals simp
  · intro calls; unfold Builder.build; simp only [everythingBuilder]; repeat' split
    all_goals simp
  · intro calls; unfold Builder.build; simp only [instanceBuilder]; repeat' split
    all_goals simp
  · intro calls; unfold Builder.build; simp only [externalBuilder]; repeat' split
    all_goals simp
  · intro calls; unfold Builder.build; simp only [elementBuilder]; repeat' split
    all_goals simp
  · intro calls; unfold Builder.build; simp only [containerBuilder]; repeat' split
    all_goals simp
  · intro calls; unfold Builder.build; simp only [conditionBuilder]; repeat' split
    all_goals simp
  · intro calls; unfold Builder.build; simp only [channelBuilder]; repeat' split
    all_goals simp
  · intro calls; unfold Builder.build; simp only [grammarBuilder]; repeat' split
    all_goals simp

/-! ## C96: alternatives

A suite is valid or invalid, an instance is a token or an "everything except", a container is an element or a compose, an element
is a value, an external grammar, an instance or a reference to a token around it. The claim is that a builder given two of them
answers an error or takes the one given last. It takes the first of the list, whatever the order. -/

/-- **C96 (negation).** A container given an element and then a compose is the element; an element given a value after an
instance is the value, and one given an instance after a value is the same value. -/
theorem C96_negation :
    ∃ (e : Element) (x : Compose) (v : Value) (i : Instance) (c : Cardinality),
      containerBuilder.build [some (.withElement (some e)), some (.withCompose (some x))] =
        .ok (.element e.cardinality.min e.cardinality.max e.content) ∧
      elementBuilder.build [some (.withCardinality (some c)), some (.withValue (some v)), some (.withInstance (some i))] =
        .ok ⟨c, .value v.name v.number⟩ ∧
      elementBuilder.build [some (.withCardinality (some c)), some (.withInstance (some i)), some (.withValue (some v))] =
        .ok ⟨c, .value v.name v.number⟩ :=
  ⟨⟨⟨1, none⟩, .value "a" 97⟩, ⟨"c", [(97, 1)]⟩, ⟨"a", 97⟩, .token builtToken, ⟨1, none⟩, rfl, rfl, rfl⟩

/-- **C96 (suites, what holds).** -/
theorem C96_suite_partial (calls : List (Option SuiteCall)) (s : Suite) :
    suiteBuilder.build calls = .ok s ↔
      (s.isValid = true ∧ some s.content = givenPart SuiteCall.valid? calls) ∨
        (s.isValid = false ∧ givenPart SuiteCall.valid? calls = none ∧ some s.content = givenPart SuiteCall.invalid? calls) :=
  suite_build calls s

example : suiteBuilder.build [some (.withValid (some ⟨"c", [(97, 1)]⟩)), some (.withValid none),
    some (.withInvalid (some ⟨"d", [(98, 1)]⟩))] = .ok ⟨false, ⟨"d", [(98, 1)]⟩⟩ :=
  (C96_suite_partial _ _).mpr (Or.inr ⟨rfl, rfl, rfl⟩)

/-- **C96 (instances, what holds).** -/
theorem C96_instance_partial (calls : List (Option InstanceCall)) (i : Instance) :
    instanceBuilder.build calls = .ok i ↔
      (∃ t, i = .token t ∧ givenPart InstanceCall.token? calls = some t) ∨
        (∃ e, i = .everything e ∧ givenPart InstanceCall.token? calls = none ∧
          givenPart InstanceCall.everything? calls = some e) :=
  instance_build calls i

example : instanceBuilder.build [some (.withEverything (some ⟨"e", builtToken, none⟩))] =
    .ok (.everything ⟨"e", builtToken, none⟩) :=
  (C96_instance_partial _ _).mpr (Or.inr ⟨_, rfl, rfl, rfl⟩)

/-- **C96 (containers, what holds).** -/
theorem C96_container_partial (calls : List (Option ContainerCall)) (c : Container) :
    containerBuilder.build calls = .ok c ↔
      (∃ e, c = .element e.cardinality.min e.cardinality.max e.content ∧ givenPart ContainerCall.element? calls = some e) ∨
        (∃ x, c = .compose x ∧ givenPart ContainerCall.element? calls = none ∧
          givenPart ContainerCall.compose? calls = some x) :=
  container_build calls c

example : containerBuilder.build [some (.withCompose (some ⟨"c", [(97, 1)]⟩))] = .ok (.compose ⟨"c", [(97, 1)]⟩) :=
  (C96_container_partial _ _).mpr (Or.inr ⟨_, rfl, rfl, rfl⟩)

/-- **C96 (elements, what holds).** The value if one is given, else the external grammar, else the instance, else the name. -/
theorem C96_element_partial (calls : List (Option ElementCall)) (e : Element) :
    elementBuilder.build calls = .ok e ↔
      some e.cardinality = givenPart ElementCall.cardinality? calls ∧
        ((∃ v, e.content = .value v.name v.number ∧ givenPart ElementCall.value? calls = some v) ∨
         (∃ x, e.content = .external x.name x.grammar ∧ givenPart ElementCall.value? calls = none ∧
            givenPart ElementCall.external? calls = some x) ∨
         (∃ i, e.content = i.content ∧ givenPart ElementCall.value? calls = none ∧ givenPart ElementCall.external? calls = none ∧
            givenPart ElementCall.inst? calls = some i) ∨
         (∃ n, e.content = .recursive n ∧ givenPart ElementCall.value? calls = none ∧
            givenPart ElementCall.external? calls = none ∧ givenPart ElementCall.inst? calls = none ∧ n ≠ "" ∧
            n = givenName ElementCall.recursive? calls)) :=
  element_build calls e

example : elementBuilder.build [some (.withRecursive "t"), some (.withCardinality (some ⟨1, some 1⟩))] =
    .ok ⟨⟨1, some 1⟩, .recursive "t"⟩ :=
  (C96_element_partial _ _).mpr ⟨rfl, Or.inr (Or.inr (Or.inr ⟨_, rfl, rfl, rfl, rfl, by simp, rfl⟩))⟩

/-! ## C97: the grammars that can be built -/

/-- **C97 (what holds).** The grammars that can be built, from nothing but the builders, are exactly the well-formed ones: no
empty name, no empty block, line or compose, no part of a compose that does not occur. The full claim asks that no minimum be
above its maximum, too. -/
theorem C97_built_iff_wellformed_partial (g : Grammar) : GrammarBuilt g ↔ GrammarWF g := ⟨GrammarBuilt.wf, GrammarWF.built⟩

/-- The same for tokens. -/
theorem C97_token_built_iff_wellformed_partial (t : Token) : TokenBuilt t ↔ TokenWF t := ⟨TokenBuilt.wf, TokenWF.built⟩

theorem builtToken_wf : TokenWF builtToken :=
  .mk _ _ _ (by simp) (by simp) (by
    intro l hl
    simp at hl
    subst hl
    exact .mk _ (by simp) (by
      intro c hc
      simp at hc
      subst hc
      exact .element _ _ _ (.value _ _ (by simp)))) (by simp)

example : GrammarBuilt (.mk builtToken [.mk builtToken none (some builtToken)]) :=
  (C97_built_iff_wellformed_partial _).mpr (.mk _ _ builtToken_wf (by
    intro c hc
    simp at hc
    subst hc
    exact .mk _ _ _ builtToken_wf (by simp) (by intro x hx; cases hx; exact builtToken_wf)))

example : ¬ GrammarBuilt (.mk (.mk "t" [] []) []) := fun h => by
  cases GrammarBuilt.wf h with
  | mk _ _ h _ => cases h with | mk _ _ _ _ h _ _ => exact h rfl

/-- A root whose only alternative wants at least two and at most one. -/
def impossible : Grammar := .mk (.mk "t" [.mk [.element 2 (some 1) (.value "a" 97)]] []) []

/-- **C97 (negation).** A grammar can be built that asks for at least two and at most one of a byte. -/
theorem C97_negation : ∃ g min max c, GrammarBuilt g ∧ (∃ l ∈ g.root.lines, .element min (some max) c ∈ l.containers) ∧ max < min := by
  refine ⟨impossible, 2, 1, .value "a" 97, ?_, ⟨_, by simp [impossible, Grammar.root, Token.lines]; rfl, by simp [GLine.containers]⟩, by simp⟩
  refine (C97_built_iff_wellformed_partial _).mpr (.mk _ _ (.mk _ _ _ (by simp) (by simp) ?_ (by simp)) (by simp))
  intro l hl
  simp at hl
  subst hl
  refine .mk _ (by simp) ?_
  intro c hc
  simp at hc
  subst hc
  exact .element _ _ _ (.value _ _ (by simp))

theorem counts_possible {cs : List Container} {es : List TElement} (h : Counts cs es) (min max : Nat) (c : Content)
    (hm : max < min) : .element min (some max) c ∉ cs := by
  induction h with
  | nil => simp
  | absent max' c' _ _ _ ih =>
    intro hc
    rcases List.mem_cons.mp hc with h | h
    · injection h with h1; omega
    · exact ih h
  | present min' max' c' _ e _ _ h1 h2 _ _ ih =>
    intro hc
    rcases List.mem_cons.mp hc with h | h
    · injection h with h3 h4
      have := h2 max h4.symm
      omega
    · exact ih h

/-- **C97 (what such a grammar does).** An alternative that asks for more than it allows never matches: it is no line of any
successful tree, at any depth, except as the line of an "everything except". -/
theorem C97_impossible_cardinality_never_matches_partial (g : Grammar) (input : Bytes) (hi : input.length < 2 ^ 63) (t : Tree)
    (h : Parses g input (.ok t)) (hs : t.isSuccessful = true) (l : TLine) (hl : LineIn t l) (hr : l.isReverse = false)
    (min max : Nat) (c : Content) (hm : max < min) : .element min (some max) c ∉ l.grammar.containers := by
  rcases C43_cardinalities g input hi t h hs l hl with ⟨_, _, hc⟩ | ⟨hr', _⟩
  · exact counts_possible hc min max c hm
  · rw [hr] at hr'
    exact absurd hr' (by simp)

example : ∃ t l, Parses nested [40, 32, 40, 41, 41, 32, 120] (.ok t) ∧ LineIn t l ∧
    .element 2 (some 1) (.value "a" 97) ∉ l.grammar.containers := by
  obtain ⟨t, h1, h2, _⟩ := nested_run
  rcases t with ⟨tok, ⟨ls, l⟩, suf, rem⟩
  cases l with
  | none => simp [Tree.isSuccessful, Tree.block, Block.successful] at h2
  | some l =>
    have hl : LineIn (.mk tok (.mk ls (some l)) suf rem) l := .here _ _ _ _ _
    have hr : l.isReverse = false := by
      have := C42_trees_are_derivations nested _ (by simp) _ h1 h2
      cases this with
      | forward => rfl
    exact ⟨_, l, h1, hl, C97_impossible_cardinality_never_matches_partial nested _ (by simp) _ h1 h2 l hl hr 2 1 _ (by simp)⟩

/-- In particular a root all of whose alternatives ask for more than they allow accepts nothing. -/
theorem C97_impossible_root_accepts_nothing (root : Token) (chs : List Channel)
    (hc : ∀ l ∈ root.lines, ∃ min max c, .element min (some max) c ∈ l.containers ∧ max < min) (input : Bytes)
    (hi : input.length < 2 ^ 63) (t : Tree) (h : Parses (.mk root chs) input (.ok t)) : t.isSuccessful = false := by
  cases hs : t.isSuccessful with
  | false => rfl
  | true =>
    exfalso
    have := C42_trees_are_derivations _ input hi t h hs
    simp only [Grammar.root, Grammar.channels] at this
    cases this with
    | forward _ _ _ ls' i gl es suf' rem' h1 h2 h3 h4 =>
      obtain ⟨min, max, c, hc, hm⟩ := hc gl (List.mem_of_getElem? h1)
      exact counts_possible (counts_of_elementsOK h2) min max c hm hc

example (t : Tree) (h : Parses impossible [97, 97] (.ok t)) : t.isSuccessful = false :=
  C97_impossible_root_accepts_nothing _ _ (by
    intro l hl
    simp [Token.lines] at hl
    subst hl
    exact ⟨2, 1, _, by simp [GLine.containers]; rfl, by simp⟩) [97, 97] (by simp) t h

end Rodkina.Props
