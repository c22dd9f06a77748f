import Verif.BuildersSpec
import Mathlib.Data.List.Induction
/-! Lemmas about the builders. -/

namespace Rodkina.Ast
namespace BuildSpec

open Build

theorem since_nil {κ : Type} : since ([] : List (Option κ)) = [] := rfl

theorem since_create {κ : Type} (calls : List (Option κ)) : since (calls ++ [none]) = [] := by
  simp [since]

theorem since_call {κ : Type} (calls : List (Option κ)) (k : κ) : since (calls ++ [some k]) = since calls ++ [k] := by
  simp [since]

theorem given_nil {κ β : Type} (part : κ → Option β) : given part [] = none := rfl

theorem given_create {κ β : Type} (part : κ → Option β) (calls : List (Option κ)) : given part (calls ++ [none]) = none := by
  simp [given, since_create]

theorem given_call {κ β : Type} (part : κ → Option β) (calls : List (Option κ)) (k : κ) :
    given part (calls ++ [some k]) = (part k).or (given part calls) := by
  rw [given, since_call, List.filterMap_append]
  cases h : part k with
  | none => simp [h, given]
  | some b => simp [h]

/-- A field holds what was last given for it. -/
theorem field {σ κ α β : Type} (b : Builder σ κ α) (f : σ → β) (part : κ → Option β)
    (h : ∀ k s, f (b.set k s) = (part k).getD (f s)) (calls : List (Option κ)) :
    f (b.run calls) = (given part calls).getD (f b.init) := by
  induction calls using List.reverseRecOn with
  | nil => rfl
  | append_singleton calls k ih =>
    unfold Builder.run at ih ⊢
    rw [List.foldl_append]
    cases k with
    | none => rw [given_create]; rfl
    | some k =>
      rw [given_call, List.foldl_cons, List.foldl_nil, h, ih]
      cases part k <;> rfl

theorem field_part {σ κ α β : Type} (b : Builder σ κ α) (f : σ → Option β) (part : κ → Option (Option β))
    (h : ∀ k s, f (b.set k s) = (part k).getD (f s)) (h0 : f b.init = none) (calls : List (Option κ)) :
    f (b.run calls) = givenPart part calls := by
  rw [field b f part h, h0, givenPart]
  cases given part calls <;> rfl

/-- What was last given was given. -/
theorem given_mem {κ β : Type} (part : κ → Option β) (calls : List (Option κ)) (x : β) (h : given part calls = some x) :
    ∃ k, some k ∈ calls ∧ part k = some x := by
  induction calls using List.reverseRecOn with
  | nil => cases h
  | append_singleton calls k ih =>
    cases k with
    | none => rw [given_create] at h; cases h
    | some k =>
      rw [given_call] at h
      cases hp : part k with
      | none =>
        rw [hp] at h
        obtain ⟨k', h1, h2⟩ := ih h
        exact ⟨k', by simp [h1], h2⟩
      | some b =>
        rw [hp] at h
        injection h with h
        subst h
        exact ⟨k, by simp, hp⟩

theorem givenPart_mem {κ β : Type} (part : κ → Option (Option β)) (calls : List (Option κ)) (x : β)
    (h : givenPart part calls = some x) : ∃ k, some k ∈ calls ∧ part k = some (some x) := by
  unfold givenPart at h
  cases hg : given part calls with
  | none => rw [hg] at h; cases h
  | some o =>
    rw [hg] at h
    cases o with
    | none => cases h
    | some y =>
      simp only [Option.join_some, Option.some.injEq] at h
      subst h
      exact given_mem part calls _ hg

/-! ### Each builder in terms of what was last given -/

theorem list_build {α : Type} (calls : List (Option (Option (List α)))) (l : List α) :
    (listBuilder α).build calls = .ok l ↔ l ≠ [] ∧ some l = givenPart some calls := by
  have h := field_part (listBuilder α) id some (fun _ _ => rfl) rfl calls
  unfold Builder.build
  generalize (listBuilder α).run calls = s at *
  rw [← h]
  rcases s with _ | _ | ⟨a, s⟩ <;> simp [listBuilder]
  constructor
  · rintro rfl; exact ⟨by simp, rfl⟩
  · rintro ⟨_, rfl⟩; rfl

theorem value_build (calls : List (Option ValueCall)) (v : Value) :
    valueBuilder.build calls = .ok v ↔
      v.name ≠ "" ∧ v.name = givenName ValueCall.name? calls ∧ some v.number = givenPart ValueCall.number? calls := by
  have h0 : (valueBuilder.run calls).1 = (given ValueCall.name? calls).getD "" := field valueBuilder (·.1) ValueCall.name? (by intro k s; cases k <;> rfl) calls
  have h1 := field_part valueBuilder (·.2) ValueCall.number? (by intro k s; cases k <;> rfl) rfl calls
  unfold Builder.build givenName
  rw [← h0, ← h1]
  obtain ⟨n, o⟩ := valueBuilder.run calls
  obtain ⟨vn, vb⟩ := v
  by_cases hn : n = "" <;> cases o <;> simp [valueBuilder] <;> grind

theorem cardinality_build (calls : List (Option CardinalityCall)) (c : Cardinality) :
    cardinalityBuilder.build calls = .ok c ↔
      some c.min = givenPart CardinalityCall.min? calls ∧ c.max = givenPart CardinalityCall.max? calls := by
  have h0 := field_part cardinalityBuilder (·.1) CardinalityCall.min? (by intro k s; cases k <;> rfl) rfl calls
  have h1 := field_part cardinalityBuilder (·.2) CardinalityCall.max? (by intro k s; cases k <;> rfl) rfl calls
  unfold Builder.build
  rw [← h0, ← h1]
  obtain ⟨n, o⟩ := cardinalityBuilder.run calls
  obtain ⟨cn, cm⟩ := c
  cases n <;> cases o <;> simp [cardinalityBuilder] <;> grind

theorem composeElement_build (calls : List (Option ComposeElementCall)) (p : UInt8 × Nat) :
    composeElementBuilder.build calls = .ok p ↔
      (∃ v, givenPart ComposeElementCall.value? calls = some v ∧ p.1 = v.number) ∧ p.2 ≠ 0 ∧
        p.2 = (given ComposeElementCall.occurences? calls).getD 0 := by
  have h0 := field_part composeElementBuilder (·.1) ComposeElementCall.value? (by intro k s; cases k <;> rfl) rfl calls
  have h1 : (composeElementBuilder.run calls).2 = (given ComposeElementCall.occurences? calls).getD 0 := field composeElementBuilder (·.2) ComposeElementCall.occurences? (by intro k s; cases k <;> rfl) calls
  unfold Builder.build
  rw [← h0, ← h1]
  obtain ⟨n, o⟩ := composeElementBuilder.run calls
  obtain ⟨p1, p2⟩ := p
  cases n <;> by_cases ho : o = 0 <;> simp [composeElementBuilder] <;> grind

theorem compose_build (calls : List (Option ComposeCall)) (c : Compose) :
    composeBuilder.build calls = .ok c ↔
      c.name ≠ "" ∧ c.name = givenName ComposeCall.name? calls ∧ c.list ≠ [] ∧ some c.list = givenPart ComposeCall.list? calls := by
  have h0 : (composeBuilder.run calls).1 = (given ComposeCall.name? calls).getD "" := field composeBuilder (·.1) ComposeCall.name? (by intro k s; cases k <;> rfl) calls
  have h1 := field_part composeBuilder (·.2) ComposeCall.list? (by intro k s; cases k <;> rfl) rfl calls
  unfold Builder.build givenName
  rw [← h0, ← h1]
  obtain ⟨n, o⟩ := composeBuilder.run calls
  obtain ⟨cn, cl⟩ := c
  by_cases hn : n = "" <;> rcases o with _ | _ | _ <;> simp [composeBuilder] <;> grind

theorem suite_build (calls : List (Option SuiteCall)) (s : Suite) :
    suiteBuilder.build calls = .ok s ↔
      (s.isValid = true ∧ some s.content = givenPart SuiteCall.valid? calls) ∨
        (s.isValid = false ∧ givenPart SuiteCall.valid? calls = none ∧ some s.content = givenPart SuiteCall.invalid? calls) := by
  have h0 := field_part suiteBuilder (·.1) SuiteCall.valid? (by intro k s; cases k <;> rfl) rfl calls
  have h1 := field_part suiteBuilder (·.2) SuiteCall.invalid? (by intro k s; cases k <;> rfl) rfl calls
  unfold Builder.build
  rw [← h0, ← h1]
  obtain ⟨n, o⟩ := suiteBuilder.run calls
  obtain ⟨sb, sc⟩ := s
  cases n <;> cases o <;> simp [suiteBuilder] <;> grind

theorem token_build (calls : List (Option TokenCall)) (t : Token) :
    tokenBuilder.build calls = .ok t ↔
      t.name ≠ "" ∧ t.name = givenName TokenCall.name? calls ∧ some t.lines = givenPart TokenCall.block? calls ∧
        t.suites = (givenPart TokenCall.suites? calls).getD [] := by
  have h0 : (tokenBuilder.run calls).1 = (given TokenCall.name? calls).getD "" := field tokenBuilder (·.1) TokenCall.name? (by intro k s; cases k <;> rfl) calls
  have h1 := field_part tokenBuilder (·.2.1) TokenCall.block? (by intro k s; cases k <;> rfl) rfl calls
  have h2 := field_part tokenBuilder (·.2.2) TokenCall.suites? (by intro k s; cases k <;> rfl) rfl calls
  unfold Builder.build givenName
  rw [← h0, ← h1, ← h2]
  obtain ⟨n, o, q⟩ := tokenBuilder.run calls
  obtain ⟨tn, tl, ts⟩ := t
  simp only [Token.name, Token.lines, Token.suites]
  by_cases hn : n = "" <;> cases o <;> cases q <;> simp [tokenBuilder] <;> grind

theorem everything_build (calls : List (Option EverythingCall)) (e : Everything) :
    everythingBuilder.build calls = .ok e ↔
      e.name ≠ "" ∧ e.name = givenName EverythingCall.name? calls ∧
        some e.exception = givenPart EverythingCall.exception? calls ∧ e.escape = givenPart EverythingCall.escape? calls := by
  have h0 : (everythingBuilder.run calls).1 = (given EverythingCall.name? calls).getD "" := field everythingBuilder (·.1) EverythingCall.name? (by intro k s; cases k <;> rfl) calls
  have h1 := field_part everythingBuilder (·.2.1) EverythingCall.exception? (by intro k s; cases k <;> rfl) rfl calls
  have h2 := field_part everythingBuilder (·.2.2) EverythingCall.escape? (by intro k s; cases k <;> rfl) rfl calls
  unfold Builder.build givenName
  rw [← h0, ← h1, ← h2]
  obtain ⟨n, o, q⟩ := everythingBuilder.run calls
  obtain ⟨en, ex, ee⟩ := e
  by_cases hn : n = "" <;> cases o <;> cases q <;> simp [everythingBuilder] <;> grind

theorem instance_build (calls : List (Option InstanceCall)) (i : Instance) :
    instanceBuilder.build calls = .ok i ↔
      (∃ t, i = .token t ∧ givenPart InstanceCall.token? calls = some t) ∨
        (∃ e, i = .everything e ∧ givenPart InstanceCall.token? calls = none ∧ givenPart InstanceCall.everything? calls = some e) := by
  have h0 := field_part instanceBuilder (·.1) InstanceCall.token? (by intro k s; cases k <;> rfl) rfl calls
  have h1 := field_part instanceBuilder (·.2) InstanceCall.everything? (by intro k s; cases k <;> rfl) rfl calls
  unfold Builder.build
  rw [← h0, ← h1]
  obtain ⟨n, o⟩ := instanceBuilder.run calls
  cases n <;> cases o <;> simp [instanceBuilder] <;> grind

theorem external_build (calls : List (Option ExternalCall)) (e : External) :
    externalBuilder.build calls = .ok e ↔
      e.name ≠ "" ∧ e.name = givenName ExternalCall.name? calls ∧ some e.grammar = givenPart ExternalCall.grammar? calls := by
  have h0 : (externalBuilder.run calls).1 = (given ExternalCall.name? calls).getD "" := field externalBuilder (·.1) ExternalCall.name? (by intro k s; cases k <;> rfl) calls
  have h1 := field_part externalBuilder (·.2) ExternalCall.grammar? (by intro k s; cases k <;> rfl) rfl calls
  unfold Builder.build givenName
  rw [← h0, ← h1]
  obtain ⟨n, o⟩ := externalBuilder.run calls
  obtain ⟨en, eg⟩ := e
  by_cases hn : n = "" <;> cases o <;> simp [externalBuilder] <;> grind

theorem element_build (calls : List (Option ElementCall)) (e : Element) :
    elementBuilder.build calls = .ok e ↔
      some e.cardinality = givenPart ElementCall.cardinality? calls ∧
        ((∃ v, e.content = .value v.name v.number ∧ givenPart ElementCall.value? calls = some v) ∨
         (∃ x, e.content = .external x.name x.grammar ∧ givenPart ElementCall.value? calls = none ∧
            givenPart ElementCall.external? calls = some x) ∨
         (∃ i, e.content = i.content ∧ givenPart ElementCall.value? calls = none ∧ givenPart ElementCall.external? calls = none ∧
            givenPart ElementCall.inst? calls = some i) ∨
         (∃ n, e.content = .recursive n ∧ givenPart ElementCall.value? calls = none ∧ givenPart ElementCall.external? calls = none ∧
            givenPart ElementCall.inst? calls = none ∧ n ≠ "" ∧ n = givenName ElementCall.recursive? calls)) := by
  have h0 := field_part elementBuilder (·.cardinality) ElementCall.cardinality? (by intro k s; cases k <;> rfl) rfl calls
  have h1 := field_part elementBuilder (·.value) ElementCall.value? (by intro k s; cases k <;> rfl) rfl calls
  have h2 := field_part elementBuilder (·.external) ElementCall.external? (by intro k s; cases k <;> rfl) rfl calls
  have h3 := field_part elementBuilder (·.inst) ElementCall.inst? (by intro k s; cases k <;> rfl) rfl calls
  have h4 : (elementBuilder.run calls).recursive = (given ElementCall.recursive? calls).getD "" := field elementBuilder (·.recursive) ElementCall.recursive? (by intro k s; cases k <;> rfl) calls
  unfold Builder.build givenName
  rw [← h0, ← h1, ← h2, ← h3, ← h4]
  obtain ⟨c, v, x, i, n⟩ := elementBuilder.run calls
  obtain ⟨ec, eo⟩ := e
  cases c <;> cases v <;> cases x <;> cases i <;> by_cases hn : n = "" <;> simp [elementBuilder] <;> grind

theorem container_build (calls : List (Option ContainerCall)) (c : Container) :
    containerBuilder.build calls = .ok c ↔
      (∃ e, c = .element e.cardinality.min e.cardinality.max e.content ∧ givenPart ContainerCall.element? calls = some e) ∨
        (∃ x, c = .compose x ∧ givenPart ContainerCall.element? calls = none ∧ givenPart ContainerCall.compose? calls = some x) := by
  have h0 := field_part containerBuilder (·.1) ContainerCall.element? (by intro k s; cases k <;> rfl) rfl calls
  have h1 := field_part containerBuilder (·.2) ContainerCall.compose? (by intro k s; cases k <;> rfl) rfl calls
  unfold Builder.build
  rw [← h0, ← h1]
  obtain ⟨n, o⟩ := containerBuilder.run calls
  cases n <;> cases o <;> simp [containerBuilder] <;> grind

theorem condition_build (calls : List (Option ConditionCall)) (c : Condition) :
    conditionBuilder.build calls = .ok c ↔
      c.previous = givenPart ConditionCall.previous? calls ∧ c.next = givenPart ConditionCall.next? calls := by
  have h0 := field_part conditionBuilder (·.1) ConditionCall.previous? (by intro k s; cases k <;> rfl) rfl calls
  have h1 := field_part conditionBuilder (·.2) ConditionCall.next? (by intro k s; cases k <;> rfl) rfl calls
  unfold Builder.build
  rw [← h0, ← h1]
  obtain ⟨n, o⟩ := conditionBuilder.run calls
  obtain ⟨cp, cn⟩ := c
  cases n <;> cases o <;> simp [conditionBuilder] <;> grind

theorem channel_build (calls : List (Option ChannelCall)) (c : Channel) :
    channelBuilder.build calls = .ok c ↔
      some c.token = givenPart ChannelCall.token? calls ∧
        c.previous = (givenPart ChannelCall.condition? calls).bind (·.previous) ∧
        c.next = (givenPart ChannelCall.condition? calls).bind (·.next) := by
  have h0 := field_part channelBuilder (·.1) ChannelCall.token? (by intro k s; cases k <;> rfl) rfl calls
  have h1 := field_part channelBuilder (·.2) ChannelCall.condition? (by intro k s; cases k <;> rfl) rfl calls
  unfold Builder.build
  rw [← h0, ← h1]
  obtain ⟨n, o⟩ := channelBuilder.run calls
  obtain ⟨ct, cp, cn⟩ := c
  simp only [Channel.token, Channel.previous, Channel.next]
  cases n <;> cases o <;> simp [channelBuilder] <;> grind

theorem grammar_build (calls : List (Option GrammarCall)) (g : Grammar) :
    grammarBuilder.build calls = .ok g ↔
      some g.root = givenPart GrammarCall.root? calls ∧ g.channels = (givenPart GrammarCall.channels? calls).getD [] := by
  have h0 := field_part grammarBuilder (·.1) GrammarCall.root? (by intro k s; cases k <;> rfl) rfl calls
  have h1 := field_part grammarBuilder (·.2) GrammarCall.channels? (by intro k s; cases k <;> rfl) rfl calls
  unfold Builder.build
  rw [← h0, ← h1]
  obtain ⟨n, o⟩ := grammarBuilder.run calls
  obtain ⟨gr, gc⟩ := g
  simp only [Grammar.root, Grammar.channels]
  cases n <;> cases o <;> simp [grammarBuilder] <;> grind

/-! ### Parts that were given -/

theorem given_some {κ β : Type} {part : κ → Option (Option β)} {calls : List (Option κ)} {x : β}
    (h : some x = givenPart part calls) : ∃ k, some k ∈ calls ∧ part k = some (some x) := givenPart_mem part calls x h.symm

/-! ### What is built is well-formed -/

theorem composeElement_built {p : UInt8 × Nat} : (∃ calls, composeElementBuilder.build calls = .ok p) ↔ p.2 ≠ 0 := by
  constructor
  · rintro ⟨calls, h⟩
    exact ((composeElement_build calls p).mp h).2.1
  · intro h
    refine ⟨[some (.withValue (some ⟨"a", p.1⟩)), some (.withOccurences p.2)], ?_⟩
    exact (composeElement_build _ p).mpr ⟨⟨⟨"a", p.1⟩, rfl, rfl⟩, h, rfl⟩

theorem composeBuilt_iff {c : Compose} : ComposeBuilt c ↔ ComposeWF c := by
  constructor
  · rintro ⟨calls, h, hl⟩
    obtain ⟨h1, _, h3, h4⟩ := (compose_build calls c).mp h
    refine ⟨h1, h3, fun p hp => ?_⟩
    obtain ⟨k, hk, hk2⟩ := given_some h4
    cases k with
    | withName n => cases hk2
    | withList l =>
      simp only [ComposeCall.list?, Option.some.injEq] at hk2
      subst hk2
      exact composeElement_built.mp (hl _ hk p hp)
  · rintro ⟨h1, h2, h3⟩
    refine ⟨[some (.withName c.name), some (.withList (some c.list))], ?_, ?_⟩
    · exact (compose_build _ c).mpr ⟨h1, rfl, h2, rfl⟩
    · intro l hl p hp
      simp at hl
      subst hl
      exact composeElement_built.mpr (h3 p hp)

theorem suiteBuilt_iff {s : Suite} : SuiteBuilt s ↔ ComposeWF s.content := by
  constructor
  · rintro ⟨calls, h, hv, hi⟩
    rcases (suite_build calls s).mp h with ⟨_, h1⟩ | ⟨_, _, h1⟩
    · obtain ⟨k, hk, hk2⟩ := given_some h1
      cases k with
      | withInvalid n => cases hk2
      | withValid l =>
        simp only [SuiteCall.valid?, Option.some.injEq] at hk2
        subst hk2
        exact composeBuilt_iff.mp (hv _ hk)
    · obtain ⟨k, hk, hk2⟩ := given_some h1
      cases k with
      | withValid n => cases hk2
      | withInvalid l =>
        simp only [SuiteCall.invalid?, Option.some.injEq] at hk2
        subst hk2
        exact composeBuilt_iff.mp (hi _ hk)
  · intro h
    obtain ⟨b, c⟩ := s
    cases b with
    | true =>
      refine ⟨[some (.withValid (some c))], (suite_build _ _).mpr (Or.inl ⟨rfl, rfl⟩), ?_, ?_⟩
      · intro c' hc; simp at hc; subst hc; exact composeBuilt_iff.mpr h
      · intro c' hc; simp at hc
    | false =>
      refine ⟨[some (.withInvalid (some c))], (suite_build _ _).mpr (Or.inr ⟨rfl, rfl, rfl⟩), ?_, ?_⟩
      · intro c' hc; simp at hc
      · intro c' hc; simp at hc; subst hc; exact composeBuilt_iff.mpr h

/-- The list builders add nothing but that lists are not empty. -/
theorem listBuilt_iff {α : Type} {l : List α} : (∃ calls, (listBuilder α).build calls = .ok l) ↔ l ≠ [] := by
  constructor
  · rintro ⟨calls, h⟩; exact ((list_build calls l).mp h).1
  · intro h; exact ⟨[some (some l)], (list_build _ l).mpr ⟨h, rfl⟩⟩

theorem valueBuilt_iff {v : Value} : (∃ calls, valueBuilder.build calls = .ok v) ↔ v.name ≠ "" := by
  constructor
  · rintro ⟨calls, h⟩; exact ((value_build calls v).mp h).1
  · intro h; exact ⟨[some (.withName v.name), some (.withNumber v.number)], (value_build _ v).mpr ⟨h, rfl, rfl⟩⟩

theorem cardinalityBuilt (c : Cardinality) : ∃ calls, cardinalityBuilder.build calls = .ok c := by
  obtain ⟨a, b⟩ := c
  cases b with
  | none => exact ⟨[some (.withMin a)], (cardinality_build _ _).mpr ⟨rfl, rfl⟩⟩
  | some b => exact ⟨[some (.withMin a), some (.withMax b)], (cardinality_build _ _).mpr ⟨rfl, rfl⟩⟩

mutual
theorem TokenBuilt.wf {t : Token} : TokenBuilt t → TokenWF t
  | .mk t calls h hb hl hs hs2 => by
    obtain ⟨h1, _, h3, h4⟩ := (token_build calls t).mp h
    obtain ⟨n, ls, ss⟩ := t
    simp only [Token.name, Token.lines, Token.suites] at h1 h3 h4
    obtain ⟨k, hk, hk2⟩ := given_some h3
    refine .mk _ _ _ h1 ?_ ?_ ?_
    · cases k <;> simp [TokenCall.block?] at hk2
      subst hk2
      exact listBuilt_iff.mp (hb _ hk)
    · intro l hl'
      cases k <;> simp [TokenCall.block?] at hk2
      subst hk2
      exact LineBuilt.wf (hl _ hk l hl')
    · intro s hs'
      cases hg : givenPart TokenCall.suites? calls with
      | none => rw [hg] at h4; subst h4; cases hs'
      | some x =>
        rw [hg] at h4
        simp at h4
        subst h4
        obtain ⟨k, hk, hk2⟩ := given_some hg.symm
        cases k <;> simp [TokenCall.suites?] at hk2
        subst hk2
        exact suiteBuilt_iff.mp (hs2 _ hk s hs')

theorem LineBuilt.wf {l : GLine} : LineBuilt l → LineWF l
  | .mk cs calls h hc => .mk cs ((list_build calls cs).mp h).1 fun c hc' => ContainerBuilt.wf (hc c hc')

theorem ContainerBuilt.wf {c : Container} : ContainerBuilt c → ContainerWF c
  | .mk c calls h he hx => by
    rcases (container_build calls c).mp h with ⟨e, rfl, h1⟩ | ⟨x, rfl, _, h1⟩
    · obtain ⟨k, hk, hk2⟩ := given_some h1.symm
      cases k <;> simp [ContainerCall.element?] at hk2
      subst hk2
      exact .element _ _ _ (ElementBuilt.wf (he _ hk))
    · obtain ⟨k, hk, hk2⟩ := given_some h1.symm
      cases k <;> simp [ContainerCall.compose?] at hk2
      subst hk2
      exact .compose _ (composeBuilt_iff.mp (hx _ hk))

theorem ElementBuilt.wf {e : Element} : ElementBuilt e → ContentWF e.content
  | .mk e calls h _ hv hx hi => by
    obtain ⟨_, h1⟩ := (element_build calls e).mp h
    rcases h1 with ⟨v, h0, h1⟩ | ⟨x, h0, _, h1⟩ | ⟨i, h0, _, _, h1⟩ | ⟨n, h0, _, _, _, h1, _⟩
    · obtain ⟨k, hk, hk2⟩ := given_some h1.symm
      cases k <;> simp [ElementCall.value?] at hk2
      subst hk2
      rw [h0]
      exact .value _ _ (valueBuilt_iff.mp (hv _ hk))
    · obtain ⟨k, hk, hk2⟩ := given_some h1.symm
      cases k <;> simp [ElementCall.external?] at hk2
      subst hk2
      rw [h0]
      exact .external _ _ (ExternalBuilt.wf (hx _ hk)).1 (ExternalBuilt.wf (hx _ hk)).2
    · obtain ⟨k, hk, hk2⟩ := given_some h1.symm
      cases k <;> simp [ElementCall.inst?] at hk2
      subst hk2
      rw [h0]
      exact InstanceBuilt.wf (hi _ hk)
    · rw [h0]
      exact .recursive n h1

theorem ExternalBuilt.wf {e : External} : ExternalBuilt e → e.name ≠ "" ∧ GrammarWF e.grammar
  | .mk e calls h hg => by
    obtain ⟨h1, _, h2⟩ := (external_build calls e).mp h
    refine ⟨h1, ?_⟩
    obtain ⟨k, hk, hk2⟩ := given_some h2
    cases k <;> simp [ExternalCall.grammar?] at hk2
    subst hk2
    exact GrammarBuilt.wf (hg _ hk)

theorem InstanceBuilt.wf {i : Instance} : InstanceBuilt i → ContentWF i.content
  | .mk i calls h ht he => by
    rcases (instance_build calls i).mp h with ⟨t, rfl, h1⟩ | ⟨e, rfl, _, h1⟩
    · obtain ⟨k, hk, hk2⟩ := given_some h1.symm
      cases k <;> simp [InstanceCall.token?] at hk2
      subst hk2
      exact .token _ (TokenBuilt.wf (ht _ hk))
    · obtain ⟨k, hk, hk2⟩ := given_some h1.symm
      cases k <;> simp [InstanceCall.everything?] at hk2
      subst hk2
      obtain ⟨h1, h2, h3⟩ := EverythingBuilt.wf (he _ hk)
      exact .everything _ _ _ h1 h2 h3

theorem EverythingBuilt.wf {e : Everything} : EverythingBuilt e →
    e.name ≠ "" ∧ TokenWF e.exception ∧ ∀ t, e.escape = some t → TokenWF t
  | .mk e calls h hx he => by
    obtain ⟨h1, _, h2, h3⟩ := (everything_build calls e).mp h
    refine ⟨h1, ?_, fun t ht => ?_⟩
    · obtain ⟨k, hk, hk2⟩ := given_some h2
      cases k <;> simp [EverythingCall.exception?] at hk2
      subst hk2
      exact TokenBuilt.wf (hx _ hk)
    · rw [ht] at h3
      obtain ⟨k, hk, hk2⟩ := given_some h3
      cases k <;> simp [EverythingCall.escape?] at hk2
      subst hk2
      exact TokenBuilt.wf (he _ hk)

theorem GrammarBuilt.wf {g : Grammar} : GrammarBuilt g → GrammarWF g
  | .mk g calls h ht _ hc => by
    obtain ⟨h1, h2⟩ := (grammar_build calls g).mp h
    obtain ⟨r, cs⟩ := g
    simp only [Grammar.root, Grammar.channels] at h1 h2
    refine .mk _ _ ?_ ?_
    · obtain ⟨k, hk, hk2⟩ := given_some h1
      cases k <;> simp [GrammarCall.root?] at hk2
      subst hk2
      exact TokenBuilt.wf (ht _ hk)
    · intro c hc'
      cases hg : givenPart GrammarCall.channels? calls with
      | none => rw [hg] at h2; subst h2; cases hc'
      | some x =>
        rw [hg] at h2
        simp at h2
        subst h2
        obtain ⟨k, hk, hk2⟩ := given_some hg.symm
        cases k <;> simp [GrammarCall.channels?] at hk2
        subst hk2
        exact ChannelBuilt.wf (hc _ hk c hc')

theorem ChannelBuilt.wf {c : Channel} : ChannelBuilt c → ChannelWF c
  | .mk c calls h ht hx => by
    obtain ⟨h1, h2, h3⟩ := (channel_build calls c).mp h
    obtain ⟨t, p, n⟩ := c
    simp only [Channel.token, Channel.previous, Channel.next] at h1 h2 h3
    refine .mk _ _ _ ?_ ?_ ?_
    · obtain ⟨k, hk, hk2⟩ := given_some h1
      cases k <;> simp [ChannelCall.token?] at hk2
      subst hk2
      exact TokenBuilt.wf (ht _ hk)
    · intro x hp
      cases hg : givenPart ChannelCall.condition? calls with
      | none => rw [hg, hp] at h2; cases h2
      | some y =>
        rw [hg, hp] at h2
        obtain ⟨k, hk, hk2⟩ := given_some hg.symm
        cases k <;> simp [ChannelCall.condition?] at hk2
        subst hk2
        exact (ConditionBuilt.wf (hx _ hk)).1 x h2.symm
    · intro x hp
      cases hg : givenPart ChannelCall.condition? calls with
      | none => rw [hg, hp] at h3; cases h3
      | some y =>
        rw [hg, hp] at h3
        obtain ⟨k, hk, hk2⟩ := given_some hg.symm
        cases k <;> simp [ChannelCall.condition?] at hk2
        subst hk2
        exact (ConditionBuilt.wf (hx _ hk)).2 x h3.symm

theorem ConditionBuilt.wf {c : Condition} : ConditionBuilt c →
    (∀ t, c.previous = some t → TokenWF t) ∧ ∀ t, c.next = some t → TokenWF t
  | .mk c calls h hp hn => by
    obtain ⟨h1, h2⟩ := (condition_build calls c).mp h
    refine ⟨fun t ht => ?_, fun t ht => ?_⟩
    · rw [ht] at h1
      obtain ⟨k, hk, hk2⟩ := given_some h1
      cases k <;> simp [ConditionCall.previous?] at hk2
      subst hk2
      exact TokenBuilt.wf (hp _ hk)
    · rw [ht] at h2
      obtain ⟨k, hk, hk2⟩ := given_some h2
      cases k <;> simp [ConditionCall.next?] at hk2
      subst hk2
      exact TokenBuilt.wf (hn _ hk)
end

/-! ### What is well-formed can be built -/

mutual
theorem TokenWF.built {t : Token} : TokenWF t → TokenBuilt t
  | .mk name lines suites h1 h2 h3 h4 => by
    have ih := fun l hl => LineWF.built (h3 l hl)
    cases suites with
    | nil =>
      refine .mk _ [some (.withName name), some (.withBlock (some lines))] ((token_build _ _).mpr ⟨h1, rfl, rfl, rfl⟩) ?_ ?_ ?_ ?_
      · intro b hb; simp at hb; subst hb; exact listBuilt_iff.mpr h2
      · intro b hb l hl; simp at hb; subst hb; exact ih l hl
      · intro b hb; simp at hb
      · intro b hb; simp at hb
    | cons s ss =>
      refine .mk _ [some (.withName name), some (.withBlock (some lines)), some (.withSuites (some (s :: ss)))]
        ((token_build _ _).mpr ⟨h1, rfl, rfl, rfl⟩) ?_ ?_ ?_ ?_
      · intro b hb; simp at hb; subst hb; exact listBuilt_iff.mpr h2
      · intro b hb l hl; simp at hb; subst hb; exact ih l hl
      · intro b hb; simp at hb; subst hb; exact listBuilt_iff.mpr (by simp)
      · intro b hb x hx; simp at hb; subst hb; exact suiteBuilt_iff.mpr (h4 x hx)

theorem LineWF.built {l : GLine} : LineWF l → LineBuilt l
  | .mk cs h1 h2 => .mk cs [some (some cs)] ((list_build _ _).mpr ⟨h1, rfl⟩) fun c hc => ContainerWF.built (h2 c hc)

theorem ContainerWF.built {c : Container} : ContainerWF c → ContainerBuilt c
  | .element min max c h => by
    have ih := ContentWF.built h
    refine .mk _ [some (.withElement (some ⟨⟨min, max⟩, c⟩))] ((container_build _ _).mpr (Or.inl ⟨_, rfl, rfl⟩)) ?_ ?_
    · intro e he; simp at he; subst he; exact ih ⟨min, max⟩
    · intro e he; simp at he
  | .compose c h => by
    refine .mk _ [some (.withCompose (some c))] ((container_build _ _).mpr (Or.inr ⟨_, rfl, rfl, rfl⟩)) ?_ ?_
    · intro e he; simp at he
    · intro e he; simp at he; subst he; exact composeBuilt_iff.mpr h

theorem ContentWF.built {c : Content} : ContentWF c → ∀ k : Cardinality, ElementBuilt ⟨k, c⟩
  | .value name b h => by
    intro k
    refine .mk _ [some (.withCardinality (some k)), some (.withValue (some ⟨name, b⟩))]
      ((element_build _ _).mpr ⟨rfl, Or.inl ⟨⟨name, b⟩, rfl, rfl⟩⟩) (fun c _ => cardinalityBuilt c) ?_ ?_ ?_
    · intro v hv; simp at hv; subst hv; exact valueBuilt_iff.mpr h
    · intro v hv; simp at hv
    · intro v hv; simp at hv
  | .external name g h hg => by
    have ih := GrammarWF.built hg
    intro k
    refine .mk _ [some (.withCardinality (some k)), some (.withExternal (some ⟨name, g⟩))]
      ((element_build _ _).mpr ⟨rfl, Or.inr (Or.inl ⟨⟨name, g⟩, rfl, rfl, rfl⟩)⟩) (fun c _ => cardinalityBuilt c) ?_ ?_ ?_
    · intro v hv; simp at hv
    · intro v hv; simp at hv; subst hv
      refine .mk _ [some (.withName name), some (.withGrammar (some g))] ((external_build _ _).mpr ⟨h, rfl, rfl⟩) ?_
      intro g' hg'; simp at hg'; subst hg'; exact ih
    · intro v hv; simp at hv
  | .token t ht => by
    have ih := TokenWF.built ht
    intro k
    refine .mk _ [some (.withCardinality (some k)), some (.withInstance (some (.token t)))]
      ((element_build _ _).mpr ⟨rfl, Or.inr (Or.inr (Or.inl ⟨.token t, rfl, rfl, rfl, rfl⟩))⟩) (fun c _ => cardinalityBuilt c) ?_ ?_ ?_
    · intro v hv; simp at hv
    · intro v hv; simp at hv
    · intro v hv; simp at hv; subst hv
      refine .mk _ [some (.withToken (some t))] ((instance_build _ _).mpr (Or.inl ⟨t, rfl, rfl⟩)) ?_ ?_
      · intro x hx; simp at hx; subst hx; exact ih
      · intro x hx; simp at hx
  | .everything name x e h hx he => by
    have ih1 := TokenWF.built hx
    have ih2 := fun t ht => TokenWF.built (he t ht)
    intro k
    refine .mk _ [some (.withCardinality (some k)), some (.withInstance (some (.everything ⟨name, x, e⟩)))]
      ((element_build _ _).mpr ⟨rfl, Or.inr (Or.inr (Or.inl ⟨.everything ⟨name, x, e⟩, rfl, rfl, rfl, rfl⟩))⟩)
      (fun c _ => cardinalityBuilt c) ?_ ?_ ?_
    · intro v hv; simp at hv
    · intro v hv; simp at hv
    · intro v hv; simp at hv; subst hv
      refine .mk _ [some (.withEverything (some ⟨name, x, e⟩))] ((instance_build _ _).mpr (Or.inr ⟨_, rfl, rfl, rfl⟩)) ?_ ?_
      · intro x hx; simp at hx
      · intro y hy; simp at hy; subst hy
        refine .mk _ [some (.withName name), some (.withException (some x)), some (.withEscape e)]
          ((everything_build _ _).mpr ⟨h, rfl, rfl, rfl⟩) ?_ ?_
        · intro t ht; simp at ht; subst ht; exact ih1
        · intro t ht; simp at ht; exact ih2 t ht.symm
  | .recursive name h => by
    intro k
    refine .mk _ [some (.withCardinality (some k)), some (.withRecursive name)]
      ((element_build _ _).mpr ⟨rfl, Or.inr (Or.inr (Or.inr ⟨name, rfl, rfl, rfl, rfl, h, rfl⟩))⟩)
      (fun c _ => cardinalityBuilt c) ?_ ?_ ?_
    · intro v hv; simp at hv
    · intro v hv; simp at hv
    · intro v hv; simp at hv

theorem GrammarWF.built {g : Grammar} : GrammarWF g → GrammarBuilt g
  | .mk root channels h1 h2 => by
    have ih1 := TokenWF.built h1
    have ih2 := fun c hc => ChannelWF.built (h2 c hc)
    cases channels with
    | nil =>
      refine .mk _ [some (.withRoot (some root))] ((grammar_build _ _).mpr ⟨rfl, rfl⟩) ?_ ?_ ?_
      · intro t ht; simp at ht; subst ht; exact ih1
      · intro l hl; simp at hl
      · intro l hl; simp at hl
    | cons c cs =>
      refine .mk _ [some (.withRoot (some root)), some (.withChannels (some (c :: cs)))] ((grammar_build _ _).mpr ⟨rfl, rfl⟩) ?_ ?_ ?_
      · intro t ht; simp at ht; subst ht; exact ih1
      · intro l hl; simp at hl; subst hl; exact listBuilt_iff.mpr (by simp)
      · intro l hl x hx; simp at hl; subst hl; exact ih2 x hx

theorem ChannelWF.built {c : Channel} : ChannelWF c → ChannelBuilt c
  | .mk t p n h1 h2 h3 => by
    have ih1 := TokenWF.built h1
    have ih2 := fun t ht => TokenWF.built (h2 t ht)
    have ih3 := fun t ht => TokenWF.built (h3 t ht)
    refine .mk _ [some (.withToken (some t)), some (.withCondition (some ⟨p, n⟩))] ((channel_build _ _).mpr ⟨rfl, rfl, rfl⟩) ?_ ?_
    · intro x hx; simp at hx; subst hx; exact ih1
    · intro x hx; simp at hx; subst hx
      refine .mk _ [some (.withPrevious p), some (.withNext n)] ((condition_build _ _).mpr ⟨rfl, rfl⟩) ?_ ?_
      · intro x hx; simp at hx; exact ih2 x hx.symm
      · intro x hx; simp at hx; exact ih3 x hx.symm
end

end BuildSpec
end Rodkina.Ast
