import Verif.QueryBuildersLemmas
import Verif.QueryProps
/-!
# C100, C101, C102: the query builders
-/

namespace Rodkina.Props

open Rodkina.Query
open Rodkina.Query.Build
open Rodkina.Query.BuildSpec
open Rodkina.Ast (TContent)
open Rodkina.Ast.Build (Builder listBuilder)
open Rodkina.Ast.BuildSpec (since given givenPart givenName)

/-! ## C100: what is built is what was given -/

/-- **C100 (elements).** -/
theorem C100_element (calls : List (Option (ElementCall))) (e : QElement) :
    elementBuilder.build calls = .ok e ↔
      e.name ≠ "" ∧ e.name = givenName ElementCall.name? calls ∧ some e.index = givenPart ElementCall.index? calls :=
  element_build calls e

example : elementBuilder.build [some (.withIndex 7), some (.withName "a"), some (.withIndex 9)] = .ok ⟨"a", 9⟩ :=
  (C100_element _ _).mpr ⟨by simp, rfl, rfl⟩

/-- **C100 (tokens).** -/
theorem C100_token (calls : List (Option (TokenCall))) (t : QToken) :
    tokenBuilder.build calls = .ok t ↔
      t.name ≠ "" ∧ t.name = givenName TokenCall.name? calls ∧
        t.reverseName ≠ "" ∧ t.reverseName = givenName TokenCall.reverseName? calls ∧
        some ⟨t.elementName, t.index⟩ = givenPart TokenCall.element? calls ∧ t.content = givenPart TokenCall.content? calls :=
  token_build calls t

example : tokenBuilder.build [some (.withContent 1), none, some (.withReverseName "r"), some (.withElement (some ⟨"a", 9⟩)),
    some (.withName "t")] = .ok ⟨"t", "r", "a", 9, none⟩ :=
  (C100_token _ _).mpr ⟨by simp, rfl, by simp, rfl, rfl, rfl⟩

/-- **C100 (fetchers).** -/
theorem C100_fetchers {W : Type} (calls : List (Option (Option (List (Fetcher W))))) (l : List (Fetcher W)) :
    (fetchersBuilder W).build calls = .ok l ↔ l ≠ [] ∧ some l = givenPart some calls :=
  Rodkina.Ast.BuildSpec.list_build calls l

example : (fetchersBuilder Nat).build [some (some [.recursive "a"]), some (some [.recursive "b"])] = .ok [.recursive "b"] ∧
    (fetchersBuilder Nat).build [some (some [.recursive "a"]), some none] = .err :=
  ⟨(C100_fetchers _ _).mpr ⟨by simp, rfl⟩, rfl⟩

/-- **C100 (queries).** -/
theorem C100_query {W : Type} (calls : List (Option (QueryCall W))) (q : Query W) :
    (queryBuilder W).build calls = .ok q ↔
      some q.token = givenPart QueryCall.token? calls ∧ some q.inside = givenPart QueryCall.inside? calls ∧
        some q.fn = givenPart QueryCall.fn? calls :=
  query_build calls q

/-- A query for what is in the second `a` of `t`, with a reference to itself. -/
def builtQuery : Query Nat :=
  .mk ⟨"t", "r", "a", 1, none⟩ (.fetchers [.query (.mk ⟨"a", "r", "byte", 0, some 2⟩ (.fn (.multi fun _ => .ok [some 1]))
    (.single fun x => .ok (x, true))), .recursive "t"]) (.multi fun l => .ok (some l.length, true))

example : (queryBuilder Nat).build [some (.withFn none), some (.withInside (some builtQuery.inside)),
    some (.withToken (some builtQuery.token)), some (.withFn (some builtQuery.fn))] = .ok builtQuery :=
  (C100_query _ _).mpr ⟨rfl, rfl, rfl⟩

/-- **C100 (errors).** Whatever the calls, no builder panics: the only other outcome is an error. -/
theorem C100_never_panics (W : Type) :
    (∀ calls, elementBuilder.build calls ≠ .panic) ∧
    (∀ calls, tokenBuilder.build calls ≠ .panic) ∧
    (∀ calls, (contentFnBuilder W).build calls ≠ .panic) ∧
    (∀ calls, (queryFnBuilder W).build calls ≠ .panic) ∧
    (∀ calls, (fetcherBuilder W).build calls ≠ .panic) ∧
    (∀ calls, (insideBuilder W).build calls ≠ .panic) ∧
    (∀ calls, (queryBuilder W).build calls ≠ .panic) := by
  refine ⟨?_, ?_, ?_, ?_, ?_, ?_, ?_⟩
  · intro calls; unfold Builder.build; simp only [elementBuilder]; repeat' split
    all_goals simp
  · intro calls; unfold Builder.build; simp only [tokenBuilder]; repeat' split
    all_goals simp
  · intro calls; unfold Builder.build; simp only [contentFnBuilder]; repeat' split
    all_goals simp
  · intro calls; unfold Builder.build; simp only [queryFnBuilder]; repeat' split
    all_goals simp
  · intro calls; unfold Builder.build; simp only [fetcherBuilder]; repeat' split
    all_goals simp
  · intro calls; unfold Builder.build; simp only [insideBuilder]; repeat' split
    all_goals simp
  · intro calls; unfold Builder.build; simp only [queryBuilder]; repeat' split
    all_goals simp

/-! ## C101: alternatives -/

/-- **C101 (functions on contents, exact result).** -/
theorem C101_contentFn_partial {W : Type} (calls : List (Option (ContentFnCall W))) (f : ContentFn W) :
    (contentFnBuilder W).build calls = .ok f ↔
      (∃ g, f = .single g ∧ givenPart ContentFnCall.single? calls = some g) ∨
        (∃ g, f = .multi g ∧ givenPart ContentFnCall.single? calls = none ∧ givenPart ContentFnCall.multi? calls = some g) :=
  contentFn_build calls f

example : (contentFnBuilder Nat).build [some (.withSingle (some fun _ => .err)), some (.withSingle none),
    some (.withMulti (some fun _ => .ok []))] = .ok (.multi fun _ => .ok []) :=
  (C101_contentFn_partial _ _).mpr (.inr ⟨_, rfl, rfl, rfl⟩)

/-- **C101 (functions on instances, exact result).** -/
theorem C101_queryFn_partial {W : Type} (calls : List (Option (QueryFnCall W))) (f : QueryFn W) :
    (queryFnBuilder W).build calls = .ok f ↔
      (∃ g, f = .single g ∧ givenPart QueryFnCall.single? calls = some g) ∨
        (∃ g, f = .multi g ∧ givenPart QueryFnCall.single? calls = none ∧ givenPart QueryFnCall.multi? calls = some g) :=
  queryFn_build calls f

example : (queryFnBuilder Nat).build [some (.withMulti (some fun _ => .err)), some (.withSingle (some fun x => .ok (x, true)))] =
    .ok (.single fun x => .ok (x, true)) :=
  (C101_queryFn_partial _ _).mpr (.inl ⟨_, rfl, rfl⟩)

/-- **C101 (fetchers, exact result).** -/
theorem C101_fetcher_partial {W : Type} (calls : List (Option (FetcherCall W))) (f : Fetcher W) :
    (fetcherBuilder W).build calls = .ok f ↔
      (∃ n, f = .recursive n ∧ n ≠ "" ∧ n = givenName FetcherCall.recursive? calls) ∨
        (∃ q, f = .query q ∧ givenName FetcherCall.recursive? calls = "" ∧ givenPart FetcherCall.query? calls = some q) :=
  fetcher_build calls f

example : (fetcherBuilder Nat).build [some (.withRecursive "a"), some (.withQuery (some builtQuery)), some (.withRecursive "")] =
    .ok (.query builtQuery) :=
  (C101_fetcher_partial _ _).mpr (.inr ⟨_, rfl, rfl, rfl⟩)

/-- **C101 (insides, exact result).** -/
theorem C101_inside_partial {W : Type} (calls : List (Option (InsideCall W))) (i : Inside W) :
    (insideBuilder W).build calls = .ok i ↔
      (∃ f, i = .fn f ∧ givenPart InsideCall.fn? calls = some f) ∨
        (∃ l, i = .fetchers l ∧ givenPart InsideCall.fn? calls = none ∧ givenPart InsideCall.fetchers? calls = some l) :=
  inside_build calls i

example : (insideBuilder Nat).build [some (.withFetchers (some [.recursive "a"])), some (.withFn (some (.multi fun _ => .err)))] =
    .ok (.fn (.multi fun _ => .err)) :=
  (C101_inside_partial _ _).mpr (.inl ⟨_, rfl, rfl⟩)

/-- **C101, the claim is false.** With both alternatives given, a function for one content, a function for one instance, a
reference by name and a function win silently, even if given first. -/
theorem C101_negation :
    (∃ f g, (contentFnBuilder Nat).build [some (.withSingle (some f)), some (.withMulti (some g))] = .ok (.single f)) ∧
    (∃ f g, (queryFnBuilder Nat).build [some (.withSingle (some f)), some (.withMulti (some g))] = .ok (.single f)) ∧
    (∃ n q, (fetcherBuilder Nat).build [some (.withRecursive n), some (.withQuery (some q))] = .ok (.recursive n)) ∧
    (∃ f l, l ≠ [] ∧ (insideBuilder Nat).build [some (.withFn (some f)), some (.withFetchers (some l))] = .ok (.fn f)) :=
  ⟨⟨fun _ => .err, fun _ => .ok [], rfl⟩, ⟨fun _ => .err, fun _ => .ok (none, true), rfl⟩, ⟨"a", builtQuery, rfl⟩,
    ⟨.multi fun _ => .err, [.recursive "a"], by simp, rfl⟩⟩

/-! ## C102: what can be built -/

/-- **C102.** -/
theorem C102_built_iff_wellformed {W : Type} (q : Query W) : QueryBuilt q ↔ QueryWF q := ⟨QueryBuilt.wf, QueryWF.built⟩

example : QueryWF builtQuery := by
  refine .fetchers _ _ _ (by simp [TokenWF]) (by simp) (by simp) ?_
  intro q hq
  simp at hq
  subst hq
  exact .fn _ _ _ (by simp [TokenWF])

/-- **C102 (tokens).** -/
theorem C102_token_built_iff_wellformed (t : QToken) : TokenBuilt t ↔ TokenWF t := tokenBuilt_iff

example : TokenWF ⟨"t", "r", "a", 1, none⟩ := by simp [TokenWF]

end Rodkina.Props
