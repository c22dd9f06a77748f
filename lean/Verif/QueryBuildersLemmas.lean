import Verif.QueryBuildersSpec
import Verif.BuildersLemmas
/-! Lemmas about the query builders. -/

namespace Rodkina.Query
namespace BuildSpec

open Build
open Rodkina.Ast (TContent)
open Rodkina.Ast.Build (Builder listBuilder)
open Rodkina.Ast.BuildSpec

theorem element_build (calls : List (Option (ElementCall))) (e : QElement) :
    elementBuilder.build calls = .ok e ↔
      e.name ≠ "" ∧ e.name = givenName ElementCall.name? calls ∧ some e.index = givenPart ElementCall.index? calls := by
  have h0 : (elementBuilder.run calls).name = (given ElementCall.name? calls).getD "" :=
    field elementBuilder (·.name) ElementCall.name? (by intro k s; cases k <;> rfl) calls
  have h1 := field_part elementBuilder (·.index) ElementCall.index? (by intro k s; cases k <;> rfl) rfl calls
  unfold Builder.build givenName
  rw [← h0, ← h1]
  obtain ⟨n, i⟩ := elementBuilder.run calls
  obtain ⟨en, ei⟩ := e
  by_cases h_n : n = "" <;> cases i <;> simp [elementBuilder] <;> grind

theorem token_build (calls : List (Option (TokenCall))) (t : QToken) :
    tokenBuilder.build calls = .ok t ↔
      t.name ≠ "" ∧ t.name = givenName TokenCall.name? calls ∧
        t.reverseName ≠ "" ∧ t.reverseName = givenName TokenCall.reverseName? calls ∧
        some ⟨t.elementName, t.index⟩ = givenPart TokenCall.element? calls ∧ t.content = givenPart TokenCall.content? calls := by
  have h0 : (tokenBuilder.run calls).name = (given TokenCall.name? calls).getD "" :=
    field tokenBuilder (·.name) TokenCall.name? (by intro k s; cases k <;> rfl) calls
  have h1 : (tokenBuilder.run calls).reverseName = (given TokenCall.reverseName? calls).getD "" :=
    field tokenBuilder (·.reverseName) TokenCall.reverseName? (by intro k s; cases k <;> rfl) calls
  have h2 := field_part tokenBuilder (·.element) TokenCall.element? (by intro k s; cases k <;> rfl) rfl calls
  have h3 := field_part tokenBuilder (·.content) TokenCall.content? (by intro k s; cases k <;> rfl) rfl calls
  unfold Builder.build givenName
  rw [← h0, ← h1, ← h2, ← h3]
  obtain ⟨n, r, e, c⟩ := tokenBuilder.run calls
  obtain ⟨tn, tr, te, ti, tc⟩ := t
  by_cases h_n : n = "" <;> by_cases h_r : r = "" <;> rcases e with _ | ⟨x, y⟩ <;> cases c <;> simp [tokenBuilder] <;> grind

theorem contentFn_build {W : Type} (calls : List (Option (ContentFnCall W))) (f : ContentFn W) :
    (contentFnBuilder W).build calls = .ok f ↔
      (∃ g, f = .single g ∧ givenPart ContentFnCall.single? calls = some g) ∨
        (∃ g, f = .multi g ∧ givenPart ContentFnCall.single? calls = none ∧ givenPart ContentFnCall.multi? calls = some g) := by
  have h0 := field_part (contentFnBuilder W) (·.single) ContentFnCall.single? (by intro k s; cases k <;> rfl) rfl calls
  have h1 := field_part (contentFnBuilder W) (·.multi) ContentFnCall.multi? (by intro k s; cases k <;> rfl) rfl calls
  unfold Builder.build
  rw [← h0, ← h1]
  obtain ⟨a, b⟩ := (contentFnBuilder W).run calls
  cases a <;> cases b <;> simp [contentFnBuilder] <;> grind

theorem queryFn_build {W : Type} (calls : List (Option (QueryFnCall W))) (f : QueryFn W) :
    (queryFnBuilder W).build calls = .ok f ↔
      (∃ g, f = .single g ∧ givenPart QueryFnCall.single? calls = some g) ∨
        (∃ g, f = .multi g ∧ givenPart QueryFnCall.single? calls = none ∧ givenPart QueryFnCall.multi? calls = some g) := by
  have h0 := field_part (queryFnBuilder W) (·.single) QueryFnCall.single? (by intro k s; cases k <;> rfl) rfl calls
  have h1 := field_part (queryFnBuilder W) (·.multi) QueryFnCall.multi? (by intro k s; cases k <;> rfl) rfl calls
  unfold Builder.build
  rw [← h0, ← h1]
  obtain ⟨a, b⟩ := (queryFnBuilder W).run calls
  cases a <;> cases b <;> simp [queryFnBuilder] <;> grind

theorem fetcher_build {W : Type} (calls : List (Option (FetcherCall W))) (f : Fetcher W) :
    (fetcherBuilder W).build calls = .ok f ↔
      (∃ n, f = .recursive n ∧ n ≠ "" ∧ n = givenName FetcherCall.recursive? calls) ∨
        (∃ q, f = .query q ∧ givenName FetcherCall.recursive? calls = "" ∧ givenPart FetcherCall.query? calls = some q) := by
  have h0 : ((fetcherBuilder W).run calls).recursive = (given FetcherCall.recursive? calls).getD "" :=
    field (fetcherBuilder W) (·.recursive) FetcherCall.recursive? (by intro k s; cases k <;> rfl) calls
  have h1 := field_part (fetcherBuilder W) (·.query) FetcherCall.query? (by intro k s; cases k <;> rfl) rfl calls
  unfold Builder.build givenName
  rw [← h0, ← h1]
  obtain ⟨n, q⟩ := (fetcherBuilder W).run calls
  by_cases h_n : n = "" <;> cases q <;> simp [fetcherBuilder] <;> grind

theorem inside_build {W : Type} (calls : List (Option (InsideCall W))) (i : Inside W) :
    (insideBuilder W).build calls = .ok i ↔
      (∃ f, i = .fn f ∧ givenPart InsideCall.fn? calls = some f) ∨
        (∃ l, i = .fetchers l ∧ givenPart InsideCall.fn? calls = none ∧ givenPart InsideCall.fetchers? calls = some l) := by
  have h0 := field_part (insideBuilder W) (·.fn) InsideCall.fn? (by intro k s; cases k <;> rfl) rfl calls
  have h1 := field_part (insideBuilder W) (·.fetchers) InsideCall.fetchers? (by intro k s; cases k <;> rfl) rfl calls
  unfold Builder.build
  rw [← h0, ← h1]
  obtain ⟨f, l⟩ := (insideBuilder W).run calls
  cases f <;> cases l <;> simp [insideBuilder] <;> grind

theorem query_build {W : Type} (calls : List (Option (QueryCall W))) (q : Query W) :
    (queryBuilder W).build calls = .ok q ↔
      some q.token = givenPart QueryCall.token? calls ∧ some q.inside = givenPart QueryCall.inside? calls ∧
        some q.fn = givenPart QueryCall.fn? calls := by
  have h0 := field_part (queryBuilder W) (·.token) QueryCall.token? (by intro k s; cases k <;> rfl) rfl calls
  have h1 := field_part (queryBuilder W) (·.inside) QueryCall.inside? (by intro k s; cases k <;> rfl) rfl calls
  have h2 := field_part (queryBuilder W) (·.fn) QueryCall.fn? (by intro k s; cases k <;> rfl) rfl calls
  unfold Builder.build
  rw [← h0, ← h1, ← h2]
  obtain ⟨t, i, f⟩ := (queryBuilder W).run calls
  obtain ⟨qt, qi, qf⟩ := q
  simp only [Query.token, Query.inside, Query.fn]
  cases t <;> cases i <;> cases f <;> simp [queryBuilder] <;> grind

/-! ### Built is well-formed -/

theorem elementBuilt_iff {e : QElement} : (∃ calls, elementBuilder.build calls = .ok e) ↔ e.name ≠ "" := by
  constructor
  · rintro ⟨calls, h⟩; exact ((element_build _ _).mp h).1
  · intro h
    exact ⟨[some (.withName e.name), some (.withIndex e.index)], (element_build _ _).mpr ⟨h, rfl, rfl⟩⟩

theorem tokenBuilt_iff {t : QToken} : TokenBuilt t ↔ TokenWF t := by
  constructor
  · rintro ⟨calls, h, he⟩
    obtain ⟨h1, _, h2, _, h3, _⟩ := (token_build _ _).mp h
    obtain ⟨k, hk, hp⟩ := givenPart_mem _ _ _ h3.symm
    refine ⟨h1, h2, ?_⟩
    cases k with
    | withElement x =>
      cases hp
      exact elementBuilt_iff.mp (he _ hk)
    | _ => cases hp
  · rintro ⟨h1, h2, h3⟩
    refine ⟨[some (.withName t.name), some (.withReverseName t.reverseName), some (.withElement (some ⟨t.elementName, t.index⟩))] ++
      (match t.content with | some i => [some (.withContent i)] | none => []), ?_, ?_⟩
    · rw [token_build]
      obtain ⟨tn, tr, te, ti, tc⟩ := t
      cases tc <;> exact ⟨h1, rfl, h2, rfl, rfl, rfl⟩
    · intro e he
      obtain ⟨tn, tr, te, ti, tc⟩ := t
      cases tc <;> simp at he <;> subst he <;> exact elementBuilt_iff.mpr h3

theorem contentFnBuilt {W : Type} (f : ContentFn W) : ∃ calls, (contentFnBuilder W).build calls = .ok f := by
  cases f with
  | single g => exact ⟨[some (.withSingle (some g))], (contentFn_build _ _).mpr (.inl ⟨g, rfl, rfl⟩)⟩
  | multi g => exact ⟨[some (.withMulti (some g))], (contentFn_build _ _).mpr (.inr ⟨g, rfl, rfl, rfl⟩)⟩

theorem queryFnBuilt {W : Type} (f : QueryFn W) : ∃ calls, (queryFnBuilder W).build calls = .ok f := by
  cases f with
  | single g => exact ⟨[some (.withSingle (some g))], (queryFn_build _ _).mpr (.inl ⟨g, rfl, rfl⟩)⟩
  | multi g => exact ⟨[some (.withMulti (some g))], (queryFn_build _ _).mpr (.inr ⟨g, rfl, rfl, rfl⟩)⟩

/-- A well-formed inside. -/
def InsideWF {W : Type} : Inside W → Prop
  | .fn _ => True
  | .fetchers fs => fs ≠ [] ∧ (∀ n, .recursive n ∈ fs → n ≠ "") ∧ (∀ q, .query q ∈ fs → QueryWF q)

/-- A well-formed fetcher. -/
def FetcherWF {W : Type} : Fetcher W → Prop
  | .recursive n => n ≠ ""
  | .query q => QueryWF q

theorem queryWF_iff {W : Type} {t : QToken} {i : Inside W} {f : QueryFn W} : QueryWF (.mk t i f) ↔ TokenWF t ∧ InsideWF i := by
  constructor
  · intro h
    cases h with
    | fn _ _ _ h => exact ⟨h, trivial⟩
    | fetchers _ _ _ h h1 h2 h3 => exact ⟨h, h1, h2, h3⟩
  · rintro ⟨h, hi⟩
    cases i with
    | fn g => exact .fn _ _ _ h
    | fetchers fs => exact .fetchers _ _ _ h hi.1 hi.2.1 hi.2.2

mutual
theorem QueryBuilt.wf {W : Type} {q : Query W} : QueryBuilt q → QueryWF q
  | .mk q calls h ht hi _ => by
    obtain ⟨h1, h2, _⟩ := (query_build _ _).mp h
    have hi' : InsideWF q.inside := by
      obtain ⟨k, hk, hp⟩ := givenPart_mem _ _ _ h2.symm
      cases k with
      | withInside x =>
        injection hp with hp
        exact InsideBuilt.wf (hi _ (hp ▸ hk))
      | _ => cases hp
    have ht' : TokenWF q.token := by
      obtain ⟨k, hk, hp⟩ := givenPart_mem _ _ _ h1.symm
      cases k with
      | withToken x =>
        injection hp with hp
        exact tokenBuilt_iff.mp (ht _ (hp ▸ hk))
      | _ => cases hp
    obtain ⟨t, i, f⟩ := q
    exact queryWF_iff.mpr ⟨ht', hi'⟩

theorem InsideBuilt.wf {W : Type} {i : Inside W} : InsideBuilt i → InsideWF i
  | .mk i calls h _ hl hf => by
    rcases (inside_build _ _).mp h with ⟨f, rfl, _⟩ | ⟨l, rfl, _, h2⟩
    · trivial
    · obtain ⟨k, hk, hp⟩ := givenPart_mem _ _ _ h2
      cases k with
      | withFetchers x =>
        injection hp with hp
        subst hp
        have hall : ∀ f ∈ l, FetcherWF f := fun f hm => FetcherBuilt.wf (hf _ hk f hm)
        exact ⟨listBuilt_iff.mp (hl _ hk), fun n hn => hall _ hn, fun q hq => hall _ hq⟩
      | _ => cases hp

theorem FetcherBuilt.wf {W : Type} {f : Fetcher W} : FetcherBuilt f → FetcherWF f
  | .mk f calls h hq => by
    rcases (fetcher_build _ _).mp h with ⟨n, rfl, h1, _⟩ | ⟨q, rfl, _, h2⟩
    · exact h1
    · obtain ⟨k, hk, hp⟩ := givenPart_mem _ _ _ h2
      cases k with
      | withQuery x =>
        injection hp with hp
        exact QueryBuilt.wf (hq _ (hp ▸ hk))
      | _ => cases hp
end

theorem queryBuilt_of {W : Type} {t : QToken} {i : Inside W} {f : QueryFn W} (ht : TokenWF t) (hi : InsideBuilt i) :
    QueryBuilt (.mk t i f) := by
  refine .mk _ [some (.withToken (some t)), some (.withInside (some i)), some (.withFn (some f))] ?_ ?_ ?_ ?_
  · exact (query_build _ _).mpr ⟨rfl, rfl, rfl⟩
  · intro t' h; simp at h; subst h; exact tokenBuilt_iff.mpr ht
  · intro i' h; simp at h; subst h; exact hi
  · intro f' _; exact queryFnBuilt f'

theorem QueryWF.built {W : Type} {q : Query W} (h : QueryWF q) : QueryBuilt q := by
  induction h with
  | fn t f g ht =>
    refine queryBuilt_of ht (.mk _ [some (.withFn (some f))] ?_ ?_ ?_ ?_)
    · exact (inside_build _ _).mpr (.inl ⟨f, rfl, rfl⟩)
    · intro f' _; exact contentFnBuilt f'
    · intro l h; simp at h
    · intro l h; simp at h
  | fetchers t fs g ht hne hr _ ih =>
    refine queryBuilt_of ht (.mk _ [some (.withFetchers (some fs))] ?_ ?_ ?_ ?_)
    · exact (inside_build _ _).mpr (.inr ⟨fs, rfl, rfl, rfl⟩)
    · intro f' h; simp at h
    · intro l h; simp at h; subst h; exact listBuilt_iff.mpr hne
    · intro l h
      simp at h
      subst h
      intro f hf
      cases f with
      | recursive n =>
        refine .mk _ [some (.withRecursive n)] ?_ ?_
        · exact (fetcher_build _ _).mpr (.inl ⟨n, rfl, hr n hf, rfl⟩)
        · intro q h; simp at h
      | query q =>
        refine .mk _ [some (.withQuery (some q))] ?_ ?_
        · exact (fetcher_build _ _).mpr (.inr ⟨q, rfl, rfl, rfl⟩)
        · intro q' h; simp at h; exact h ▸ ih q hf

end BuildSpec
end Rodkina.Query
