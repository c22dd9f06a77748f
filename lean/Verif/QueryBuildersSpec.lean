import Verif.QueryBuilders
import Verif.BuildersSpec
import Verif.QuerySpec
/-!
# Specification of the query builders

What each call gives, well-formed queries and the queries that can be built.
-/

namespace Rodkina.Query
namespace BuildSpec

open Build
open Rodkina.Ast (TContent)
open Rodkina.Ast.BuildSpec

/-! ### What a call gives for each part -/

/-- The name a call gives. -/
def _root_.Rodkina.Query.Build.ElementCall.name? : ElementCall → Option String
  | .withName x => some x
  | _ => none

/-- The index a call gives. -/
def _root_.Rodkina.Query.Build.ElementCall.index? : ElementCall → Option (Option Nat)
  | .withIndex x => some (some x)
  | _ => none

/-- The name a call gives. -/
def _root_.Rodkina.Query.Build.TokenCall.name? : TokenCall → Option String
  | .withName x => some x
  | _ => none

/-- The reverseName a call gives. -/
def _root_.Rodkina.Query.Build.TokenCall.reverseName? : TokenCall → Option String
  | .withReverseName x => some x
  | _ => none

/-- The element a call gives. -/
def _root_.Rodkina.Query.Build.TokenCall.element? : TokenCall → Option (Option QElement)
  | .withElement x => some x
  | _ => none

/-- The content a call gives. -/
def _root_.Rodkina.Query.Build.TokenCall.content? : TokenCall → Option (Option Nat)
  | .withContent x => some (some x)
  | _ => none

/-- The single a call gives. -/
def _root_.Rodkina.Query.Build.ContentFnCall.single? {W : Type} : ContentFnCall W → Option (Option (TContent → Res (List (Any W))))
  | .withSingle x => some x
  | _ => none

/-- The multi a call gives. -/
def _root_.Rodkina.Query.Build.ContentFnCall.multi? {W : Type} : ContentFnCall W → Option (Option (List TContent → Res (List (Any W))))
  | .withMulti x => some x
  | _ => none

/-- The single a call gives. -/
def _root_.Rodkina.Query.Build.QueryFnCall.single? {W : Type} : QueryFnCall W → Option (Option (Any W → Res (Any W × Bool)))
  | .withSingle x => some x
  | _ => none

/-- The multi a call gives. -/
def _root_.Rodkina.Query.Build.QueryFnCall.multi? {W : Type} : QueryFnCall W → Option (Option (List (Any W) → Res (Any W × Bool)))
  | .withMulti x => some x
  | _ => none

/-- The recursive a call gives. -/
def _root_.Rodkina.Query.Build.FetcherCall.recursive? {W : Type} : FetcherCall W → Option String
  | .withRecursive x => some x
  | _ => none

/-- The query a call gives. -/
def _root_.Rodkina.Query.Build.FetcherCall.query? {W : Type} : FetcherCall W → Option (Option (Query W))
  | .withQuery x => some x
  | _ => none

/-- The fn a call gives. -/
def _root_.Rodkina.Query.Build.InsideCall.fn? {W : Type} : InsideCall W → Option (Option (ContentFn W))
  | .withFn x => some x
  | _ => none

/-- The fetchers a call gives. -/
def _root_.Rodkina.Query.Build.InsideCall.fetchers? {W : Type} : InsideCall W → Option (Option (List (Fetcher W)))
  | .withFetchers x => some x
  | _ => none

/-- The token a call gives. -/
def _root_.Rodkina.Query.Build.QueryCall.token? {W : Type} : QueryCall W → Option (Option QToken)
  | .withToken x => some x
  | _ => none

/-- The inside a call gives. -/
def _root_.Rodkina.Query.Build.QueryCall.inside? {W : Type} : QueryCall W → Option (Option (Inside W))
  | .withInside x => some x
  | _ => none

/-- The fn a call gives. -/
def _root_.Rodkina.Query.Build.QueryCall.fn? {W : Type} : QueryCall W → Option (Option (QueryFn W))
  | .withFn x => some x
  | _ => none

/-! ### Well-formed queries -/

/-- The token of a query has three names, none empty. -/
def TokenWF (t : QToken) : Prop := t.name ≠ "" ∧ t.reverseName ≠ "" ∧ t.elementName ≠ ""

/-- At any depth: the token has its names, fetchers are at least one, a reference has a name.  Nothing is said about the
functions, nor whether a reference names an enclosing query. -/
inductive QueryWF {W : Type} : Query W → Prop
  | fn (t : QToken) (f : ContentFn W) (g : QueryFn W) : TokenWF t → QueryWF (.mk t (.fn f) g)
  | fetchers (t : QToken) (fs : List (Fetcher W)) (g : QueryFn W) : TokenWF t → fs ≠ [] →
      (∀ n, .recursive n ∈ fs → n ≠ "") → (∀ q, .query q ∈ fs → QueryWF q) → QueryWF (.mk t (.fetchers fs) g)

/-! ### Queries that can be built

Every part given to a builder was itself obtained from a builder. -/

/-- Tokens that can be built. -/
def TokenBuilt (t : QToken) : Prop :=
  ∃ calls, tokenBuilder.build calls = .ok t ∧
    ∀ e, some (.withElement (some e)) ∈ calls → ∃ calls', elementBuilder.build calls' = .ok e

mutual
/-- Queries that can be built. -/
inductive QueryBuilt {W : Type} : Query W → Prop
  | mk (q : Query W) (calls : List (Option (QueryCall W))) : (queryBuilder W).build calls = .ok q →
      (∀ t, some (.withToken (some t)) ∈ calls → TokenBuilt t) →
      (∀ i, some (.withInside (some i)) ∈ calls → InsideBuilt i) →
      (∀ f, some (.withFn (some f)) ∈ calls → ∃ calls', (queryFnBuilder W).build calls' = .ok f) → QueryBuilt q

/-- Insides that can be built. -/
inductive InsideBuilt {W : Type} : Inside W → Prop
  | mk (i : Inside W) (calls : List (Option (InsideCall W))) : (insideBuilder W).build calls = .ok i →
      (∀ f, some (.withFn (some f)) ∈ calls → ∃ calls', (contentFnBuilder W).build calls' = .ok f) →
      (∀ l, some (.withFetchers (some l)) ∈ calls → ∃ calls', (fetchersBuilder W).build calls' = .ok l) →
      (∀ l, some (.withFetchers (some l)) ∈ calls → ∀ f ∈ l, FetcherBuilt f) → InsideBuilt i

/-- Fetchers that can be built. -/
inductive FetcherBuilt {W : Type} : Fetcher W → Prop
  | mk (f : Fetcher W) (calls : List (Option (FetcherCall W))) : (fetcherBuilder W).build calls = .ok f →
      (∀ q, some (.withQuery (some q)) ∈ calls → QueryBuilt q) → FetcherBuilt f
end

end BuildSpec
end Rodkina.Query
