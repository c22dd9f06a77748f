import Verif.Query
import Verif.Builders
/-!
# Model of the query builders (libs/queries/domain/queries)

The conventions are those of `Verif.Builders`: a field per part, `WithX` overwrites it, `Create` clears all, `nil` is `none`.
-/

namespace Rodkina.Query
namespace Build

open Rodkina.Ast (TContent)
open Rodkina.Ast.Build (Builder listBuilder)

/-- An element of a query token: libs/queries/domain/queries/element.go:3-28. -/
structure QElement where
  name : String
  index : Nat

/-- Calls of libs/queries/domain/queries/element_builder.go:24-34. -/
inductive ElementCall where
  | withName (x : String)
  | withIndex (x : Nat)

/-- The fields of libs/queries/domain/queries/element_builder.go:5-47. -/
structure ElementFields where
  name : String := ""
  index : Option Nat := none

/-- libs/queries/domain/queries/element_builder.go:5-47, libs/queries/domain/queries/element.go:3-28. -/
def elementBuilder : Builder (ElementFields) (ElementCall) (QElement) where
  init := {}
  set := fun k s =>
    match k with
    | .withName x => { s with name := x }
    | .withIndex x => { s with index := some x }
  now := fun s =>
    if s.name = "" then .err
    else match s.index with
      | none => .err
      | some i => .ok ⟨s.name, i⟩

/-- Calls of libs/queries/domain/queries/token_builder.go:28-50. -/
inductive TokenCall where
  | withName (x : String)
  | withReverseName (x : String)
  | withElement (x : Option QElement)
  | withContent (x : Nat)

/-- The fields of libs/queries/domain/queries/token_builder.go:5-71. -/
structure TokenFields where
  name : String := ""
  reverseName : String := ""
  element : Option QElement := none
  content : Option Nat := none

/-- libs/queries/domain/queries/token_builder.go:5-71, libs/queries/domain/queries/token.go:3-66. -/
def tokenBuilder : Builder (TokenFields) (TokenCall) (QToken) where
  init := {}
  set := fun k s =>
    match k with
    | .withName x => { s with name := x }
    | .withReverseName x => { s with reverseName := x }
    | .withElement x => { s with element := x }
    | .withContent x => { s with content := some x }
  now := fun s =>
    if s.name = "" then .err
    else if s.reverseName = "" then .err
    else match s.element with
      | none => .err
      | some e =>
        match s.content with
        | some i => .ok ⟨s.name, s.reverseName, e.name, e.index, some i⟩
        | none => .ok ⟨s.name, s.reverseName, e.name, e.index, none⟩

/-- Calls of libs/queries/domain/queries/contentfn_builder.go:24-34. -/
inductive ContentFnCall (W : Type) where
  | withSingle (x : Option (TContent → Res (List (Any W))))
  | withMulti (x : Option (List TContent → Res (List (Any W))))

/-- The fields of libs/queries/domain/queries/contentfn_builder.go:5-47. -/
structure ContentFnFields (W : Type) where
  single : Option (TContent → Res (List (Any W))) := none
  multi : Option (List TContent → Res (List (Any W))) := none

/-- libs/queries/domain/queries/contentfn_builder.go:5-47, libs/queries/domain/queries/contentfn.go:3-50. -/
def contentFnBuilder (W : Type) : Builder (ContentFnFields W) (ContentFnCall W) (ContentFn W) where
  init := {}
  set := fun k s =>
    match k with
    | .withSingle x => { s with single := x }
    | .withMulti x => { s with multi := x }
  now := fun s =>
    match s.single with
    | some f => .ok (.single f)
    | none =>
      match s.multi with
      | some f => .ok (.multi f)
      | none => .err

/-- Calls of libs/queries/domain/queries/selectorfn_builder.go:24-34. -/
inductive QueryFnCall (W : Type) where
  | withSingle (x : Option (Any W → Res (Any W × Bool)))
  | withMulti (x : Option (List (Any W) → Res (Any W × Bool)))

/-- The fields of libs/queries/domain/queries/selectorfn_builder.go:5-47. -/
structure QueryFnFields (W : Type) where
  single : Option (Any W → Res (Any W × Bool)) := none
  multi : Option (List (Any W) → Res (Any W × Bool)) := none

/-- libs/queries/domain/queries/selectorfn_builder.go:5-47, libs/queries/domain/queries/selectorfn.go:3-50. -/
def queryFnBuilder (W : Type) : Builder (QueryFnFields W) (QueryFnCall W) (QueryFn W) where
  init := {}
  set := fun k s =>
    match k with
    | .withSingle x => { s with single := x }
    | .withMulti x => { s with multi := x }
  now := fun s =>
    match s.single with
    | some f => .ok (.single f)
    | none =>
      match s.multi with
      | some f => .ok (.multi f)
      | none => .err

/-- Calls of libs/queries/domain/queries/fetcher_builder.go:24-34. -/
inductive FetcherCall (W : Type) where
  | withRecursive (x : String)
  | withQuery (x : Option (Query W))

/-- The fields of libs/queries/domain/queries/fetcher_builder.go:5-47. -/
structure FetcherFields (W : Type) where
  recursive : String := ""
  query : Option (Query W) := none

/-- libs/queries/domain/queries/fetcher_builder.go:5-47, libs/queries/domain/queries/fetcher.go:3-50. -/
def fetcherBuilder (W : Type) : Builder (FetcherFields W) (FetcherCall W) (Fetcher W) where
  init := {}
  set := fun k s =>
    match k with
    | .withRecursive x => { s with recursive := x }
    | .withQuery x => { s with query := x }
  now := fun s =>
    if s.recursive = "" then
      match s.query with
      | some q => .ok (.query q)
      | none => .err
    else .ok (.recursive s.recursive)

/-- Calls of libs/queries/domain/queries/inside_builder.go:24-34. -/
inductive InsideCall (W : Type) where
  | withFn (x : Option (ContentFn W))
  | withFetchers (x : Option (List (Fetcher W)))

/-- The fields of libs/queries/domain/queries/inside_builder.go:5-47. -/
structure InsideFields (W : Type) where
  fn : Option (ContentFn W) := none
  fetchers : Option (List (Fetcher W)) := none

/-- libs/queries/domain/queries/inside_builder.go:5-47, libs/queries/domain/queries/inside.go:3-50.  The fetchers are the list they hold. -/
def insideBuilder (W : Type) : Builder (InsideFields W) (InsideCall W) (Inside W) where
  init := {}
  set := fun k s =>
    match k with
    | .withFn x => { s with fn := x }
    | .withFetchers x => { s with fetchers := x }
  now := fun s =>
    match s.fn with
    | some f => .ok (.fn f)
    | none =>
      match s.fetchers with
      | some l => .ok (.fetchers l)
      | none => .err

/-- Calls of libs/queries/domain/queries/builder.go:28-44. -/
inductive QueryCall (W : Type) where
  | withToken (x : Option QToken)
  | withInside (x : Option (Inside W))
  | withFn (x : Option (QueryFn W))

/-- The fields of libs/queries/domain/queries/builder.go:7-61. -/
structure QueryFields (W : Type) where
  token : Option QToken := none
  inside : Option (Inside W) := none
  fn : Option (QueryFn W) := none

/-- libs/queries/domain/queries/builder.go:7-61, libs/queries/domain/queries/selector.go:3-36. -/
def queryBuilder (W : Type) : Builder (QueryFields W) (QueryCall W) (Query W) where
  init := {}
  set := fun k s =>
    match k with
    | .withToken x => { s with token := x }
    | .withInside x => { s with inside := x }
    | .withFn x => { s with fn := x }
  now := fun s =>
    match s.token with
    | none => .err
    | some t =>
      match s.inside with
      | none => .err
      | some i =>
        match s.fn with
        | none => .err
        | some f => .ok (.mk t i f)

/-- libs/queries/domain/queries/fetchers_builder.go:5-39, libs/queries/domain/queries/fetchers.go:3-20. -/
def fetchersBuilder (W : Type) : Builder (Option (List (Fetcher W))) (Option (List (Fetcher W))) (List (Fetcher W)) :=
  listBuilder (Fetcher W)

end Build
end Rodkina.Query
