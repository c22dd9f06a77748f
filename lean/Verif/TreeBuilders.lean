import Verif.Coverage
import Verif.Builders
/-!
# Model of the builders of trees and of coverages (libs/asts/domain/trees, libs/asts/domain/grammars/coverages)

The conventions are those of `Verif.Builders`: a field per part, `WithX` overwrites it, `Create` clears all, `nil` is `none`.  A
list object is its list; in an optional place (suffix, prefix, elements) the empty list stands for `nil`, since the builders of
lists refuse it.
-/

namespace Rodkina.Ast
namespace TreeBuild

open Build (Builder listBuilder)

/-- A byte with the channel trees before it: libs/asts/domain/trees/value.go:3-46. -/
structure TVal where
  prefix_ : List Tree
  byte : UInt8

/-- Calls of libs/asts/domain/trees/value_builder.go:26-36. -/
inductive ValueCall where
  | withContent (x : UInt8)
  | withPrefix (x : Option (List Tree))

/-- The fields of libs/asts/domain/trees/value_builder.go:7-49. -/
structure ValueFields where
  content : Option UInt8 := none
  prefix_ : Option (List Tree) := none

/-- libs/asts/domain/trees/value_builder.go:7-49, libs/asts/domain/trees/value.go:3-46. -/
def valueBuilder : Builder (ValueFields) (ValueCall) (TVal) where
  init := {}
  set := fun k s =>
    match k with
    | .withContent x => { s with content := some x }
    | .withPrefix x => { s with prefix_ := x }
  now := fun s =>
    match s.content with
    | none => .err
    | some b =>
      match s.prefix_ with
      | some l => .ok ⟨l, b⟩
      | none => .ok ⟨[], b⟩

/-- Calls of libs/asts/domain/trees/content_builder.go:26-36. -/
inductive ContentCall where
  | withValue (x : Option TVal)
  | withTree (x : Option Tree)

/-- The fields of libs/asts/domain/trees/content_builder.go:7-49. -/
structure ContentFields where
  value : Option TVal := none
  tree : Option Tree := none

/-- libs/asts/domain/trees/content_builder.go:7-49, libs/asts/domain/trees/content.go:3-61. -/
def contentBuilder : Builder (ContentFields) (ContentCall) (TContent) where
  init := {}
  set := fun k s =>
    match k with
    | .withValue x => { s with value := x }
    | .withTree x => { s with tree := x }
  now := fun s =>
    match s.value with
    | some v => .ok (.value v.prefix_ v.byte)
    | none =>
      match s.tree with
      | some t => .ok (.tree t)
      | none => .err

/-- Calls of libs/asts/domain/trees/element_builder.go:28-38. -/
inductive ElementCall where
  | withGrammar (x : Option Container)
  | withContents (x : Option (List TContent))

/-- The fields of libs/asts/domain/trees/element_builder.go:9-51. -/
structure ElementFields where
  grammar : Option Container := none
  contents : Option (List TContent) := none

/-- libs/asts/domain/trees/element_builder.go:9-51, libs/asts/domain/trees/element.go:10-38. -/
def elementBuilder : Builder (ElementFields) (ElementCall) (TElement) where
  init := {}
  set := fun k s =>
    match k with
    | .withGrammar x => { s with grammar := x }
    | .withContents x => { s with contents := x }
  now := fun s =>
    match s.contents with
    | none => .err
    | some l =>
      match s.grammar with
      | some g => .ok (.mk (some g) l)
      | none => .ok (.mk none l)

/-- Calls of libs/asts/domain/trees/line_builder.go:32-54. -/
inductive LineCall where
  | withIndex (x : Nat)
  | withGrammar (x : Option GLine)
  | isReverse
  | withElements (x : Option (List TElement))

/-- The fields of libs/asts/domain/trees/line_builder.go:9-71. -/
structure LineFields where
  index : Option Nat := none
  grammar : Option GLine := none
  isReverse : Bool := false
  elements : Option (List TElement) := none

/-- libs/asts/domain/trees/line_builder.go:9-71, libs/asts/domain/trees/line.go:7-45. -/
def lineBuilder : Builder (LineFields) (LineCall) (TLine) where
  init := {}
  set := fun k s =>
    match k with
    | .withIndex x => { s with index := some x }
    | .withGrammar x => { s with grammar := x }
    | .isReverse => { s with isReverse := true }
    | .withElements x => { s with elements := x }
  now := fun s =>
    match s.index with
    | none => .err
    | some i =>
      match s.grammar with
      | none => .err
      | some g =>
        match s.elements with
        | some l => .ok (.mk i g s.isReverse l)
        | none => .ok (.mk i g s.isReverse [])

/-- Calls of libs/asts/domain/trees/tree_builder.go:32-54. -/
inductive TreeCall where
  | withGrammar (x : Option Token)
  | withBlock (x : Option Block)
  | withSuffix (x : Option (List Tree))
  | withRemaining (x : Option Bytes)

/-- The fields of libs/asts/domain/trees/tree_builder.go:9-83. -/
structure TreeFields where
  grammar : Option Token := none
  block : Option Block := none
  suffix : Option (List Tree) := none
  remaining : Option Bytes := none

/-- libs/asts/domain/trees/tree_builder.go:9-83, libs/asts/domain/trees/tree.go:10-63. -/
def treeBuilder : Builder (TreeFields) (TreeCall) (Tree) where
  init := {}
  set := fun k s =>
    match k with
    | .withGrammar x => { s with grammar := x }
    | .withBlock x => { s with block := x }
    | .withSuffix x => { s with suffix := x }
    | .withRemaining x => { s with remaining := x }
  now := fun s =>
    match s.grammar with
    | none => .err
    | some g =>
      match s.block with
      | none => .err
      | some b =>
        match s.remaining, s.suffix with
        | some (r :: rs), some l => .ok (.mk g b l (r :: rs))
        | some (r :: rs), none => .ok (.mk g b [] (r :: rs))
        | _, some l => .ok (.mk g b l [])
        | _, none => .ok (.mk g b [] [])

/-- Calls of libs/asts/domain/grammars/coverages/result_builder.go:28-38. -/
inductive ResultCall where
  | withTree (x : Option Tree)
  | withError (x : String)

/-- The fields of libs/asts/domain/grammars/coverages/result_builder.go:9-51. -/
structure ResultFields where
  tree : Option Tree := none
  error : String := ""

/-- libs/asts/domain/grammars/coverages/result_builder.go:9-51, libs/asts/domain/grammars/coverages/result.go:5-52.  The text of an error is dropped (`none`). -/
def resultBuilder : Builder (ResultFields) (ResultCall) (Option Tree) where
  init := {}
  set := fun k s =>
    match k with
    | .withTree x => { s with tree := x }
    | .withError x => { s with error := x }
  now := fun s =>
    match s.tree with
    | some t => .ok (some t)
    | none => if s.error = "" then .err else .ok none

/-- Calls of libs/asts/domain/grammars/coverages/execution_builder.go:28-38. -/
inductive ExecutionCall where
  | withExpectation (x : Option Suite)
  | withResult (x : Option (Option Tree))

/-- The fields of libs/asts/domain/grammars/coverages/execution_builder.go:9-51. -/
structure ExecutionFields where
  expectation : Option Suite := none
  result : Option (Option Tree) := none

/-- libs/asts/domain/grammars/coverages/execution_builder.go:9-51, libs/asts/domain/grammars/coverages/execution.go:7-32. -/
def executionBuilder : Builder (ExecutionFields) (ExecutionCall) (Execution) where
  init := {}
  set := fun k s =>
    match k with
    | .withExpectation x => { s with expectation := x }
    | .withResult x => { s with result := x }
  now := fun s =>
    match s.expectation with
    | none => .err
    | some x =>
      match s.result with
      | none => .err
      | some r => .ok ⟨x, r⟩

/-- Calls of libs/asts/domain/grammars/coverages/coverage_builder.go:28-38. -/
inductive CoverageCall where
  | withToken (x : Option Token)
  | withExecutions (x : Option (List Execution))

/-- The fields of libs/asts/domain/grammars/coverages/coverage_builder.go:9-51. -/
structure CoverageFields where
  token : Option Token := none
  executions : Option (List Execution) := none

/-- libs/asts/domain/grammars/coverages/coverage_builder.go:9-51, libs/asts/domain/grammars/coverages/coverage.go:5-30. -/
def coverageBuilder : Builder (CoverageFields) (CoverageCall) (Coverage) where
  init := {}
  set := fun k s =>
    match k with
    | .withToken x => { s with token := x }
    | .withExecutions x => { s with executions := x }
  now := fun s =>
    match s.token with
    | none => .err
    | some t =>
      match s.executions with
      | none => .err
      | some l => .ok ⟨t, l⟩

/-- libs/asts/domain/trees/block_builder.go:5-51: the first successful line is kept. -/
def blockBuilder : Builder (Option (List TLine)) (Option (List TLine)) Block where
  init := none
  set := fun l _ => l
  now := fun l =>
    match l with
    | none => .err
    | some [] => .err
    | some l => .ok (mkBlock l)

/-- libs/asts/domain/trees/contents_builder.go:5-39, libs/asts/domain/trees/contents.go:3-20. -/
def contentsBuilder : Builder (Option (List TContent)) (Option (List TContent)) (List TContent) := listBuilder TContent

/-- libs/asts/domain/trees/elements_builder.go:5-49.  The map it fills is the lookup `fetchElement`. -/
def elementsBuilder : Builder (Option (List TElement)) (Option (List TElement)) (List TElement) := listBuilder TElement

/-- libs/asts/domain/trees/builder.go:5-39, libs/asts/domain/trees/trees.go:3-30. -/
def treesBuilder : Builder (Option (List Tree)) (Option (List Tree)) (List Tree) := listBuilder Tree

/-- libs/asts/domain/grammars/coverages/executions_builder.go:5-39. -/
def executionsBuilder : Builder (Option (List Execution)) (Option (List Execution)) (List Execution) := listBuilder Execution

/-- libs/asts/domain/grammars/coverages/builder.go:5-39. -/
def coveragesBuilder : Builder (Option (List Coverage)) (Option (List Coverage)) (List Coverage) := listBuilder Coverage

end TreeBuild
end Rodkina.Ast
