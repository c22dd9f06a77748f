import Verif.TreeBuilders
import Verif.BuildersSpec
/-!
# Specification of the builders of trees and of coverages

What each call gives, well-formed trees and coverages, and those that can be built.
-/

namespace Rodkina.Ast
namespace TreeBuildSpec

open TreeBuild
open BuildSpec

/-! ### What a call gives for each part -/

/-- The content a call gives. -/
def _root_.Rodkina.Ast.TreeBuild.ValueCall.content? : ValueCall → Option (Option UInt8)
  | .withContent x => some (some x)
  | _ => none

/-- The prefix_ a call gives. -/
def _root_.Rodkina.Ast.TreeBuild.ValueCall.prefix_? : ValueCall → Option (Option (List Tree))
  | .withPrefix x => some x
  | _ => none

/-- The value a call gives. -/
def _root_.Rodkina.Ast.TreeBuild.ContentCall.value? : ContentCall → Option (Option TVal)
  | .withValue x => some x
  | _ => none

/-- The tree a call gives. -/
def _root_.Rodkina.Ast.TreeBuild.ContentCall.tree? : ContentCall → Option (Option Tree)
  | .withTree x => some x
  | _ => none

/-- The grammar a call gives. -/
def _root_.Rodkina.Ast.TreeBuild.ElementCall.grammar? : ElementCall → Option (Option Container)
  | .withGrammar x => some x
  | _ => none

/-- The contents a call gives. -/
def _root_.Rodkina.Ast.TreeBuild.ElementCall.contents? : ElementCall → Option (Option (List TContent))
  | .withContents x => some x
  | _ => none

/-- The index a call gives. -/
def _root_.Rodkina.Ast.TreeBuild.LineCall.index? : LineCall → Option (Option Nat)
  | .withIndex x => some (some x)
  | _ => none

/-- The grammar a call gives. -/
def _root_.Rodkina.Ast.TreeBuild.LineCall.grammar? : LineCall → Option (Option GLine)
  | .withGrammar x => some x
  | _ => none

/-- The isReverse a call gives. -/
def _root_.Rodkina.Ast.TreeBuild.LineCall.isReverse? : LineCall → Option Bool
  | .isReverse => some true
  | _ => none

/-- The elements a call gives. -/
def _root_.Rodkina.Ast.TreeBuild.LineCall.elements? : LineCall → Option (Option (List TElement))
  | .withElements x => some x
  | _ => none

/-- The grammar a call gives. -/
def _root_.Rodkina.Ast.TreeBuild.TreeCall.grammar? : TreeCall → Option (Option Token)
  | .withGrammar x => some x
  | _ => none

/-- The block a call gives. -/
def _root_.Rodkina.Ast.TreeBuild.TreeCall.block? : TreeCall → Option (Option Block)
  | .withBlock x => some x
  | _ => none

/-- The suffix a call gives. -/
def _root_.Rodkina.Ast.TreeBuild.TreeCall.suffix? : TreeCall → Option (Option (List Tree))
  | .withSuffix x => some x
  | _ => none

/-- The remaining a call gives. -/
def _root_.Rodkina.Ast.TreeBuild.TreeCall.remaining? : TreeCall → Option (Option Bytes)
  | .withRemaining x => some x
  | _ => none

/-- The tree a call gives. -/
def _root_.Rodkina.Ast.TreeBuild.ResultCall.tree? : ResultCall → Option (Option Tree)
  | .withTree x => some x
  | _ => none

/-- The error a call gives. -/
def _root_.Rodkina.Ast.TreeBuild.ResultCall.error? : ResultCall → Option String
  | .withError x => some x
  | _ => none

/-- The expectation a call gives. -/
def _root_.Rodkina.Ast.TreeBuild.ExecutionCall.expectation? : ExecutionCall → Option (Option Suite)
  | .withExpectation x => some x
  | _ => none

/-- The result a call gives. -/
def _root_.Rodkina.Ast.TreeBuild.ExecutionCall.result? : ExecutionCall → Option (Option (Option Tree))
  | .withResult x => some x
  | _ => none

/-- The token a call gives. -/
def _root_.Rodkina.Ast.TreeBuild.CoverageCall.token? : CoverageCall → Option (Option Token)
  | .withToken x => some x
  | _ => none

/-- The executions a call gives. -/
def _root_.Rodkina.Ast.TreeBuild.CoverageCall.executions? : CoverageCall → Option (Option (List Execution))
  | .withExecutions x => some x
  | _ => none

/-! ### Success -/

/-- An element is within its cardinality; a compose has at least its number of bytes. -/
def ElementFits : TElement → Prop
  | .mk none _ => True
  | .mk (some (.element min max _)) cs => min ≤ cs.length ∧ ∀ m, max = some m → cs.length ≤ m
  | .mk (some (.compose c)) cs => (c.list.map (·.2)).sum ≤ cs.length

/-- The last element of a name is `e`. -/
def LastNamed (n : String) (es : List TElement) (e : TElement) : Prop :=
  ∃ pre post, es = pre ++ e :: post ∧ e.grammar.map Container.name = some n ∧
    ∀ x ∈ post, x.grammar.map Container.name ≠ some n

/-- What a line asks for is there: the last element of that name has the wanted number of contents. -/
def Asked (es : List TElement) : Container → Prop
  | .element min _ c => min = 0 ∨ ∃ e, LastNamed c.name es e ∧ min ≤ e.contents.length
  | .compose c => ∃ e, LastNamed c.name es e ∧ e.contents.length = (c.list.map (·.2)).sum

/-- A line succeeds: it has elements, all within their cardinalities, and all it asks for unless it is a reverse line. -/
def Succeeds : TLine → Prop
  | .mk _ g rev es => es ≠ [] ∧ (∀ e ∈ es, ElementFits e) ∧ (rev = true ∨ ∀ c ∈ g.containers, Asked es c)

/-- `o` is the first of the list with the property, `none` when there is none. -/
def First {α : Type} (p : α → Prop) (l : List α) (o : Option α) : Prop :=
  match o with
  | none => ∀ x ∈ l, ¬ p x
  | some x => ∃ pre post, l = pre ++ x :: post ∧ p x ∧ ∀ y ∈ pre, ¬ p y

/-! ### Well-formed trees -/

mutual
/-- A tree whose block and suffix are well-formed. -/
inductive TreeWF : Tree → Prop
  | mk (g : Token) (b : Block) (s : List Tree) (r : Bytes) : BlockWF b → (∀ t ∈ s, TreeWF t) → TreeWF (.mk g b s r)

/-- A block has a line, and keeps the first that succeeds. -/
inductive BlockWF : Block → Prop
  | mk (ls : List TLine) (s : Option TLine) : ls ≠ [] → (∀ l ∈ ls, TLineWF l) → First Succeeds ls s → BlockWF (.mk ls s)

/-- A line of well-formed elements. -/
inductive TLineWF : TLine → Prop
  | mk (i : Nat) (g : GLine) (r : Bool) (es : List TElement) : (∀ e ∈ es, TElementWF e) → TLineWF (.mk i g r es)

/-- An element has a content. -/
inductive TElementWF : TElement → Prop
  | mk (g : Option Container) (cs : List TContent) : cs ≠ [] → (∀ c ∈ cs, TContentWF c) → TElementWF (.mk g cs)

/-- A content whose trees are well-formed. -/
inductive TContentWF : TContent → Prop
  | value (p : List Tree) (b : UInt8) : (∀ t ∈ p, TreeWF t) → TContentWF (.value p b)
  | tree (t : Tree) : TreeWF t → TContentWF (.tree t)
end

/-- A coverage has an execution, and the trees of its results are well-formed. -/
def CoverageWF (c : Coverage) : Prop := c.executions ≠ [] ∧ ∀ e ∈ c.executions, ∀ t, e.result = some t → TreeWF t

/-! ### What can be built, with parts that were built.  The grammars, tokens and suites given are arbitrary. -/

mutual
/-- Trees that can be built. -/
inductive TreeBuilt : Tree → Prop
  | mk (t : Tree) (calls : List (Option TreeCall)) : treeBuilder.build calls = .ok t →
      (∀ b, some (.withBlock (some b)) ∈ calls → BlockBuilt b) →
      (∀ l, some (.withSuffix (some l)) ∈ calls → ∃ calls', treesBuilder.build calls' = .ok l) →
      (∀ l, some (.withSuffix (some l)) ∈ calls → ∀ t ∈ l, TreeBuilt t) → TreeBuilt t

/-- Blocks that can be built. -/
inductive BlockBuilt : Block → Prop
  | mk (b : Block) (calls : List (Option (Option (List TLine)))) : blockBuilder.build calls = .ok b →
      (∀ l, some (some l) ∈ calls → ∀ x ∈ l, TLineBuilt x) → BlockBuilt b

/-- Lines that can be built. -/
inductive TLineBuilt : TLine → Prop
  | mk (l : TLine) (calls : List (Option LineCall)) : lineBuilder.build calls = .ok l →
      (∀ es, some (.withElements (some es)) ∈ calls → ∃ calls', elementsBuilder.build calls' = .ok es) →
      (∀ es, some (.withElements (some es)) ∈ calls → ∀ e ∈ es, TElementBuilt e) → TLineBuilt l

/-- Elements that can be built. -/
inductive TElementBuilt : TElement → Prop
  | mk (e : TElement) (calls : List (Option ElementCall)) : elementBuilder.build calls = .ok e →
      (∀ cs, some (.withContents (some cs)) ∈ calls → ∃ calls', contentsBuilder.build calls' = .ok cs) →
      (∀ cs, some (.withContents (some cs)) ∈ calls → ∀ c ∈ cs, TContentBuilt c) → TElementBuilt e

/-- Contents that can be built. -/
inductive TContentBuilt : TContent → Prop
  | mk (c : TContent) (calls : List (Option ContentCall)) : contentBuilder.build calls = .ok c →
      (∀ v, some (.withValue (some v)) ∈ calls → TValBuilt v) →
      (∀ t, some (.withTree (some t)) ∈ calls → TreeBuilt t) → TContentBuilt c

/-- Values that can be built. -/
inductive TValBuilt : TVal → Prop
  | mk (v : TVal) (calls : List (Option ValueCall)) : valueBuilder.build calls = .ok v →
      (∀ l, some (.withPrefix (some l)) ∈ calls → ∃ calls', treesBuilder.build calls' = .ok l) →
      (∀ l, some (.withPrefix (some l)) ∈ calls → ∀ t ∈ l, TreeBuilt t) → TValBuilt v
end

/-- Results that can be built. -/
def ResultBuilt (r : Option Tree) : Prop :=
  ∃ calls, resultBuilder.build calls = .ok r ∧ ∀ t, some (.withTree (some t)) ∈ calls → TreeBuilt t

/-- Executions that can be built. -/
def ExecutionBuilt (e : Execution) : Prop :=
  ∃ calls, executionBuilder.build calls = .ok e ∧ ∀ r, some (.withResult (some r)) ∈ calls → ResultBuilt r

/-- Coverages that can be built. -/
def CoverageBuilt (c : Coverage) : Prop :=
  ∃ calls, coverageBuilder.build calls = .ok c ∧
    (∀ l, some (.withExecutions (some l)) ∈ calls → ∃ calls', executionsBuilder.build calls' = .ok l) ∧
    (∀ l, some (.withExecutions (some l)) ∈ calls → ∀ e ∈ l, ExecutionBuilt e)

end TreeBuildSpec
end Rodkina.Ast
