import Verif.Ast

/-!
# Model of `Fetch` on parse trees

`tree.Fetch(name, elementIndex)` and `element.Fetch(name, elementIndex)` look an element or a tree
up by name.  Both return a tree, an element, or an error.
-/

namespace Rodkina.Ast

/-- A successful result of `Fetch`: exactly one of the two results is non-nil.
libs/asts/domain/trees/sdk.go:77, 144. -/
inductive Fetched where
  | tree (t : Tree)
  | element (e : TElement)

mutual
/-- `tree.Fetch`, libs/asts/domain/trees/tree.go:66-98; `none` is an error.  The index is not looked
at when the tree itself has the name. -/
def fetchTree (name : String) (idx : Nat) : Tree → Option Fetched
  | .mk g b s r =>
      if g.name = name then some (.tree (.mk g b s r)) else fetchBlock name idx b
  termination_by structural x => x

/-- The successful line of the block is searched, libs/asts/domain/trees/tree.go:71-77. -/
def fetchBlock (name : String) (idx : Nat) : Block → Option Fetched
  | .mk _ none => none
  | .mk _ (some l) => fetchLine name idx l
  termination_by structural x => x

/-- The loop starts with the counter at zero, libs/asts/domain/trees/tree.go:76-78. -/
def fetchLine (name : String) (idx : Nat) : TLine → Option Fetched
  | .mk _ _ _ es => fetchElements name idx 0 es
  termination_by structural x => x

/-- Loop at libs/asts/domain/trees/tree.go:78-95: an element in which nothing is found is passed
over, what is found in the others is counted by `cpt` until `cpt` reaches the index. -/
def fetchElements (name : String) (idx : Nat) (cpt : Nat) : List TElement → Option Fetched
  | [] => none
  | e :: es =>
      match fetchIn name idx e with
      | none => fetchElements name idx cpt es
      | some f => if idx ≤ cpt then some f else fetchElements name idx (cpt + 1) es
  termination_by structural x => x

/-- `element.Fetch`, libs/asts/domain/trees/element.go:41-70. -/
def fetchIn (name : String) (idx : Nat) : TElement → Option Fetched
  | .mk g cs =>
      if g.map Container.name = some name then some (.element (.mk g cs))
      else fetchContents name idx cs
  termination_by structural x => x

/-- Loop at libs/asts/domain/trees/element.go:48-66. -/
def fetchContents (name : String) (idx : Nat) : List TContent → Option Fetched
  | [] => none
  | c :: cs =>
      match fetchContent name idx c with
      | none => fetchContents name idx cs
      | some f => some f
  termination_by structural x => x

/-- Body of the loop at libs/asts/domain/trees/element.go:48-66: values are passed over. -/
def fetchContent (name : String) (idx : Nat) : TContent → Option Fetched
  | .value _ _ => none
  | .tree t => fetchTree name idx t
  termination_by structural x => x
end

end Rodkina.Ast
