import Verif.TreeFetch
/-!
# Reading trees, with the nil lists in view

`Bytes` and `Fetch` again, this time with the panics: `Elements()` of a line without elements and `Contents()` of an element
without contents are nil, and calling `List()` on them panics.  In the model a nil list object is `[]`.
-/

namespace Rodkina.Ast

mutual
/-- `tree.Bytes`, libs/asts/domain/trees/tree.go:101-118. -/
def Tree.readBytes (ch : Bool) : Tree → Res Bytes
  | .mk _ b suffix _ => Block.readBytes ch b (readTrees ch suffix)
termination_by structural x => x

/-- libs/asts/domain/trees/tree.go:103-117: the suffix is read after the elements, if channels are included. -/
def Block.readBytes (ch : Bool) : Block → Res Bytes → Res Bytes
  | .mk _ none, _ => .ok []
  | .mk _ (some l), suffix => do
    let x ← TLine.readBytes ch l
    if ch then do
      let y ← suffix
      pure (x ++ y)
    else pure x
termination_by structural x => x

/-- libs/asts/domain/trees/tree.go:107-111: `Elements().List()` of the successful line. -/
def TLine.readBytes (ch : Bool) : TLine → Res Bytes
  | .mk _ _ _ [] => .panic
  | .mk _ _ _ (e :: es) => do
    let x ← TElement.readBytes ch e
    let y ← readElements ch es
    pure (x ++ y)
termination_by structural x => x

/-- Loop at libs/asts/domain/trees/tree.go:109-111. -/
def readElements (ch : Bool) : List TElement → Res Bytes
  | [] => .ok []
  | e :: es => do
    let x ← TElement.readBytes ch e
    let y ← readElements ch es
    pure (x ++ y)
termination_by structural x => x

/-- `element.Bytes`, libs/asts/domain/trees/element.go:72-91: `contents.List()`. -/
def TElement.readBytes (ch : Bool) : TElement → Res Bytes
  | .mk _ [] => .panic
  | .mk _ (c :: cs) => do
    let x ← TContent.readBytes ch c
    let y ← readContents ch cs
    pure (x ++ y)
termination_by structural x => x

/-- Loop at libs/asts/domain/trees/element.go:76-88. -/
def readContents (ch : Bool) : List TContent → Res Bytes
  | [] => .ok []
  | c :: cs => do
    let x ← TContent.readBytes ch c
    let y ← readContents ch cs
    pure (x ++ y)
termination_by structural x => x

/-- Body of the loop at libs/asts/domain/trees/element.go:76-88. -/
def TContent.readBytes (ch : Bool) : TContent → Res Bytes
  | .value p b =>
    if ch then do
      let x ← readTrees ch p
      pure (x ++ [b])
    else pure [b]
  | .tree t => Tree.readBytes ch t
termination_by structural x => x

/-- `trees.Bytes`, libs/asts/domain/trees/trees.go:18-25. -/
def readTrees (ch : Bool) : List Tree → Res Bytes
  | [] => .ok []
  | t :: ts => do
    let x ← Tree.readBytes ch t
    let y ← readTrees ch ts
    pure (x ++ y)
termination_by structural x => x
end

mutual
/-- `tree.Fetch`, libs/asts/domain/trees/tree.go:66-98. -/
def Tree.readFetch (name : String) (idx : Nat) : Tree → Res Fetched
  | .mk g b s r => if g.name = name then .ok (.tree (.mk g b s r)) else Block.readFetch name idx b
termination_by structural x => x

/-- libs/asts/domain/trees/tree.go:71-75. -/
def Block.readFetch (name : String) (idx : Nat) : Block → Res Fetched
  | .mk _ none => .err
  | .mk _ (some l) => TLine.readFetch name idx l
termination_by structural x => x

/-- libs/asts/domain/trees/tree.go:76-78: `Elements().List()`. -/
def TLine.readFetch (name : String) (idx : Nat) : TLine → Res Fetched
  | .mk _ _ _ [] => .panic
  | .mk _ _ _ (e :: es) =>
    match TElement.readFetch name idx e with
    | .panic => .panic
    | .err => readFetchElements name idx 0 es
    | .ok f => if idx ≤ 0 then .ok f else readFetchElements name idx 1 es
termination_by structural x => x

/-- Loop at libs/asts/domain/trees/tree.go:78-95. -/
def readFetchElements (name : String) (idx : Nat) (cpt : Nat) : List TElement → Res Fetched
  | [] => .err
  | e :: es =>
    match TElement.readFetch name idx e with
    | .panic => .panic
    | .err => readFetchElements name idx cpt es
    | .ok f => if idx ≤ cpt then .ok f else readFetchElements name idx (cpt + 1) es
termination_by structural x => x

/-- `element.Fetch`, libs/asts/domain/trees/element.go:41-70. -/
def TElement.readFetch (name : String) (idx : Nat) : TElement → Res Fetched
  | .mk g cs =>
    if g.map Container.name = some name then .ok (.element (.mk g cs))
    else if cs.isEmpty then .panic
    else readFetchContents name idx cs
termination_by structural x => x

/-- Loop at libs/asts/domain/trees/element.go:48-66. -/
def readFetchContents (name : String) (idx : Nat) : List TContent → Res Fetched
  | [] => .err
  | c :: cs =>
    match TContent.readFetch name idx c with
    | .panic => .panic
    | .err => readFetchContents name idx cs
    | .ok f => .ok f
termination_by structural x => x

/-- Body of the loop at libs/asts/domain/trees/element.go:48-66. -/
def TContent.readFetch (name : String) (idx : Nat) : TContent → Res Fetched
  | .value _ _ => .err
  | .tree t => Tree.readFetch name idx t
termination_by structural x => x
end

end Rodkina.Ast
