import Verif.Ast

/-!
# Model of the query library (libs/queries)

Queries select contents of a parse tree and hand them to functions supplied by the user.

Conventions.
* `interface{}` values are `Any W = Option W`, `none` being nil; `W` is an arbitrary type.
* The user's functions are mathematical functions into `Res` (value, error or panic): they are
  assumed to terminate and to depend on their arguments only.
* Query objects are immutable values built bottom-up, so they are finite trees.
* Every recursive call goes through `queryFetch`.  As for the parser, `fetch n` is the `n`-fold
  iteration of its body and the outcome `oof` means that calls were nested deeper than `n`.
* The Go map `previous` is created once per execution and shared by all calls; it is threaded as a
  state.  An error or a panic ends the whole execution, so the state is only kept on success.
* Error messages are dropped.
-/

namespace Rodkina.Query

open Rodkina.Ast (Tree TContent TElement TLine Out Container)

/-- `interface{}`: any value or nil. -/
abbrev Any (W : Type) := Option W

/-- The token of a query with its element: libs/queries/domain/queries/token.go:3-66,
libs/queries/domain/queries/element.go:3-28.  `content` is the optional content index. -/
structure QToken where
  name : String
  reverseName : String
  elementName : String
  index : Nat
  content : Option Nat

/-- A function on contents: libs/queries/domain/queries/sdk.go:5-9, libs/queries/domain/queries/contentfn.go:3-50. -/
inductive ContentFn (W : Type) where
  | single (f : TContent → Res (List (Any W)))
  | multi (f : List TContent → Res (List (Any W)))

/-- A function on instances: libs/queries/domain/queries/sdk.go:11-15, libs/queries/domain/queries/selectorfn.go:3-50. -/
inductive QueryFn (W : Type) where
  | single (f : Any W → Res (Any W × Bool))
  | multi (f : List (Any W) → Res (Any W × Bool))

mutual
/-- A query: libs/queries/domain/queries/selector.go:3-36. -/
inductive Query (W : Type) where
  | mk (token : QToken) (inside : Inside W) (fn : QueryFn W)

/-- What a query does with the selected contents: a function or fetchers.
libs/queries/domain/queries/inside.go:3-50, libs/queries/domain/queries/fetchers.go:3-20. -/
inductive Inside (W : Type) where
  | fn (f : ContentFn W)
  | fetchers (list : List (Fetcher W))

/-- A fetcher: a query or a reference by token name.
libs/queries/domain/queries/fetcher.go:3-50. -/
inductive Fetcher (W : Type) where
  | recursive (name : String)
  | query (q : Query W)
end

variable {W : Type}

/-- `Token`, libs/queries/domain/queries/selector.go:24-26. -/
def Query.token : Query W → QToken
  | .mk t _ _ => t

/-- `Inside`, libs/queries/domain/queries/selector.go:29-31. -/
def Query.inside : Query W → Inside W
  | .mk _ i _ => i

/-- `Fn`, libs/queries/domain/queries/selector.go:34-36. -/
def Query.fn : Query W → QueryFn W
  | .mk _ _ f => f

/-- `query.Token().Name()`, libs/queries/applications/application.go:50. -/
def Query.name (q : Query W) : String := q.token.name

/-- The map `previous`, newest entry first (libs/queries/applications/application.go:40, 46-50). -/
abbrev Prev (W : Type) := List (String × Query W)

/-- A computation that threads the map `previous`. -/
def QM (W α : Type) : Type := Prev W → Out (α × Prev W)

namespace QM

/-- Return a value. -/
def ret {α : Type} (a : α) : QM W α := fun p => .ok (a, p)

/-- `if err != nil { return err }`. -/
def andThen {α β : Type} (m : QM W α) (f : α → QM W β) : QM W β := fun p =>
  match m p with
  | .ok (a, p') => f a p'
  | .err => .err
  | .panic => .panic
  | .oof => .oof

instance : Monad (QM W) where
  pure := ret
  bind := andThen

/-- Run something that does not use the map. -/
def lift {α : Type} (r : Res α) : QM W α := fun p =>
  match r with
  | .ok a => .ok (a, p)
  | .err => .err
  | .panic => .panic

/-- Nesting deeper than the fuel. -/
def oof {α : Type} : QM W α := fun _ => .oof

end QM

open QM

/-- `tokenRefine`, libs/queries/applications/application.go:125-141. -/
def tokenRefine (tok : QToken) (contents : List TContent) : Res (List TContent) :=
  match tok.content with
  | none => .ok contents
  | some i =>
    match contents[i]? with
    | none => .err
    | some c => .ok [c]

/-- The loop of `queryContents`: libs/queries/applications/application.go:71-96.  After the counter is
increased for an element without grammar the method `Name` of its nil grammar is called (line 85). -/
def elementsLoop (tok : QToken) : List TElement → Nat → Res (List TContent)
  | [], _ => .ok []
  | e :: es, cpt =>
    match e.grammar with
    | none =>
      if tok.elementName ≠ tok.reverseName then elementsLoop tok es cpt
      else if tok.index = cpt then tokenRefine tok e.contents
      else .panic
    | some g =>
      if g.name ≠ tok.elementName then elementsLoop tok es cpt
      else if tok.index = cpt then tokenRefine tok e.contents
      else elementsLoop tok es (cpt + 1)

/-- `queryContents`, libs/queries/applications/application.go:54-97.  A line without elements has a nil
`Elements()` (libs/asts/domain/trees/line.go:62-70), whose `List` panics. -/
def queryContents (tok : QToken) (tree : Tree) : Res (List TContent) :=
  if tok.name ≠ tree.grammar.name then .err
  else
    match tree.block.successful with
    | none => .err
    | some l => if l.elements.isEmpty then .panic else elementsLoop tok l.elements 0

/-- The type of the recursive call `queryFetch`, libs/queries/applications/application.go:40. -/
abbrev Rec (W : Type) := Query W → Tree → QM W (Any W × Bool)

/-- Lookup of a query by name: libs/queries/applications/application.go:187, 201-202. -/
def lookup (name : String) : QM W (Query W) := fun p =>
  match p.lookup name with
  | some q => .ok (q, p)
  | none => .err

/-- `previous[query.Token().Name()] = query`: libs/queries/applications/application.go:50. -/
def remember (q : Query W) : QM W Unit := fun p => .ok ((), (q.name, q) :: p)

/-- One fetcher on one content: libs/queries/applications/application.go:166-202.  Nothing is added for
a byte or when the query is not valid. -/
def fetchOne (rec : Rec W) (content : TContent) (f : Fetcher W) : QM W (List (Any W)) :=
  match content with
  | .value _ _ => pure []
  | .tree t =>
    match f with
    | .query q => do
      let r ← rec q t
      pure (if r.2 then [r.1] else [])
    | .recursive name => do
      let q ← lookup name
      let r ← rec q t
      pure (if r.2 then [r.1] else [])

/-- The loop over the fetchers: libs/queries/applications/application.go:164-204. -/
def rowLoop (rec : Rec W) (content : TContent) : List (Fetcher W) → List (Any W) → QM W (List (Any W))
  | [], row => pure row
  | f :: fs, row => do
    let r ← fetchOne rec content f
    rowLoop rec content fs (row ++ r)

/-- The loop over the contents: libs/queries/applications/application.go:163-207. -/
def contentsLoop (rec : Rec W) (fs : List (Fetcher W)) :
    List TContent → List (Any W) → QM W (List (Any W))
  | [], out => pure out
  | c :: cs, out => do
    let row ← rowLoop rec c fs []
    contentsLoop rec fs cs (out ++ row)

/-- The function of an `inside`: libs/queries/applications/application.go:144-158.  The check before
`contentList[0]` compares the length with 0 by `<`, so an empty list panics. -/
def contentFn (f : ContentFn W) (contents : List TContent) : Res (List (Any W)) :=
  match f with
  | .single g =>
    match contents with
    | [] => .panic
    | c :: _ => g c
  | .multi g => g contents

/-- `insideInstances`, libs/queries/applications/application.go:143-210. -/
def insideInstances (rec : Rec W) (inside : Inside W) (contents : List TContent) :
    QM W (List (Any W)) :=
  match inside with
  | .fn f => lift (contentFn f contents)
  | .fetchers fs => contentsLoop rec fs contents []

/-- The end of `queryInstance`: libs/queries/applications/application.go:107-122. -/
def queryFn (f : QueryFn W) (list : List (Any W)) : Res (Any W × Bool) :=
  match list with
  | [] => .ok (none, false)
  | x :: xs =>
    match f with
    | .single g => g x
    | .multi g => g (x :: xs)

/-- `queryFetch` and `queryInstance`, libs/queries/applications/application.go:40-52, 99-123. -/
def fetchBody (rec : Rec W) (q : Query W) (tree : Tree) : QM W (Any W × Bool) := do
  let contents ← lift (queryContents q.token tree)
  remember q
  let list ← insideInstances rec q.inside contents
  lift (queryFn q.fn list)

/-- `queryFetch` with calls nested at most `n` deep. -/
def fetch : Nat → Rec W
  | 0 => fun _ _ => oof
  | n + 1 => fetchBody (fetch n)

/-- The result of `Execute`: instance, validity, remaining bytes. -/
structure Answer (W : Type) where
  instance_ : Any W
  isValid : Bool
  remaining : Bytes

/-- The end of `Execute`: libs/queries/applications/application.go:28-37. -/
def answer (tree : Tree) (r : Out ((Any W × Bool) × Prev W)) : Out (Answer W) :=
  match r with
  | .ok x => .ok ⟨x.1.1, x.1.2, tree.remaining⟩
  | .err => .err
  | .panic => .panic
  | .oof => .oof

/-- `Execute`, libs/queries/applications/application.go:26-38, with calls nested at most `n` deep. -/
def execute (n : Nat) (q : Query W) (tree : Tree) : Out (Answer W) :=
  answer tree (fetch n q tree [])

/-- `Matches`, libs/queries/applications/application.go:21-23. -/
def matches_ (_ : Rodkina.Ast.Grammar) (_ : Query W) : Res Bool := .ok true

end Rodkina.Query
