import Verif.Coverage
import Verif.AstSpec

/-!
# Specifications for the coverage reports

Which tokens a grammar is made of, which elements it has, and which alternatives a tree applies: relations on
grammars and trees, without reference to the coverage code.
-/

namespace Rodkina.Ast

/-! ## Tokens of a grammar -/

/-- `u` is used in a line of `t`: as an element, as an exception, or as an escape token. -/
inductive Child : Token → Token → Prop
  | token (t u : Token) (l : GLine) (min : Nat) (max : Option Nat) :
      l ∈ t.lines → .element min max (.token u) ∈ l.containers → Child t u
  | exception (t u : Token) (l : GLine) (min : Nat) (max : Option Nat) (name : String)
      (escape : Option Token) :
      l ∈ t.lines → .element min max (.everything name u escape) ∈ l.containers → Child t u
  | escape (t u : Token) (l : GLine) (min : Nat) (max : Option Nat) (name : String) (ex : Token) :
      l ∈ t.lines → .element min max (.everything name ex (some u)) ∈ l.containers → Child t u

/-- The external grammar `g` is used in a line of `t`. -/
def UsesExternal (t : Token) (g : Grammar) : Prop :=
  ∃ l ∈ t.lines, ∃ min max name, Container.element min max (.external name g) ∈ l.containers

/-- `u` is `t` or used, directly or not, in the lines of `t`. -/
inductive Below : Token → Token → Prop
  | refl (t : Token) : Below t t
  | step (t u w : Token) : Child t u → Below u w → Below t w

/-- `u` is a token of `g`, external grammars left aside, and `chs` are the channels in force for it:
those of the grammar for the tokens below the root, none for the tokens of the channels. -/
def Level (g : Grammar) (u : Token) (chs : List Channel) : Prop :=
  (Below g.root u ∧ chs = g.channels) ∨ ∃ c ∈ g.channels, Below c.token u ∧ chs = []

/-- `h` is `g` or an external grammar used, directly or not, in `g`. -/
inductive SubGrammar : Grammar → Grammar → Prop
  | refl (g : Grammar) : SubGrammar g g
  | step (g h k : Grammar) (u : Token) (chs : List Channel) :
      Level g u chs → UsesExternal u h → SubGrammar h k → SubGrammar g k

/-- `u` is a token of `g`, or of an external grammar used in it. -/
def TokenOf (g : Grammar) (u : Token) (chs : List Channel) : Prop :=
  ∃ h, SubGrammar g h ∧ Level h u chs

/-- Two tokens of one grammar with the same name are the same token (external grammars have their own
names). -/
def NamesIdentify (g : Grammar) : Prop :=
  ∀ h, SubGrammar g h → ∀ u chs u' chs', Level h u chs → Level h u' chs' → u.name = u'.name → u = u'

/-- Element number `j` of alternative number `i` of a token called `name` is called `v`. -/
def ElementAt (g : Grammar) (p : Pos) (v : String) : Prop :=
  ∃ u chs, TokenOf g u chs ∧ u.name = p.1 ∧ ∃ l, u.lines[p.2.1]? = some l ∧
    ∃ min max c, l.containers[p.2.2]? = some (.element min max c) ∧ c.name = v

/-! ## Tests -/

/-- What the parser does with the content of suite `s`, when it starts with token `u` and the channels
`chs`, is recorded in `e`. -/
def RunOf (u : Token) (chs : List Channel) (s : Suite) (e : Execution) : Prop :=
  e.expectation = s ∧ ∃ n, execute n (.mk u chs) (composeCompose s.content) =
    (match e.result with
      | some t => .ok t
      | none => .err)

/-- The suites of `u` were run in order with the outcomes `es`. -/
inductive RunsOf (u : Token) (chs : List Channel) : List Suite → List Execution → Prop
  | nil : RunsOf u chs [] []
  | cons (s : Suite) (ss : List Suite) (e : Execution) (es : List Execution) :
      RunOf u chs s e → RunsOf u chs ss es → RunsOf u chs (s :: ss) (e :: es)

/-- `t` is the tree of a suite recorded in the coverages, for a token called `name`. -/
def TestTree (cs : List Coverage) (name : String) (t : Tree) : Prop :=
  ∃ c ∈ cs, c.token.name = name ∧ ∃ e ∈ c.executions, e.result = some t

/-! ## Positions used by a tree -/

/-- The line that matched, if any. -/
def Tree.matched : Tree → Option TLine
  | .mk _ (.mk _ l) _ _ => l

/-- As the report counts them: element number `j` among those *present* in the line that matched, filed
under the name of the *element* of which the tree is a content. -/
inductive Counted : String → Tree → Pos → Prop
  | here (name : String) (t : Tree) (l : TLine) (j : Nat) (c : Container) (xs : List TContent) :
      t.matched = some l → l.elements[j]? = some (.mk (some c) xs) → Counted name t (name, l.index, j)
  | sub (name : String) (t : Tree) (l : TLine) (c : Container) (xs : List TContent) (t' : Tree) (p : Pos) :
      t.matched = some l → .mk (some c) xs ∈ l.elements → .tree t' ∈ xs → Counted c.name t' p →
      Counted name t p

/-- `t'` is `t` or occurs, directly or not, as a content of an element in the line that matched. -/
inductive SubTree : Tree → Tree → Prop
  | refl (t : Tree) : SubTree t t
  | step (t t' t'' : Tree) (l : TLine) (e : TElement) :
      t.matched = some l → e ∈ l.elements → .tree t' ∈ e.contents → SubTree t' t'' → SubTree t t''

/-- Element number `p.2.2` of alternative number `p.2.1` of a token called `p.1` was matched somewhere in `t`:
that alternative was applied, and has a present element that is a match of that element. -/
def UsedAt (t : Tree) (p : Pos) : Prop :=
  ∃ t', SubTree t t' ∧ t'.grammar.name = p.1 ∧
    ∃ l, t'.matched = some l ∧ l.isReverse = false ∧ l.index = p.2.1 ∧
      ∃ e ∈ l.elements, ∃ c, e.grammar = some c ∧ l.grammar.containers[p.2.2]? = some c

/-- No element of the line is optional, and none is an external grammar. -/
def plainLine (l : GLine) : Prop :=
  ∀ c ∈ l.containers, ∀ min max k, c = .element min max k → 1 ≤ min ∧ ∀ name g, k ≠ .external name g

end Rodkina.Ast
