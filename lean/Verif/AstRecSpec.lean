import Verif.AstRef
import Verif.AstTerm

/-!
# A reference interpreter for grammars with references by name

A reference by name stands for the enclosing token of that name: the reference interpreter gives every
name the matcher of its token (`env`) and ties the knot of a token that is used inside itself.  It has no
map of tokens that are being read, and no check for lines that were already started.
-/

namespace Rodkina.Ast

/-- The token that is used inside itself: `self` is the token again, on less input; the number bounds
how deep it is nested. -/
def knot (f : Matcher Shape → Matcher Shape) : Nat → Matcher Shape
  | 0 => fun _ _ => .refused
  | k + 1 => f (knot f k)

/-- The meaning of the names of the enclosing tokens. -/
abbrev Env := String → Matcher Shape

/-- Give a name a meaning. -/
def Env.set (env : Env) (name : String) (f : Matcher Shape) : Env :=
  fun k => if k = name then f else env k

/-- No names. -/
def Env.empty : Env := fun _ _ _ => .refused

mutual
/-- A token.  Below it its name stands for the token itself. -/
def recToken (m : Mode) (env : Env) : Token → Matcher Shape
  | .mk name ls _ => fun p d =>
      knot (fun self => tokenOf m name (recLines m (env.set name self) ls)) (d.length + 1) p d
/-- Its alternatives. -/
def recLines (m : Mode) (env : Env) : List GLine → List (Matcher (List ShapeElem))
  | [] => []
  | g :: gs => recLine m env g :: recLines m env gs
/-- One alternative: its containers in sequence. -/
def recLine (m : Mode) (env : Env) : GLine → Matcher (List ShapeElem)
  | .mk cs => fun p d => (recSeq m env cs p d).bind (fun x =>
      if x.1.isEmpty then .blank else .found x)
/-- Containers in sequence. -/
def recSeq (m : Mode) (env : Env) : List Container → Matcher (List ShapeElem)
  | [] => fun _ d => .found ([], d)
  | c :: cs => fun p d => (recContainer m env c p d).bind (fun x =>
      (recSeq m env cs x.2.1 x.2.2).map (fun y => (consElem c.name x.1 y.1, y.2)))
/-- A container; composes do not match. -/
def recContainer (m : Mode) (env : Env) :
    Container → Bytes → Bytes → Ans (List Shape × Bytes × Bytes)
  | .element min max c => timesOf (recContent m env c) min max
  | .compose _ => fun _ _ => .refused
/-- A content.  A reference is what its name stands for; exceptions and external grammars are those of
`refContent`, without references. -/
def recContent (m : Mode) (env : Env) : Content → Matcher Shape
  | .value name b => refContent m (.value name b)
  | .token t => fun p d => (recToken m env t p d).strict
  | .everything name ex esc => refContent m (.everything name ex esc)
  | .external name g => refContent m (.external name g)
  | .recursive name => fun p d => (env name p d).strict
end

/-- A grammar: its root with its channels. -/
def recGrammar : Grammar → Matcher Shape
  | .mk root chs => recToken ⟨none,
      fun p d => channelsSkip (refChannels chs) (d.length + 1) p d, false⟩ Env.empty root

/-! ## The references of a token -/

mutual
/-- The references in a token, at the level of its own map. -/
def tokenRefs : Token → List String
  | .mk _ ls _ => linesRefs ls
/-- The references in lines. -/
def linesRefs : List GLine → List String
  | [] => []
  | g :: gs => lineRefs g ++ linesRefs gs
/-- The references in a line. -/
def lineRefs : GLine → List String
  | .mk cs => contsRefs cs
/-- The references in containers. -/
def contsRefs : List Container → List String
  | [] => []
  | c :: cs => contRefs c ++ contsRefs cs
/-- The references in a container. -/
def contRefs : Container → List String
  | .element _ _ c => contentRefs c
  | .compose _ => []
/-- The references in a content. -/
def contentRefs : Content → List String
  | .value _ _ => []
  | .token t => tokenRefs t
  | .everything _ _ _ => []
  | .external _ _ => []
  | .recursive name => [name]
end

mutual
/-- The references in a token to tokens around it. -/
def tokenFree : Token → List String
  | .mk name ls _ => (linesFree ls).filter (fun k => k ≠ name)
/-- The same for lines. -/
def linesFree : List GLine → List String
  | [] => []
  | g :: gs => lineFree g ++ linesFree gs
/-- The same for a line. -/
def lineFree : GLine → List String
  | .mk cs => contsFree cs
/-- The same for containers. -/
def contsFree : List Container → List String
  | [] => []
  | c :: cs => contFree c ++ contsFree cs
/-- The same for a container. -/
def contFree : Container → List String
  | .element _ _ c => contentFree c
  | .compose _ => []
/-- The same for a content. -/
def contentFree : Content → List String
  | .value _ _ => []
  | .token t => tokenFree t
  | .everything _ _ _ => []
  | .external _ _ => []
  | .recursive name => [name]
end

/-- At most one of the containers refers to a token around the line. -/
def oneOpen : List Container → Prop
  | [] => True
  | c :: cs => (contFree c ≠ [] → contsFree cs = []) ∧ oneOpen cs

mutual
/-- The tokens with references that are covered.  `toks` are the tokens that contain references, `path`
the names of the enclosing tokens.  A token that refers to a token around it has no second reference. -/
def LinTok (toks : List Token) (path : List String) : Token → Prop
  | .mk name ls ss => Token.mk name ls ss ∈ toks ∧ name ∉ path ∧ LinLines toks (name :: path) ls ∧
      (tokenFree (.mk name ls ss) ≠ [] → (linesRefs ls).length ≤ 1)
/-- All lines. -/
def LinLines (toks : List Token) (path : List String) : List GLine → Prop
  | [] => True
  | g :: gs => LinLine toks path g ∧ LinLines toks path gs
/-- One line: a reference comes after a container that must occur, and only one container refers to a
token around the line. -/
def LinLine (toks : List Token) (path : List String) : GLine → Prop
  | .mk cs => sameNames cs ∧ guardedFrom false cs ∧ oneOpen cs ∧ LinConts toks path cs
/-- All containers. -/
def LinConts (toks : List Token) (path : List String) : List Container → Prop
  | [] => True
  | c :: cs => LinCont toks path c ∧ LinConts toks path cs
/-- One container: what refers to a token around the line is not repeated. -/
def LinCont (toks : List Token) (path : List String) : Container → Prop
  | .element min max c => min < 2 ^ 63 ∧ (contentFree c ≠ [] → max = some 1) ∧
      LinContent toks path c
  | .compose _ => True
/-- One content: a reference to an enclosing token; a token with references; or anything without
references whose names are not those of tokens with references. -/
def LinContent (toks : List Token) (path : List String) : Content → Prop
  | .value _ _ => True
  | .token t => (tokenRefs t = [] ∧ RefTok (toks.map Token.name) t) ∨ LinTok toks path t
  | .everything name ex esc => RefContent (toks.map Token.name) (.everything name ex esc)
  | .external name g => RefContent (toks.map Token.name) (.external name g)
  | .recursive name => name ∈ path
end

/-- The grammars covered: no two tokens with references have the same name. -/
def RecGrammar : Grammar → Prop
  | .mk root chs => RefChans chs ∧
      ∃ toks : List Token, (toks.map Token.name).Nodup ∧ LinTok toks [] root

end Rodkina.Ast
