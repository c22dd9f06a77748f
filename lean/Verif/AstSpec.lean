import Verif.Ast

/-!
# Specifications for the parser

Written without reference to the parser: what it means for a tree to be a derivation of a grammar,
for a line to occur in a tree, and the ordered-choice ("PEG") semantics of grammars without
references by name, external grammars and "everything" elements.
-/

namespace Rodkina.Ast

/-! ## Derivations -/

mutual
/-- `TreeOK path chs rev tok t`: the successful line of `t` is justified as a match of `tok`.
`path` are the tokens in which `tok` is nested (references by name resolve to one of them), `chs`
the channels in force, `rev` whether `tok` is an exception ("everything except"). -/
inductive TreeOK : List Token → List Channel → Bool → Token → Tree → Prop
  | forward (path : List Token) (chs : List Channel) (tok : Token) (ls : List TLine) (i : Nat)
      (g : GLine) (es : List TElement) (suf : List Tree) (rem : Bytes) :
      tok.lines[i]? = some g →
      ElementsOK (tok :: path) chs g.containers es →
      es ≠ [] →
      (∀ s ∈ suf, ChannelTree chs s) →
      TreeOK path chs false tok (.mk tok (.mk ls (some (.mk i g false es))) suf rem)
  | reverse (path : List Token) (chs : List Channel) (tok : Token) (ls : List TLine) (i : Nat)
      (g : GLine) (bs : Bytes) (suf : List Tree) (rem : Bytes) :
      tok.lines[i]? = some g →
      bs ≠ [] →
      (∀ s ∈ suf, ChannelTree chs s) →
      TreeOK path chs true tok
        (.mk tok (.mk ls (some (.mk i g true [.mk none (bs.map (.value []))]))) suf rem)

/-- A channel tree is a derivation of the token of one of the channels. -/
inductive ChannelTree : List Channel → Tree → Prop
  | mk (chs : List Channel) (c : Channel) (t : Tree) :
      c ∈ chs → TreeOK [] [] false c.token t → ChannelTree chs t

/-- The elements match the containers in order: every container is matched by the next element with
a number of contents within its cardinality, or is optional and absent.  A reference by name occurs
at most once, whatever its cardinality (property C78). -/
inductive ElementsOK : List Token → List Channel → List Container → List TElement → Prop
  | nil (path : List Token) (chs : List Channel) : ElementsOK path chs [] []
  | absent (path : List Token) (chs : List Channel) (max : Option Nat) (c : Content)
      (cs : List Container) (es : List TElement) :
      ElementsOK path chs cs es → ElementsOK path chs (.element 0 max c :: cs) es
  | present (path : List Token) (chs : List Channel) (min : Nat) (max : Option Nat) (c : Content)
      (cs : List Container) (xs : List TContent) (es : List TElement) :
      xs ≠ [] → min ≤ xs.length → (∀ m, max = some m → xs.length ≤ m) →
      (∀ name, c = .recursive name → xs.length = 1) →
      (∀ x ∈ xs, ContentOK path chs c x) →
      ElementsOK path chs cs es →
      ElementsOK path chs (.element min max c :: cs) (.mk (some (.element min max c)) xs :: es)

/-- One content matches what the element stands for. -/
inductive ContentOK : List Token → List Channel → Content → TContent → Prop
  | value (path : List Token) (chs : List Channel) (name : String) (b : UInt8) (pre : List Tree) :
      (∀ p ∈ pre, ChannelTree chs p) → ContentOK path chs (.value name b) (.value pre b)
  | token (path : List Token) (chs : List Channel) (tok : Token) (t : Tree) :
      TreeOK path chs false tok t → ContentOK path chs (.token tok) (.tree t)
  | everything (path : List Token) (chs : List Channel) (name : String) (ex : Token)
      (esc : Option Token) (t : Tree) :
      TreeOK path [] true ex t → ContentOK path chs (.everything name ex esc) (.tree t)
  | recursive (path : List Token) (chs : List Channel) (tok : Token) (t : Tree) :
      tok ∈ path → TreeOK path chs false tok t → ContentOK path chs (.recursive tok.name) (.tree t)
  | external (path : List Token) (chs : List Channel) (name : String) (root : Token)
      (channels : List Channel) (ls : List TLine) (l : TLine) (suf : List Tree) (rem : Bytes) :
      TreeOK [] channels false root (.mk root (.mk ls (some l)) suf rem) →
      ContentOK path chs (.external name (.mk root channels))
        (.tree (.mk (.mk name root.lines root.suites) (.mk ls (some l)) [] []))
end

/-- `l` is the successful line of the tree or of a tree occurring in it (as a content, or as a
channel tree before a value or after a token). -/
inductive LineIn : Tree → TLine → Prop
  | here (g : Token) (ls : List TLine) (l : TLine) (suf : List Tree) (rem : Bytes) :
      LineIn (.mk g (.mk ls (some l)) suf rem) l
  | suffix (g : Token) (ls : List TLine) (l l' : TLine) (suf : List Tree) (rem : Bytes) (s : Tree) :
      s ∈ suf → LineIn s l' → LineIn (.mk g (.mk ls (some l)) suf rem) l'
  | pre (g : Token) (ls : List TLine) (l l' : TLine) (suf : List Tree) (rem : Bytes) (e : TElement)
      (pre : List Tree) (b : UInt8) (s : Tree) :
      e ∈ l.elements → .value pre b ∈ e.contents → s ∈ pre → LineIn s l' →
      LineIn (.mk g (.mk ls (some l)) suf rem) l'
  | sub (g : Token) (ls : List TLine) (l l' : TLine) (suf : List Tree) (rem : Bytes) (e : TElement)
      (t : Tree) :
      e ∈ l.elements → .tree t ∈ e.contents → LineIn t l' →
      LineIn (.mk g (.mk ls (some l)) suf rem) l'

/-! ## Ordered-choice semantics

A reference interpreter for grammars: ordered choice between alternatives, greedy repetition, no
backtracking, no parser state.  `sk` removes the channel bytes (white space, comments, ...) in front
of a value and behind a token. -/

mutual
/-- What was matched: a byte, or a token with the number of the chosen alternative and the contents
of its elements. -/
inductive Shape where
  | byte (b : UInt8)
  | node (name : String) (alternative : Nat) (elements : List ShapeElem)
/-- The contents of an element. -/
inductive ShapeElem where
  | mk (name : String) (contents : List Shape)
end

/-- Apply `f` as often as it matches, until the input is used up, at most `max` times: what was
matched, and the rest.  The first argument bounds the number of steps (the length of the input
suffices when every match consumes a byte), the second counts the matches. -/
def repeatMatch {α : Type} (f : Bytes → Option (α × Bytes)) (max : Option Nat) :
    Nat → Nat → Bytes → List α × Bytes
  | 0, _, d => ([], d)
  | k + 1, n, d =>
    if d = [] ∨ max = some n then ([], d)
    else match f d with
      | none => ([], d)
      | some x => (x.1 :: (repeatMatch f max k (n + 1) x.2).1, (repeatMatch f max k (n + 1) x.2).2)

/-- Greedy repetition with a minimum. -/
def greedy {α : Type} (f : Bytes → Option (α × Bytes)) (min : Nat) (max : Option Nat) (d : Bytes) :
    Option (List α × Bytes) :=
  if (repeatMatch f max d.length 0 d).1.length < min then none
  else some (repeatMatch f max d.length 0 d)

/-- One byte, after skipping. -/
def byteMatch (sk : Bytes → Bytes) (b : UInt8) (d : Bytes) : Option (Shape × Bytes) :=
  match sk d with
  | [] => none
  | b' :: r => if b = b' then some (.byte b, r) else none

/-- A sequence of repeated bytes (no skipping). -/
def byteSeq : List Container → Bytes → Option Bytes
  | [], d => some d
  | .element min max (.value _ b) :: cs, d =>
      (greedy (byteMatch id b) min max d).bind (fun x => byteSeq cs x.2)
  | _ :: _, _ => none

/-- Bytes up to the first position at which `stop` holds. -/
def textUntil (stop : Bytes → Bool) : Bytes → Bytes × Bytes
  | [] => ([], [])
  | b :: r => if stop (b :: r) then ([], b :: r)
      else (b :: (textUntil stop r).1, (textUntil stop r).2)

/-- "Everything except `ex`": one or more bytes up to the first match of the first alternative of
`ex` (the parser looks at no other alternative, see the findings in DESIGN.md). -/
def everythingMatch (ex : Token) (d : Bytes) : Option (Shape × Bytes) :=
  match ex.lines with
  | [] => none
  | g :: _ =>
    if (textUntil (fun x => (byteSeq g.containers x).isSome) d).1 = [] then none
    else some (.node ex.name 0
        [.mk "" ((textUntil (fun x => (byteSeq g.containers x).isSome) d).1.map .byte)],
      (textUntil (fun x => (byteSeq g.containers x).isSome) d).2)

/-- Drop an element without contents. -/
def consElem (name : String) (cs : List Shape) (es : List ShapeElem) : List ShapeElem :=
  if cs.isEmpty then es else .mk name cs :: es

mutual
/-- A token: the first line that matches is taken, then channel bytes are skipped. -/
def pegToken (sk : Bytes → Bytes) : Token → Bytes → Option (Shape × Bytes)
  | .mk name ls _, d => (pegLines sk 0 ls d).map (fun x => (.node name x.1 x.2.1, sk x.2.2))
/-- First matching line, its number (starting at `i`), its elements and the rest. -/
def pegLines (sk : Bytes → Bytes) : Nat → List GLine → Bytes → Option (Nat × List ShapeElem × Bytes)
  | _, [], _ => none
  | i, g :: gs, d => ((pegLine sk g d).map (fun x => (i, x))).orElse
      (fun _ => pegLines sk (i + 1) gs d)
/-- A line matches when all its containers match in sequence and something was matched. -/
def pegLine (sk : Bytes → Bytes) : GLine → Bytes → Option (List ShapeElem × Bytes)
  | .mk cs, d => (pegSeq sk cs d).bind (fun x => if x.1.isEmpty then none else some x)
/-- Containers in sequence. -/
def pegSeq (sk : Bytes → Bytes) : List Container → Bytes → Option (List ShapeElem × Bytes)
  | [], d => some ([], d)
  | c :: cs, d => (pegContainer sk c d).bind (fun x =>
      (pegSeq sk cs x.2).map (fun y => (consElem c.name x.1 y.1, y.2)))
/-- Greedy repetition of an element; composes do not match (see the findings in DESIGN.md). -/
def pegContainer (sk : Bytes → Bytes) : Container → Bytes → Option (List Shape × Bytes)
  | .element min max c, d => greedy (pegContent sk c) min max d
  | .compose _, _ => none
/-- A byte, a token, or everything except a token; the other contents are outside this semantics. -/
def pegContent (sk : Bytes → Bytes) : Content → Bytes → Option (Shape × Bytes)
  | .value _ b, d => byteMatch sk b d
  | .token t, d => pegToken sk t d
  | .everything _ ex _, d => everythingMatch ex d
  | .external _ _, _ => none
  | .recursive _, _ => none
end

mutual
/-- The shape of a parse tree: chosen alternatives and contents, without channel trees, failed
alternatives and positions. -/
def Tree.shape : Tree → Shape
  | .mk g b _ _ => Block.shape g.name b
/-- Shape of the successful line. -/
def Block.shape (name : String) : Block → Shape
  | .mk _ none => .node name 0 []
  | .mk _ (some l) => TLine.shape name l
/-- Shape of a line. -/
def TLine.shape (name : String) : TLine → Shape
  | .mk i _ _ es => .node name i (elementsShape es)
/-- Shapes of the elements. -/
def elementsShape : List TElement → List ShapeElem
  | [] => []
  | e :: es => TElement.shape e :: elementsShape es
/-- Shape of an element. -/
def TElement.shape : TElement → ShapeElem
  | .mk g cs => .mk ((g.map Container.name).getD "") (contentsShape cs)
/-- Shapes of the contents. -/
def contentsShape : List TContent → List Shape
  | [] => []
  | c :: cs => TContent.shape c :: contentsShape cs
/-- Shape of a content. -/
def TContent.shape : TContent → Shape
  | .value _ b => .byte b
  | .tree t => Tree.shape t
end

/-! ## Skipping channels -/

/-- Skip one match of a channel (without conditions on what is before and after). -/
def chStep (d : Bytes) (c : Channel) : Bytes :=
  match pegToken id c.token d with
  | some x => x.2
  | none => d

/-- Try every channel once, in order. -/
def chRound (chs : List Channel) (d : Bytes) : Bytes := chs.foldl chStep d

/-- Repeat until no channel matches; the number of bytes bounds the number of rounds. -/
def chSkip (chs : List Channel) : Nat → Bytes → Bytes
  | 0, d => d
  | k + 1, d => if chRound chs d = d then d else chSkip chs k (chRound chs d)

/-- Skip all channel bytes at the front. -/
def skipAll (chs : List Channel) (d : Bytes) : Bytes := chSkip chs (d.length + 1) d

end Rodkina.Ast
