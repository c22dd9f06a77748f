import Verif.AstSpec

/-!
# A reference interpreter for all grammars without references by name

`pegToken` (AstSpec.lean) describes grammars of bytes, tokens and simple exceptions.  The functions
here describe everything but references by name: channels with conditions on what is before and after
them, escape tokens, exceptions made of anything, external grammars.  They know no parser state and
build no trees: a matcher is given the data that was read from before (`p`) and the data to read (`d`).
-/

namespace Rodkina.Ast

/-- The answer of a matcher: a match, a match of nothing at all, no match, or a crash. -/
inductive Ans (α : Type) where
  | found (a : α)
  | blank
  | refused
  | crash

namespace Ans

/-- Change what was found. -/
def map {α β : Type} (f : α → β) : Ans α → Ans β
  | found a => found (f a)
  | blank => blank
  | refused => refused
  | crash => crash

/-- Go on with what was found. -/
def bind {α β : Type} : Ans α → (α → Ans β) → Ans β
  | found a, f => f a
  | blank, _ => blank
  | refused, _ => refused
  | crash, _ => crash

/-- A match of nothing is no match. -/
def strict {α : Type} : Ans α → Ans α
  | found a => found a
  | blank => refused
  | refused => refused
  | crash => crash

/-- Was there a match, be it of nothing. -/
def holds {α : Type} : Ans α → Bool
  | found _ => true
  | blank => true
  | refused => false
  | crash => false

end Ans

/-- Data read from before, data to read; what was matched and the rest. -/
abbrev Matcher (α : Type) := Bytes → Bytes → Ans (α × Bytes)

/-- How tokens are read: the matcher of the escape token, what is skipped in front of bytes and behind
tokens, and whether tokens stand for everything but themselves. -/
structure Mode where
  escape : Option (Matcher Shape)
  skip : Bytes → Bytes → Bytes
  reverse : Bool

/-- No escape token, nothing skipped. -/
def Mode.plain : Mode := ⟨none, fun _ d => d, false⟩

/-- Match as often as possible, until the input is used up, at most `max` times.  The first number
bounds the number of steps, the second counts the matches.  Gives what was matched, the data read from
before what comes next, and the rest. -/
def manyOf {α : Type} (f : Matcher α) (max : Option Nat) :
    Nat → Nat → Bytes → Bytes → Ans (List α × Bytes × Bytes)
  | 0, _, p, d => .found ([], p, d)
  | k + 1, n, p, d =>
    if d = [] ∨ max = some n then .found ([], p, d)
    else match f p d with
      | .found x => (manyOf f max k (n + 1) d x.2).map (fun y => (x.1 :: y.1, y.2))
      | .crash => .crash
      | _ => .found ([], p, d)

/-- The same with a minimum. -/
def timesOf {α : Type} (f : Matcher α) (min : Nat) (max : Option Nat) (p d : Bytes) :
    Ans (List α × Bytes × Bytes) :=
  (manyOf f max d.length 0 p d).bind (fun x => if x.1.length < min then .refused else .found x)

/-- One byte, after skipping. -/
def oneByte (skip : Bytes → Bytes → Bytes) (b : UInt8) : Matcher Shape := fun p d =>
  match skip p d with
  | [] => .refused
  | b' :: r => if b = b' then .found (.byte b, r) else .refused

/-- An escaped exception at the front: the text of the exception, without the escape token. -/
def escaped (esc : Option (Matcher Shape)) (ex : Matcher (List ShapeElem)) (p d : Bytes) :
    Ans (Bytes × Bytes × Bytes) :=
  match esc with
  | none => .found ([], p, d)
  | some e =>
    match e p d with
    | .crash => .crash
    | .found x =>
      if x.2 = [] then .found ([], p, d)
      else match ex d x.2 with
        | .crash => .crash
        | .found y => .found (x.2.take (x.2.length - y.2.length), x.2, y.2)
        | _ => .found ([], p, d)
    | _ => .found ([], p, d)

/-- Everything up to the first place where the exception `ex` matches: an escaped exception is taken
first; the exception ends the text; otherwise one byte is taken, which crashes when the escaped
exception was the last thing in the input.  The number bounds the number of steps. -/
def upTo (esc : Option (Matcher Shape)) (ex : Matcher (List ShapeElem)) :
    Nat → Bytes → Bytes → Ans (Bytes × Bytes)
  | 0, _, d => .found ([], d)
  | k + 1, p, d =>
    if d = [] then .found ([], d)
    else (escaped esc ex p d).bind (fun x =>
      match ex x.2.1 x.2.2 with
      | .crash => .crash
      | .refused =>
        match x.2.2 with
        | [] => .crash
        | b :: r => (upTo esc ex k (b :: r) r).map (fun y => (x.1 ++ b :: y.1, y.2))
      | _ => .found (x.1, x.2.2))

/-- Try the alternatives in order: the first that matches something. -/
def firstOf : List (Matcher (List ShapeElem)) → Nat → Bytes → Bytes →
    Ans ((Nat × List ShapeElem) × Bytes)
  | [], _, _, _ => .refused
  | f :: fs, i, p, d =>
    match f p d with
    | .found x => .found ((i, x.1), x.2)
    | .crash => .crash
    | .refused => firstOf fs (i + 1) p d
    | .blank =>
      match firstOf fs (i + 1) p d with
      | .refused => .blank
      | r => r

/-- A token from the matchers of its alternatives.  Everything but the token is everything but its
first alternative. -/
def tokenOf (m : Mode) (name : String) (fs : List (Matcher (List ShapeElem))) : Matcher Shape :=
  fun p d =>
    if m.reverse then
      match fs with
      | [] => .refused
      | f :: _ => (upTo m.escape f (d.length + 1) p d).bind (fun x =>
          if x.1 = [] then .refused
          else .found (.node name 0 [.mk "" (x.1.map .byte)], m.skip p x.2))
    else (firstOf fs 0 p d).map (fun x => (.node name x.1.1 x.1.2, m.skip p x.2))

/-- Try every channel once, in order.  A channel is given the data read from before and the data to
read, and says what it leaves, if it can be skipped. -/
def channelsOnce : List (Bytes → Bytes → Option Bytes) → Bytes → Bytes → Bytes × Bytes
  | [], p, d => (p, d)
  | c :: cs, p, d =>
    match c p d with
    | some r => channelsOnce cs d r
    | none => channelsOnce cs p d

/-- Repeat until no channel can be skipped; the number bounds the number of rounds. -/
def channelsSkip (cs : List (Bytes → Bytes → Option Bytes)) : Nat → Bytes → Bytes → Bytes
  | 0, _, d => d
  | k + 1, p, d =>
    if (channelsOnce cs p d).2 = d then d
    else channelsSkip cs k (channelsOnce cs p d).1 (channelsOnce cs p d).2

/-- The outermost name. -/
def Shape.rename (name : String) : Shape → Shape
  | .byte b => .byte b
  | .node _ i es => .node name i es

mutual
/-- A token. -/
def refToken (m : Mode) : Token → Matcher Shape
  | .mk name ls _ => tokenOf m name (refLines m ls)
/-- Its alternatives. -/
def refLines (m : Mode) : List GLine → List (Matcher (List ShapeElem))
  | [] => []
  | g :: gs => refLine m g :: refLines m gs
/-- One alternative: its containers in sequence. -/
def refLine (m : Mode) : GLine → Matcher (List ShapeElem)
  | .mk cs => fun p d => (refSeq m cs p d).bind (fun x =>
      if x.1.isEmpty then .blank else .found x)
/-- Containers in sequence. -/
def refSeq (m : Mode) : List Container → Matcher (List ShapeElem)
  | [] => fun _ d => .found ([], d)
  | c :: cs => fun p d => (refContainer m c p d).bind (fun x =>
      (refSeq m cs x.2.1 x.2.2).map (fun y => (consElem c.name x.1 y.1, y.2)))
/-- A container; composes do not match (see the findings in DESIGN.md). -/
def refContainer (m : Mode) : Container → Bytes → Bytes → Ans (List Shape × Bytes × Bytes)
  | .element min max c => timesOf (refContent m c) min max
  | .compose _ => fun _ _ => .refused
/-- A content.  An exception turns the mode around and is read without channels, with its own escape
token.  An external grammar is read with its own channels and takes the rest of the input with it (see
the findings in DESIGN.md).  References by name are outside. -/
def refContent (m : Mode) : Content → Matcher Shape
  | .value _ b => oneByte m.skip b
  | .token t => fun p d => (refToken m t p d).strict
  | .everything _ ex esc => fun p d =>
      (refToken ⟨refEscape esc, fun _ d => d, !m.reverse⟩ ex p d).strict
  | .external name g => fun p d =>
      (refGrammar m.reverse g p d).strict.map (fun x => (x.1.rename name, []))
  | .recursive _ => fun _ _ => .refused
/-- An escape token. -/
def refEscape : Option Token → Option (Matcher Shape)
  | none => none
  | some t => some (refToken Mode.plain t)
/-- A grammar: its root with its channels. -/
def refGrammar (reverse : Bool) : Grammar → Matcher Shape
  | .mk root chs => refToken ⟨none,
      fun p d => channelsSkip (refChannels chs) (d.length + 1) p d, reverse⟩ root
/-- Channels. -/
def refChannels : List Channel → List (Bytes → Bytes → Option Bytes)
  | [] => []
  | c :: cs => refChannel c :: refChannels cs
/-- A channel can be skipped when its token matches, the data read from before starts with a match of
its first condition, and the data behind it with a match of its second condition. -/
def refChannel : Channel → Bytes → Bytes → Option Bytes
  | .mk t before after => fun p d =>
      match refToken Mode.plain t p d with
      | .found x => if refCondition before p && refCondition after x.2 then some x.2 else none
      | _ => none
/-- A condition. -/
def refCondition : Option Token → Bytes → Bool
  | none => fun _ => true
  | some t => fun d => (refToken Mode.plain t [] d).holds
end

end Rodkina.Ast
