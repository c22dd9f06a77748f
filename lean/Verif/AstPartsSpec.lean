import Verif.AstShippedRun
import Verif.AstRecSpec

/-!
# What a grammar reads, from what its parts read on their own

A token, or any content, is made a grammar of its own (`single`).  The meaning of a repetition, of a sequence and of a
choice is given in terms of what these small grammars read (`Succeeds`) and refuse (`Rejects`), without
any interpreter.  Deterministic relations: `some` what was read and what is left, `none` when nothing can
be read.
-/

namespace Rodkina.Props

open Rodkina.Ast

/-- A content as a grammar of its own. -/
def single (name : String) (c : Content) : Grammar :=
  .mk (.mk name [.mk [.element 1 (some 1) c]] []) []

/-- What a grammar reads. -/
def GrammarOn (g : Grammar) (d : Bytes) : Option (Bytes × Bytes) → Prop
  | some (m, r) => Succeeds g d m r
  | none => Rejects g d

/-- What a part of `g` reads: a byte, a token on its own, the whole grammar again, anything else on its
own. -/
def PartOn (g : Grammar) : Content → Bytes → Option (Bytes × Bytes) → Prop
  | .value _ b, d, some (m, r) => m = [b] ∧ d = b :: r
  | .value _ b, d, none => ∀ r, d ≠ b :: r
  | .token t, d, o => GrammarOn (.mk t []) d o
  | .recursive _, d, o => GrammarOn g d o
  | .everything name ex esc, d, o => GrammarOn (single g.root.name (.everything name ex esc)) d o
  | .external name x, d, o => GrammarOn (single g.root.name (.external name x)) d o

/-- A part as often as possible, at most `max` times, `n` times done: how often, what was read, the rest. -/
inductive RepOn (g : Grammar) (c : Content) (max : Option Nat) : Nat → Bytes → Nat → Bytes → Bytes → Prop
  | stop (n : Nat) (d : Bytes) (h : d = [] ∨ max = some n ∨ PartOn g c d none) : RepOn g c max n d 0 [] d
  | step (n : Nat) (d m r : Bytes) (k : Nat) (ms r' : Bytes) (hd : d ≠ []) (hn : max ≠ some n)
      (h : PartOn g c d (some (m, r))) (rest : RepOn g c max (n + 1) r k ms r') :
      RepOn g c max n d (k + 1) (m ++ ms) r'

/-- Elements in sequence: number of parts, what was read, the rest.  A compose cannot be read (C47). -/
inductive SeqOn (g : Grammar) : List Container → Bytes → Option (Nat × Bytes × Bytes) → Prop
  | done (d : Bytes) : SeqOn g [] d (some (0, [], d))
  | compose (c : Compose) (cs : List Container) (d : Bytes) : SeqOn g (.compose c :: cs) d none
  | short (min : Nat) (max : Option Nat) (c : Content) (cs : List Container) (d : Bytes) (k : Nat)
      (m r : Bytes) (h : RepOn g c max 0 d k m r) (hk : k < min) : SeqOn g (.element min max c :: cs) d none
  | fails (min : Nat) (max : Option Nat) (c : Content) (cs : List Container) (d : Bytes) (k : Nat)
      (m r : Bytes) (h : RepOn g c max 0 d k m r) (hk : min ≤ k) (rest : SeqOn g cs r none) :
      SeqOn g (.element min max c :: cs) d none
  | more (min : Nat) (max : Option Nat) (c : Content) (cs : List Container) (d : Bytes) (k : Nat)
      (m r : Bytes) (k' : Nat) (m' r' : Bytes) (h : RepOn g c max 0 d k m r) (hk : min ≤ k)
      (rest : SeqOn g cs r (some (k', m', r'))) :
      SeqOn g (.element min max c :: cs) d (some (k + k', m ++ m', r'))

/-- The first alternative that reads something. -/
inductive ChoiceOn (g : Grammar) : List GLine → Bytes → Option (Bytes × Bytes) → Prop
  | none (d : Bytes) : ChoiceOn g [] d none
  | here (cs : List Container) (ls : List GLine) (d : Bytes) (k : Nat) (m r : Bytes)
      (h : SeqOn g cs d (some (k + 1, m, r))) : ChoiceOn g (.mk cs :: ls) d (some (m, r))
  | later (cs : List Container) (ls : List GLine) (d : Bytes) (o : Option (Bytes × Bytes))
      (h : SeqOn g cs d .none ∨ ∃ m r, SeqOn g cs d (some (0, m, r))) (rest : ChoiceOn g ls d o) :
      ChoiceOn g (.mk cs :: ls) d o

/-- A part of the alternatives of the root: it refers to no token around it, or is a reference to the
root. -/
def Closed (g : Grammar) : Prop :=
  ∀ l ∈ g.root.lines, ∀ c ∈ l.containers, ∀ min max x, c = .element min max x →
    contentFree x = [] ∨ x = .recursive g.root.name

end Rodkina.Props
