import Verif.CoverageSpec
import Verif.AstBare

/-!
# Specification: grammars that differ in their suites only

`Like P` relates two grammars that are the same but for the suites of their tokens, which are related by `P` at every place: any two
lists, or the same suites in another order.
-/

namespace Rodkina.Ast

mutual
/-- The same token but for suites, at any depth. -/
def Token.Like (P : List Suite → List Suite → Prop) : Token → Token → Prop
  | .mk n ls ss, .mk n' ls' ss' => n = n' ∧ linesLike P ls ls' ∧ P ss ss'
/-- All lines. -/
def linesLike (P : List Suite → List Suite → Prop) : List GLine → List GLine → Prop
  | [], [] => True
  | g :: gs, g' :: gs' => GLine.Like P g g' ∧ linesLike P gs gs'
  | _, _ => False
/-- One line. -/
def GLine.Like (P : List Suite → List Suite → Prop) : GLine → GLine → Prop
  | .mk cs, .mk cs' => containersLike P cs cs'
/-- All containers. -/
def containersLike (P : List Suite → List Suite → Prop) : List Container → List Container → Prop
  | [], [] => True
  | c :: cs, c' :: cs' => Container.Like P c c' ∧ containersLike P cs cs'
  | _, _ => False
/-- One container. -/
def Container.Like (P : List Suite → List Suite → Prop) : Container → Container → Prop
  | .element min max c, .element min' max' c' => min = min' ∧ max = max' ∧ Content.Like P c c'
  | .compose c, .compose c' => c = c'
  | _, _ => False
/-- One content. -/
def Content.Like (P : List Suite → List Suite → Prop) : Content → Content → Prop
  | .value n b, .value n' b' => n = n' ∧ b = b'
  | .external n g, .external n' g' => n = n' ∧ Grammar.Like P g g'
  | .token t, .token t' => Token.Like P t t'
  | .everything n ex esc, .everything n' ex' esc' => n = n' ∧ Token.Like P ex ex' ∧ optionLike P esc esc'
  | .recursive n, .recursive n' => n = n'
  | _, _ => False
/-- An escape token or a condition. -/
def optionLike (P : List Suite → List Suite → Prop) : Option Token → Option Token → Prop
  | none, none => True
  | some t, some t' => Token.Like P t t'
  | _, _ => False
/-- The same grammar but for suites. -/
def Grammar.Like (P : List Suite → List Suite → Prop) : Grammar → Grammar → Prop
  | .mk root chs, .mk root' chs' => Token.Like P root root' ∧ channelsLike P chs chs'
/-- All channels. -/
def channelsLike (P : List Suite → List Suite → Prop) : List Channel → List Channel → Prop
  | [], [] => True
  | c :: cs, c' :: cs' => Channel.Like P c c' ∧ channelsLike P cs cs'
  | _, _ => False
/-- One channel. -/
def Channel.Like (P : List Suite → List Suite → Prop) : Channel → Channel → Prop
  | .mk t p n, .mk t' p' n' => Token.Like P t t' ∧ optionLike P p p' ∧ optionLike P n n'
end

/-- The same grammar, whatever the suites. -/
def Grammar.SameButSuites : Grammar → Grammar → Prop := Grammar.Like (fun _ _ => True)

/-- The same grammar with the same suites, each token's in some order. -/
def Grammar.Reordered : Grammar → Grammar → Prop := Grammar.Like List.Perm

/-- What a record of a test says, suites inside the tree left aside. -/
def Execution.view (e : Execution) : Suite × Option Tree := (e.expectation, e.result.map Tree.bare)

/-- Records of the same tests of the same token, in some order. -/
def SameTests (c c' : Coverage) : Prop :=
  c.token.Like List.Perm c'.token ∧ (c.executions.map Execution.view).Perm (c'.executions.map Execution.view)

end Rodkina.Ast
