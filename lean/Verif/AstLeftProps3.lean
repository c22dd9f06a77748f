import Verif.AstLeftPeg
import Verif.AstProps2

/-!
# One left-recursive alternative in front reads one more, never two (C157)

What one expects of `E: E tail | base` is a `base` followed by as many `tail` as there are.  What the parser reads is a `base` followed by
at most one `tail`, whatever `base` and `tail` are.
-/

namespace Rodkina.Props

open Rodkina.Ast Rodkina.Ast.Shipped

/-- **C157.**  For every rule `name: name tail | base…` whose other parts have no reference by name, external grammar or escape, with every
input: the parser returns a tree exactly when one of the alternatives `base` matches; when `tail` matches after it, the tree is of the first
alternative, holds the tree of `base` and the elements of `tail`, and nothing more is read; else the tree is that of `base`. -/
theorem C157_once_more (name : String) (tail : List Container) (base : List GLine) (chs : List Channel) (N : Nat) (hb0 : base ≠ [])
    (hb : PegLines [name] base) (ht : PegConts [name] tail) (hsn : sameNames (selfRef name :: tail)) (hc : ∀ c ∈ chs, PegChannel N c)
    (input : Bytes) :
    (pegLines (skipAll chs) 1 base input = none → Rejects (.mk (leftTok name tail base) chs) input) ∧
    ∀ i es rest, pegLines (skipAll chs) 1 base input = some (i, es, rest) →
      (∀ es' rest', pegSeq (skipAll chs) tail (skipAll chs rest) = some (es', rest') →
        ∃ t, Parses (.mk (leftTok name tail base) chs) input (.ok t) ∧ t.isSuccessful = true ∧
          t.shape = .node name 0 (.mk name [.node name i es] :: es') ∧ t.remaining = skipAll chs rest') ∧
      (pegSeq (skipAll chs) tail (skipAll chs rest) = none →
        ∃ t, Parses (.mk (leftTok name tail base) chs) input (.ok t) ∧ t.isSuccessful = true ∧
          t.shape = .node name i es ∧ t.remaining = skipAll chs rest) := by
  have h := left_execute (fun m hm => skipIs_channels hc hm) hb0 hb ht hsn input
  unfold onceMore at h
  refine ⟨?_, ?_⟩
  · intro hp
    rw [hp] at h
    exact h
  · intro i es rest hp
    rw [hp] at h
    simp only [Option.map_some] at h
    constructor
    · intro es' rest' hq
      rw [hq] at h
      exact h
    · intro hq
      rw [hq] at h
      exact h

/-- The alternative of a tree. -/
def altOf : Shape → Nat
  | .byte _ => 0
  | .node _ i _ => i

/-- The trees directly under the first element. -/
def underFirst : Shape → List Shape
  | .node _ _ (.mk _ cs :: _) => cs
  | _ => []

/-- **C157, no nesting.**  In the tree of such a rule the rule is applied to itself at most once: below the first alternative there is never
another one. -/
theorem C157_never_twice (name : String) (tail : List Container) (base : List GLine) (chs : List Channel) (N : Nat) (hb0 : base ≠ [])
    (hb : PegLines [name] base) (ht : PegConts [name] tail) (hsn : sameNames (selfRef name :: tail)) (hc : ∀ c ∈ chs, PegChannel N c)
    (input : Bytes) (t : Tree) (h : Parses (.mk (leftTok name tail base) chs) input (.ok t)) (hs : t.isSuccessful = true)
    (h0 : altOf t.shape = 0) : ∃ i es es', 1 ≤ i ∧ t.shape = .node name 0 (.mk name [.node name i es] :: es') ∧
      underFirst t.shape = [.node name i es] := by
  have ha := left_execute (fun m hm => skipIs_channels hc hm) hb0 hb ht hsn input
  obtain ⟨x, h1, h2, _⟩ := Agrees.ok ha h hs
  unfold onceMore at h1
  cases hp : pegLines (skipAll chs) 1 base input with
  | none => simp [hp] at h1
  | some y =>
    obtain ⟨k, gl, hk, _⟩ := pegLines_first _ _ _ _ _ hp
    rw [hp] at h1
    simp only [Option.map_some, Option.some.injEq] at h1
    cases hq : pegSeq (skipAll chs) tail (skipAll chs y.2.2) with
    | none =>
      rw [hq] at h1
      rw [h2, ← h1] at h0
      simp only [altOf] at h0
      omega
    | some z =>
      rw [hq] at h1
      rw [h2, ← h1]
      exact ⟨y.1, y.2.1, z.1, by omega, rfl, rfl⟩

/-- A number made of ones (libs/asts/domain/grammars/token.go:3-56). -/
def onesTok : Token := .mk "N" [.mk [.element 1 none (.value "1" 49)]] []

/-- A blank (libs/asts/domain/grammars/channel.go:3-46). -/
def blankCh : Channel := .mk (.mk "blank" [.mk [byteC 32]] []) none none

/-- `E: E '+' N | N` with blanks (libs/asts/domain/grammars/grammar.go:3-46). -/
def plusOnes : Grammar :=
  .mk (leftTok "E" [byteC 43, .element 1 (some 1) (.token onesTok)] [.mk [.element 1 (some 1) (.token onesTok)]]) [blankCh]

theorem plusOnes_channels : ∀ c ∈ [blankCh], PegChannel 2 c := by
  intro c hc
  simp at hc
  subst hc
  refine ⟨rfl, rfl, ?_, ?_, ?_⟩
  · simp [blankCh, Channel.token, PegTok, PegLines, PegLine, PegConts, PegCont, PegContent, byteC, sameNames, Container.min]
  · simp [blankCh, Channel.token, TokOK, Token.All, linesAll, GLine.All, lineAllowed, containerAllowed, byteC, GLine.containers,
      containersAll, Container.All, Content.All]
  · decide

theorem plusOnes_base : PegLines ["E"] [.mk [.element 1 (some 1) (.token onesTok)]] := by
  simp [onesTok, PegTok, PegLines, PegLine, PegConts, PegCont, PegContent, sameNames, Container.min]

theorem plusOnes_tail : PegConts ["E"] [byteC 43, .element 1 (some 1) (.token onesTok)] := by
  simp [onesTok, byteC, PegTok, PegLines, PegLine, PegConts, PegCont, PegContent, sameNames, Container.min]

theorem plusOnes_names : sameNames (selfRef "E" :: [byteC 43, .element 1 (some 1) (.token onesTok)]) := by
  simp [sameNames, byteC, Container.min]

/-- `11 + 1 + 1`: two numbers are read, `+ 1` is left. -/
example : Succeeds plusOnes [49, 49, 32, 43, 32, 49, 32, 43, 32, 49] [49, 49, 43, 49] [43, 32, 49] := by
  have h := Agrees.view (left_execute (fun m hm => skipIs_channels plusOnes_channels hm) (by simp) plusOnes_base plusOnes_tail plusOnes_names
    [49, 49, 32, 43, 32, 49, 32, 43, 32, 49])
  have he : (onceMore (skipAll [blankCh]) "E" [byteC 43, .element 1 (some 1) (.token onesTok)]
      [.mk [.element 1 (some 1) (.token onesTok)]] [49, 49, 32, 43, 32, 49, 32, 43, 32, 49]).map view
      = some ([49, 49, 43, 49], [43, 32, 49]) := by decide +kernel
  rw [he] at h
  exact h

/-- `+` is refused. -/
example : Rejects plusOnes [43] :=
  (C157_once_more "E" _ _ _ 2 (by simp) plusOnes_base plusOnes_tail plusOnes_names plusOnes_channels [43]).1
    (Option.isNone_iff_eq_none.mp (by decide +kernel))

/-- `1+1`: the first alternative, with a tree of the second one below it. -/
example : ∃ t, Parses plusOnes [49, 43, 49] (.ok t) ∧ t.isSuccessful = true ∧ altOf t.shape = 0 ∧
    ∃ i es es', 1 ≤ i ∧ t.shape = .node "E" 0 (.mk "E" [.node "E" i es] :: es') ∧ underFirst t.shape = [.node "E" i es] := by
  have ha := left_execute (fun m hm => skipIs_channels plusOnes_channels hm) (by simp) plusOnes_base plusOnes_tail plusOnes_names
    [49, 43, 49]
  have he : (onceMore (skipAll [blankCh]) "E" [byteC 43, .element 1 (some 1) (.token onesTok)]
      [.mk [.element 1 (some 1) (.token onesTok)]] [49, 43, 49]).map (fun x => altOf x.1) = some 0 := by decide +kernel
  obtain ⟨x, hx, h0⟩ := Option.map_eq_some_iff.mp he
  rw [hx] at ha
  obtain ⟨t, h1, h2, h3, _⟩ := ha
  have h0' : altOf t.shape = 0 := by rw [h3]; exact h0
  exact ⟨t, h1, h2, h0', C157_never_twice "E" _ _ _ 2 (by simp) plusOnes_base plusOnes_tail plusOnes_names plusOnes_channels _ t h1 h2 h0'⟩

end Rodkina.Props
