import Verif.AstShippedRun

/-!
# Renaming

Renaming the tokens and values of a grammar, and why the reference interpreter does not see it.
-/

namespace Rodkina.Ast

open Shipped (view)

mutual
/-- Apply `f` to every name of a token and of what is nested in it. -/
def Token.rename (f : String → String) : Token → Token
  | .mk n ls ss => .mk (f n) (linesRename f ls) ss
/-- All lines. -/
def linesRename (f : String → String) : List GLine → List GLine
  | [] => []
  | g :: gs => GLine.rename f g :: linesRename f gs
/-- One line. -/
def GLine.rename (f : String → String) : GLine → GLine
  | .mk cs => .mk (containersRename f cs)
/-- All containers. -/
def containersRename (f : String → String) : List Container → List Container
  | [] => []
  | c :: cs => Container.rename f c :: containersRename f cs
/-- One container. -/
def Container.rename (f : String → String) : Container → Container
  | .element min max c => .element min max (Content.rename f c)
  | .compose c => .compose ⟨f c.name, c.list⟩
/-- One content; external grammars keep their names. -/
def Content.rename (f : String → String) : Content → Content
  | .value n b => .value (f n) b
  | .external n g => .external (f n) g
  | .token t => .token (Token.rename f t)
  | .everything n ex none => .everything (f n) (Token.rename f ex) none
  | .everything n ex (some esc) => .everything (f n) (Token.rename f ex) (some (Token.rename f esc))
  | .recursive n => .recursive (f n)
end

/-- Two matchers see the same bytes and leave the same rest. -/
def SameView (p q : Bytes → Option (Shape × Bytes)) : Prop := ∀ d, (p d).map view = (q d).map view

theorem shapesBytes_eq (cs : List Shape) : shapesBytes cs = (cs.map Shape.bytes).flatten := by
  induction cs with
  | nil => rfl
  | cons c cs ih => simp [shapesBytes, ih]

theorem repeatMatch_same {p q : Bytes → Option (Shape × Bytes)} (h : SameView p q)
    (max : Option Nat) (k n : Nat) (d : Bytes) :
    (repeatMatch p max k n d).1.map Shape.bytes = (repeatMatch q max k n d).1.map Shape.bytes ∧
    (repeatMatch p max k n d).2 = (repeatMatch q max k n d).2 := by
  induction k generalizing n d with
  | zero => exact ⟨rfl, rfl⟩
  | succ k ih =>
    rw [repeatMatch, repeatMatch]
    split
    · exact ⟨rfl, rfl⟩
    · have hd := h d
      cases hp : p d with
      | none =>
        rw [hp] at hd
        cases hq : q d with
        | none => exact ⟨rfl, rfl⟩
        | some y => rw [hq] at hd; simp at hd
      | some x =>
        rw [hp] at hd
        cases hq : q d with
        | none => rw [hq] at hd; simp at hd
        | some y =>
          rw [hq] at hd
          simp only [Option.map_some, Option.some.injEq, view, Prod.mk.injEq] at hd
          have := ih (n + 1) x.2
          simp only [List.map_cons, hd.1, this.1]
          rw [hd.2] at this ⊢
          exact ⟨rfl, this.2⟩

/-- Bytes of the contents and rest. -/
def viewList (x : List Shape × Bytes) : List Bytes × Bytes := (x.1.map Shape.bytes, x.2)

theorem greedy_same {p q : Bytes → Option (Shape × Bytes)} (h : SameView p q) (min : Nat)
    (max : Option Nat) (d : Bytes) :
    (greedy p min max d).map viewList = (greedy q min max d).map viewList := by
  have h1 := repeatMatch_same h max d.length 0 d
  have hl : (repeatMatch p max d.length 0 d).1.length = (repeatMatch q max d.length 0 d).1.length := by
    have := congrArg List.length h1.1
    simpa using this
  unfold greedy
  rw [hl]
  split
  · rfl
  · simp only [Option.map_some, viewList, h1.1, h1.2]

/-- Bytes of the elements, whether there are any, and rest. -/
def viewElems (x : List ShapeElem × Bytes) : Bytes × Bool × Bytes :=
  (shapeElemsBytes x.1, x.1.isEmpty, x.2)

theorem viewElems_cons (n : String) (cs : List Shape) (y : List ShapeElem × Bytes) :
    viewElems (consElem n cs y.1, y.2) =
      (shapesBytes cs ++ (viewElems y).1, cs.isEmpty && (viewElems y).2.1, (viewElems y).2.2) := by
  unfold consElem viewElems
  cases cs with
  | nil => simp [shapesBytes]
  | cons c cs => simp [shapeElemsBytes, ShapeElem.bytes]

theorem byteSeq_rename (f : String → String) (cs : List Container) (d : Bytes) :
    byteSeq (containersRename f cs) d = byteSeq cs d := by
  induction cs generalizing d with
  | nil => rfl
  | cons c cs ih =>
    cases c with
    | compose c => simp [containersRename, Container.rename, byteSeq]
    | element min max ct =>
      cases ct with
      | value n b =>
        simp only [containersRename, Container.rename, Content.rename, byteSeq, ih]
      | external n g => simp [containersRename, Container.rename, Content.rename, byteSeq]
      | token t => simp [containersRename, Container.rename, Content.rename, byteSeq]
      | everything n ex esc =>
        cases esc <;> simp [containersRename, Container.rename, Content.rename, byteSeq]
      | recursive n => simp [containersRename, Container.rename, Content.rename, byteSeq]

theorem everything_same (f : String → String) (ex : Token) :
    SameView (everythingMatch (ex.rename f)) (everythingMatch ex) := by
  intro d
  rcases ex with ⟨n, ls, ss⟩
  cases ls with
  | nil => rfl
  | cons g gs =>
    rcases g with ⟨cs⟩
    have key : ∀ (S S' : Bytes → Bool) (a b : String), S = S' →
        Option.map view (if (textUntil S d).1 = [] then none
          else some (Shape.node a 0 [.mk "" ((textUntil S d).1.map .byte)], (textUntil S d).2)) =
        Option.map view (if (textUntil S' d).1 = [] then none
          else some (Shape.node b 0 [.mk "" ((textUntil S' d).1.map .byte)], (textUntil S' d).2)) := by
      intro S S' a b h
      subst h
      by_cases h : (textUntil S d).1 = []
      · rw [if_pos h, if_pos h]
      · rw [if_neg h, if_neg h]
        simp [view, Shape.bytes, shapeElemsBytes, ShapeElem.bytes]
    exact key (fun x => (byteSeq (containersRename f cs) x).isSome) (fun x => (byteSeq cs x).isSome)
      (f n) n (funext fun x => by rw [byteSeq_rename])

mutual
theorem pegToken_rename (sk : Bytes → Bytes) (f : String → String) : ∀ t : Token,
    SameView (pegToken sk (t.rename f)) (pegToken sk t)
  | .mk n ls ss => by
    intro d
    have h := pegLines_rename sk f ls 0 d
    simp only [Token.rename, pegToken]
    cases hp : pegLines sk 0 (linesRename f ls) d with
    | none =>
      rw [hp] at h
      cases hq : pegLines sk 0 ls d with
      | none => rfl
      | some y => rw [hq] at h; simp at h
    | some x =>
      rw [hp] at h
      cases hq : pegLines sk 0 ls d with
      | none => rw [hq] at h; simp at h
      | some y =>
        rw [hq] at h
        simp only [Option.map_some, Option.some.injEq, Prod.mk.injEq, viewElems] at h
        simp only [Option.map_some, view, Shape.bytes, h.2.1, h.2.2.2]
theorem pegLines_rename (sk : Bytes → Bytes) (f : String → String) : ∀ (gs : List GLine) (i : Nat)
    (d : Bytes), (pegLines sk i (linesRename f gs) d).map (fun x => (x.1, viewElems x.2)) =
      (pegLines sk i gs d).map (fun x => (x.1, viewElems x.2))
  | [], i, d => rfl
  | g :: gs, i, d => by
    have h := pegLine_rename sk f g d
    have ih := pegLines_rename sk f gs (i + 1) d
    simp only [linesRename, pegLines]
    cases hp : pegLine sk (g.rename f) d with
    | none =>
      rw [hp] at h
      cases hq : pegLine sk g d with
      | none => simpa using ih
      | some y => rw [hq] at h; simp at h
    | some x =>
      rw [hp] at h
      cases hq : pegLine sk g d with
      | none => rw [hq] at h; simp at h
      | some y =>
        rw [hq] at h
        simp only [Option.map_some, Option.some.injEq] at h
        simp [h]
theorem pegLine_rename (sk : Bytes → Bytes) (f : String → String) : ∀ (g : GLine) (d : Bytes),
    (pegLine sk (g.rename f) d).map viewElems = (pegLine sk g d).map viewElems
  | .mk cs, d => by
    have h := pegSeq_rename sk f cs d
    simp only [GLine.rename, pegLine]
    cases hp : pegSeq sk (containersRename f cs) d with
    | none =>
      rw [hp] at h
      cases hq : pegSeq sk cs d with
      | none => rfl
      | some y => rw [hq] at h; simp at h
    | some x =>
      rw [hp] at h
      cases hq : pegSeq sk cs d with
      | none => rw [hq] at h; simp at h
      | some y =>
        rw [hq] at h
        simp only [Option.map_some, Option.some.injEq] at h
        have he : x.1.isEmpty = y.1.isEmpty := by
          have := congrArg (fun z => z.2.1) h
          simpa [viewElems] using this
        simp only [Option.bind_some, he]
        split
        · rfl
        · simp [h]
theorem pegSeq_rename (sk : Bytes → Bytes) (f : String → String) : ∀ (cs : List Container)
    (d : Bytes), (pegSeq sk (containersRename f cs) d).map viewElems =
      (pegSeq sk cs d).map viewElems
  | [], d => rfl
  | c :: cs, d => by
    have h := pegContainer_rename sk f c d
    simp only [containersRename, pegSeq]
    cases hp : pegContainer sk (c.rename f) d with
    | none =>
      rw [hp] at h
      cases hq : pegContainer sk c d with
      | none => rfl
      | some y => rw [hq] at h; simp at h
    | some x =>
      rw [hp] at h
      cases hq : pegContainer sk c d with
      | none => rw [hq] at h; simp at h
      | some y =>
        rw [hq] at h
        simp only [Option.map_some, Option.some.injEq, viewList, Prod.mk.injEq] at h
        have ih := pegSeq_rename sk f cs y.2
        simp only [Option.bind_some, h.2]
        have hb : shapesBytes x.1 = shapesBytes y.1 := by
          rw [shapesBytes_eq, shapesBytes_eq, h.1]
        have he : x.1.isEmpty = y.1.isEmpty := by
          have := congrArg List.isEmpty h.1
          simpa using this
        cases hp' : pegSeq sk (containersRename f cs) y.2 with
        | none =>
          rw [hp'] at ih
          cases hq' : pegSeq sk cs y.2 with
          | none => rfl
          | some z => rw [hq'] at ih; simp at ih
        | some w =>
          rw [hp'] at ih
          cases hq' : pegSeq sk cs y.2 with
          | none => rw [hq'] at ih; simp at ih
          | some z =>
            rw [hq'] at ih
            simp only [Option.map_some, Option.some.injEq] at ih
            simp only [Option.map_some, viewElems_cons, hb, he, ih]
theorem pegContainer_rename (sk : Bytes → Bytes) (f : String → String) : ∀ (c : Container)
    (d : Bytes), (pegContainer sk (c.rename f) d).map viewList = (pegContainer sk c d).map viewList
  | .element min max c, d => by
    simp only [Container.rename, pegContainer]
    exact greedy_same (pegContent_rename sk f c) min max d
  | .compose c, d => rfl
theorem pegContent_rename (sk : Bytes → Bytes) (f : String → String) : ∀ c : Content,
    SameView (pegContent sk (c.rename f)) (pegContent sk c)
  | .value n b => fun d => rfl
  | .external n g => fun d => rfl
  | .token t => by
    intro d
    simp only [Content.rename, pegContent]
    exact pegToken_rename sk f t d
  | .everything n ex none => by
    intro d
    simp only [Content.rename, pegContent]
    exact everything_same f ex d
  | .everything n ex (some esc) => by
    intro d
    simp only [Content.rename, pegContent]
    exact everything_same f ex d
  | .recursive n => fun d => rfl
end

end Rodkina.Ast
