import Verif.AstRec3
import Verif.AstRefProps

/-!
# Ordered choice and nested text with references by name (C44, C126)
-/

namespace Rodkina.Props

open Rodkina.Ast

/-! ## C44: ordered choice, with references by name -/

/-- The meaning of the root: its name stands for `self` inside it. -/
def rootLap (g : Grammar) (self : Matcher Shape) : Matcher Shape :=
  tokenOf (rootMode g) g.root.name
    (recLines (rootMode g) (Env.empty.set g.root.name self) g.root.lines)

/-- **C44 (the part that holds), with references by name.** For every grammar of the class `RecGrammar`
(a reference comes after something that must occur, is not repeated, and is the only one on the way back
to its token): every outcome is that of the reference interpreter, in which a reference simply stands for
the token of that name and a token takes the first of its alternatives that matches.  The interpretation
of the root is the only one that solves this equation.  Spelled out for the root: the recorded alternative
matches, and every earlier one matches nothing or fails. -/
theorem C44_recursive_choice_partial (g : Grammar) (hg : RecGrammar g) (input : Bytes) :
    AgreesR g input (recGrammar g [] input) ∧
    (∀ p d, recGrammar g p d = rootLap g (recGrammar g) p d) ∧
    (∀ self : Matcher Shape, (∀ p d, self p d = rootLap g self p d) →
      AgreesR g input (self [] input)) ∧
    ∀ t, Parses g input (.ok t) → t.isSuccessful = true →
      ∃ i gl es rest, t.shape = .node g.root.name i es ∧
        t.remaining = (rootMode g).skip [] rest ∧ g.root.lines[i]? = some gl ∧
        recLine (rootMode g) (Env.empty.set g.root.name (recGrammar g)) gl [] input
          = .found (es, rest) ∧
        ∀ j gj, j < i → g.root.lines[j]? = some gj →
          (recLine (rootMode g) (Env.empty.set g.root.name (recGrammar g)) gj [] input).strict
            = .refused := by
  have ha := rec_execute g hg input
  rcases g with ⟨⟨name, ls, ss⟩, chs⟩
  obtain ⟨hchs, toks, hnd, ht⟩ := hg
  have hcl := linTok_root ht
  have hfix : ∀ p d, recGrammar (.mk (.mk name ls ss) chs) p d
      = rootLap (.mk (.mk name ls ss) chs) (recGrammar (.mk (.mk name ls ss) chs)) p d := by
    intro p d
    have := recToken_fix hnd (rec_ctx hchs) rfl (env := Env.empty) ht hcl p d
    rw [recGrammar]
    exact this
  refine ⟨ha, hfix, ?_, ?_⟩
  · intro self hself
    obtain ⟨n, hn⟩ := linRun_fix hnd (rec_ctx hchs) rfl (env := Env.empty) ht hcl (self := self)
      (fun p d => hself p d) input.length
    exact (hn n (Nat.le_refl _) [] input [] (aged_nil _ _ _) (Nat.le_refl _)
      (by rw [hcl]; simp)).agrees
  · intro t hp hs
    obtain ⟨x, hx, _⟩ := (ha.ok_iff t.remaining).mp ⟨t, hp, hs, rfl⟩
    rw [hx] at ha
    obtain ⟨u, g1, _, g3, g4⟩ := ha
    have := hp.unique g1
    injection this with this
    subst this
    rw [hfix] at hx
    generalize recGrammar (.mk (.mk name ls ss) chs) = self at hx ⊢
    unfold rootLap tokenOf at hx
    have hrev : (rootMode (.mk (.mk name ls ss) chs)).reverse = false := rfl
    simp only [hrev, Bool.false_eq_true, if_false, Grammar.root, Token.name, Token.lines] at hx ⊢
    cases hf : firstOf (recLines (rootMode (.mk (.mk name ls ss) chs)) (Env.empty.set name self) ls)
        0 [] input with
    | blank => rw [hf] at hx; simp [Ans.map] at hx
    | refused => rw [hf] at hx; simp [Ans.map] at hx
    | crash => rw [hf] at hx; simp [Ans.map] at hx
    | found y =>
      rw [hf] at hx
      simp only [Ans.map, Ans.found.injEq] at hx
      obtain ⟨k, f, h1, h2, h3, h4⟩ := firstOf_found _ _ _ _ _ hf
      rw [recLines_map, List.getElem?_map] at h2
      cases hl : ls[k]? with
      | none => rw [hl] at h2; simp at h2
      | some gl =>
        rw [hl] at h2
        simp only [Option.map_some, Option.some.injEq] at h2
        subst h2
        rw [Nat.zero_add] at h1
        refine ⟨k, gl, y.1.2, y.2, ?_, ?_, hl, h3, ?_⟩
        · rw [g3, ← hx, h1]
        · rw [g4, ← hx]
        · intro j gj hj hgj
          have := h4 j (recLine (rootMode (.mk (.mk name ls ss) chs)) (Env.empty.set name self) gj)
            hj (by rw [recLines_map, List.getElem?_map, hgj]; rfl)
          rcases this with h | h <;> rw [h] <;> rfl

/-! ## C126: nested text -/

/-- `T: open T close | x`. -/
def brackets (o x c : UInt8) : Grammar :=
  .mk (.mk "T" [.mk [byteC o, .element 1 (some 1) (.recursive "T"), byteC c],
    .mk [byteC x]] []) []

/-- `T: B | x`, `B: open T close`: the reference is in another token. -/
def bracketsApart (o x c : UInt8) : Grammar :=
  .mk (.mk "T" [.mk [.element 1 (some 1) (.token
    (.mk "B" [.mk [byteC o, .element 1 (some 1) (.recursive "T"), byteC c]] []))],
    .mk [byteC x]] []) []

theorem recGrammar_brackets (o x c : UInt8) : RecGrammar (brackets o x c) := by
  refine ⟨trivial, [(brackets o x c).root], by simp, ?_⟩
  simp [brackets, Grammar.root, LinTok, LinLines, LinLine, LinConts, LinCont, LinContent, byteC,
    tokenFree, linesFree, lineFree, contsFree, contFree, contentFree, oneOpen, guardedFrom,
    Container.isRecursive, Container.mustOccur, sameNames, Container.name, Content.name,
    Container.min]

example (input : Bytes) : AgreesR (brackets 40 120 41) input (recGrammar (brackets 40 120 41) [] input) :=
  (C44_recursive_choice_partial _ (recGrammar_brackets 40 120 41) input).1

theorem recGrammar_bracketsApart (o x c : UInt8) : RecGrammar (bracketsApart o x c) := by
  refine ⟨trivial, [(bracketsApart o x c).root,
    .mk "B" [.mk [byteC o, .element 1 (some 1) (.recursive "T"), byteC c]] []],
    by simp [bracketsApart, Grammar.root, Token.name], ?_⟩
  simp [bracketsApart, Grammar.root, LinTok, LinLines, LinLine, LinConts, LinCont, LinContent, byteC,
    tokenFree, linesFree, lineFree, contsFree, contFree, contentFree, oneOpen, guardedFrom,
    Container.isRecursive, Container.mustOccur, sameNames, Container.name, Content.name,
    Container.min, linesRefs, lineRefs, contsRefs, contRefs, contentRefs, tokenRefs]

theorem rootMode_plain (t : Token) : rootMode (.mk t []) = Mode.plain := by
  unfold rootMode Mode.plain
  congr 1
  funext p d
  simp [Grammar.channels, refChannels, channelsSkip, channelsOnce]

theorem timesOf_once {α : Type} (f : Matcher α) (p d : Bytes) :
    timesOf f 1 (some 1) p d
      = if d = [] then .refused else match f p d with
        | .found y => .found ([y.1], d, y.2)
        | .crash => .crash
        | _ => .refused := by
  cases d with
  | nil => simp [timesOf, manyOf, Ans.bind]
  | cons b r =>
    have h1 : ∀ k (p d : Bytes), manyOf f (some 1) k 1 p d = .found ([], p, d) := by
      intro k p d
      cases k <;> simp [manyOf]
    simp only [timesOf, List.length_cons, manyOf]
    cases hf : f p (b :: r) <;> simp [h1, Ans.map, Ans.bind]

/-- What a bracketed text is in terms of what is between the brackets. -/
def between (o c : UInt8) (self : Matcher Shape) : Matcher (List ShapeElem) := fun p d =>
  match d with
  | b :: b2 :: r =>
    if b = o then
      match (self (b :: b2 :: r) (b2 :: r)).strict with
      | .found (s, b3 :: r3) =>
        if b3 = c then .found ([.mk "byte" [.byte o], .mk "T" [s], .mk "byte" [.byte c]], r3)
        else .refused
      | .crash => .crash
      | _ => .refused
    else .refused
  | _ => .refused

theorem recLine_between (o c : UInt8) (self : Matcher Shape) (env : Env) (henv : env "T" = self)
    (p d : Bytes) :
    recLine Mode.plain env (.mk [byteC o, .element 1 (some 1) (.recursive "T"), byteC c]) p d
      = between o c self p d := by
  cases d with
  | nil => simp [recLine, recSeq, recContainer, timesOf_once, byteC, between, Ans.bind]
  | cons b d =>
    cases d with
    | nil =>
      by_cases hb : o = b <;>
      simp [recLine, recSeq, recContainer, timesOf_once, byteC, between, Ans.bind, recContent,
        refContent, oneByte, Mode.plain, hb, Ans.map]
    | cons b2 r =>
      by_cases hb : o = b
      · subst hb
        cases hs : self (o :: b2 :: r) (b2 :: r) with
        | found y =>
          obtain ⟨s, y⟩ := y
          cases y with
          | nil =>
            simp [recLine, recSeq, recContainer, timesOf_once, byteC, between, Ans.bind, recContent,
              refContent, oneByte, Mode.plain, Ans.map, henv, hs, Ans.strict]
          | cons b3 r3 =>
            by_cases hc : c = b3
            · subst hc
              simp [recLine, recSeq, recContainer, timesOf_once, byteC, between, Ans.bind,
                recContent, refContent, oneByte, Mode.plain, Ans.map, henv, hs, Ans.strict, consElem,
                Container.name, Content.name]
            · have hc' : b3 ≠ c := fun e => hc e.symm
              simp [recLine, recSeq, recContainer, timesOf_once, byteC, between, Ans.bind,
                recContent, refContent, oneByte, Mode.plain, Ans.map, henv, hs, Ans.strict, hc, hc']
        | blank =>
          simp [recLine, recSeq, recContainer, timesOf_once, byteC, between, Ans.bind, recContent,
            refContent, oneByte, Mode.plain, Ans.map, henv, hs, Ans.strict]
        | refused =>
          simp [recLine, recSeq, recContainer, timesOf_once, byteC, between, Ans.bind, recContent,
            refContent, oneByte, Mode.plain, Ans.map, henv, hs, Ans.strict]
        | crash =>
          simp [recLine, recSeq, recContainer, timesOf_once, byteC, between, Ans.bind, recContent,
            refContent, oneByte, Mode.plain, Ans.map, henv, hs, Ans.strict]
      · have hb' : b ≠ o := fun e => hb e.symm
        simp [recLine, recSeq, recContainer, timesOf_once, byteC, between, Ans.bind, recContent,
          refContent, oneByte, Mode.plain, hb, hb', Ans.map]

theorem recLine_byte (x : UInt8) (env : Env) (p d : Bytes) :
    recLine Mode.plain env (.mk [byteC x]) p d
      = match d with
        | [] => .refused
        | b :: r => if b = x then .found ([.mk "byte" [.byte x]], r) else .refused := by
  cases d with
  | nil => simp [recLine, recSeq, recContainer, timesOf_once, byteC, Ans.bind]
  | cons b r =>
    by_cases hb : x = b
    · subst hb
      simp [recLine, recSeq, recContainer, timesOf_once, byteC, Ans.bind, recContent,
        refContent, oneByte, Mode.plain, Ans.map, consElem, Container.name, Content.name]
    · have hb' : b ≠ x := fun e => hb e.symm
      simp [recLine, recSeq, recContainer, timesOf_once, byteC, Ans.bind, recContent,
        refContent, oneByte, Mode.plain, hb, hb', Ans.map]

/-- What a text in brackets, or the inner byte alone, is in terms of itself. -/
def nestLap (o x c : UInt8) (wrap : List ShapeElem → Shape) (self : Matcher Shape) : Matcher Shape :=
  fun p d =>
    match between o c self p d with
    | .found y => .found (wrap y.1, y.2)
    | .crash => .crash
    | _ =>
      match d with
      | [] => .refused
      | b :: r => if b = x then .found (.node "T" 1 [.mk "byte" [.byte x]], r) else .refused

theorem between_not_blank (o c : UInt8) (self : Matcher Shape) (p d : Bytes) :
    between o c self p d ≠ .blank := by
  unfold between
  split
  · split
    · split
      · split <;> simp
      · simp
      · simp
    · simp
  · simp

theorem rootLap_brackets (o x c : UInt8) (self : Matcher Shape) (p d : Bytes) :
    rootLap (brackets o x c) self p d = nestLap o x c (.node "T" 0) self p d := by
  unfold rootLap
  rw [show rootMode (brackets o x c) = Mode.plain from rootMode_plain _]
  simp only [brackets, Grammar.root, Token.name, Token.lines, tokenOf, Mode.plain,
    Bool.false_eq_true, if_false, recLines, firstOf]
  rw [show (⟨none, fun _ d => d, false⟩ : Mode) = Mode.plain from rfl,
    recLine_between o c self _ (by simp [Env.set]), recLine_byte]
  unfold nestLap
  have := between_not_blank o c self p d
  cases hb : between o c self p d with
  | found y => rfl
  | blank => exact absurd hb this
  | crash => rfl
  | refused =>
    cases d with
    | nil => rfl
    | cons b r => by_cases h : b = x <;> simp [h, Ans.map]

theorem rootLap_bracketsApart (o x c : UInt8) (self : Matcher Shape) (p d : Bytes) :
    rootLap (bracketsApart o x c) self p d
      = nestLap o x c (fun es => .node "T" 0 [.mk "B" [.node "B" 0 es]]) self p d := by
  unfold rootLap
  rw [show rootMode (bracketsApart o x c) = Mode.plain from rootMode_plain _]
  have hB : ∀ env : Env, env "T" = self → ∀ p d, recToken Mode.plain env
      (.mk "B" [.mk [byteC o, .element 1 (some 1) (.recursive "T"), byteC c]] []) p d
      = (between o c self p d).map (fun y => (.node "B" 0 y.1, y.2)) := by
    intro env henv p d
    simp only [recToken, knot, tokenOf, Mode.plain, Bool.false_eq_true, if_false, recLines, firstOf]
    rw [show (⟨none, fun _ d => d, false⟩ : Mode) = Mode.plain from rfl,
      recLine_between o c self _ (by simpa [Env.set] using henv)]
    have := between_not_blank o c self p d
    cases hb : between o c self p d with
    | found y => rfl
    | blank => exact absurd hb this
    | crash => rfl
    | refused => rfl
  simp only [bracketsApart, Grammar.root, Token.name, Token.lines, tokenOf, Mode.plain,
    Bool.false_eq_true, if_false, recLines, firstOf]
  rw [show (⟨none, fun _ d => d, false⟩ : Mode) = Mode.plain from rfl, recLine_byte]
  have hl : recLine Mode.plain (Env.empty.set "T" self) (.mk [.element 1 (some 1) (.token
      (.mk "B" [.mk [byteC o, .element 1 (some 1) (.recursive "T"), byteC c]] []))]) p d
      = (between o c self p d).map (fun y => ([.mk "B" [.node "B" 0 y.1]], y.2)) := by
    simp only [recLine, recSeq, recContainer, timesOf_once, recContent]
    rw [hB _ (by simp [Env.set])]
    have := between_not_blank o c self p d
    cases d with
    | nil => simp [between, Ans.map, Ans.bind]
    | cons b r =>
      cases hb : between o c self p (b :: r) with
      | found y => simp [Ans.map, Ans.bind, Ans.strict, consElem, Container.name, Content.name,
          Token.name]
      | blank => exact absurd hb this
      | crash => simp [Ans.map, Ans.bind, Ans.strict]
      | refused => simp [Ans.map, Ans.bind, Ans.strict]
  rw [hl]
  unfold nestLap
  have := between_not_blank o c self p d
  cases hb : between o c self p d with
  | found y => rfl
  | blank => exact absurd hb this
  | crash => rfl
  | refused =>
    cases d with
    | nil => rfl
    | cons b r => by_cases h : b = x <;> simp [h, Ans.map]

/-- `n` opening bytes, the inner byte, `n` closing bytes. -/
def nestedText (o x c : UInt8) (n : Nat) : Bytes :=
  List.replicate n o ++ x :: List.replicate n c

theorem nestedText_succ (o x c : UInt8) (n : Nat) (rest : Bytes) :
    nestedText o x c (n + 1) ++ rest = o :: (nestedText o x c n ++ c :: rest) := by
  simp only [nestedText, List.replicate_succ, List.cons_append, List.append_assoc, List.cons.injEq,
    true_and]
  congr 2
  rw [← List.cons_append, ← List.replicate_succ, List.replicate_succ', List.append_assoc]
  rfl

theorem nestLap_accepts {o x c : UInt8} {wrap : List ShapeElem → Shape} (hox : o ≠ x)
    (hw : ∀ es, (wrap es).bytes = shapeElemsBytes es) {self : Matcher Shape}
    (hs : ∀ p d, self p d = nestLap o x c wrap self p d) (n : Nat) :
    ∀ p rest, ∃ s, self p (nestedText o x c n ++ rest) = .found (s, rest) ∧
      s.bytes = nestedText o x c n := by
  induction n with
  | zero =>
    intro p rest
    refine ⟨.node "T" 1 [.mk "byte" [.byte x]], ?_, ?_⟩
    · rw [hs]
      have : x ≠ o := fun e => hox e.symm
      cases rest <;> simp [nestedText, nestLap, between, this]
    · simp [nestedText, Shape.bytes, shapeElemsBytes, ShapeElem.bytes, shapesBytes]
  | succ n ih =>
    intro p rest
    rw [nestedText_succ]
    obtain ⟨s, h1, h2⟩ := ih (o :: (nestedText o x c n ++ c :: rest)) (c :: rest)
    refine ⟨wrap [.mk "byte" [.byte o], .mk "T" [s], .mk "byte" [.byte c]], ?_, ?_⟩
    · rw [hs]
      unfold nestLap between
      cases hd : nestedText o x c n ++ c :: rest with
      | nil => cases n <;> simp [nestedText] at hd
      | cons b2 r =>
        rw [hd] at h1
        simp [h1, Ans.strict]
    · rw [hw]
      simp only [shapeElemsBytes, ShapeElem.bytes, shapesBytes, Shape.bytes, h2]
      have := nestedText_succ o x c n []
      simp only [List.append_nil] at this
      rw [this]
      simp

theorem nestLap_only {o x c : UInt8} {wrap : List ShapeElem → Shape} {self : Matcher Shape}
    (hs : ∀ p d, self p d = nestLap o x c wrap self p d) (k : Nat) :
    ∀ p d, d.length ≤ k → self p d = .refused ∨
      ∃ s n rest, self p d = .found (s, rest) ∧ d = nestedText o x c n ++ rest := by
  induction k with
  | zero =>
    intro p d hd
    left
    cases d with
    | nil => rw [hs]; simp [nestLap, between]
    | cons b r => simp at hd
  | succ k ih =>
    intro p d hd
    rw [hs]
    have hsingle : ∀ b r, d = b :: r → between o c self p d = .refused →
        nestLap o x c wrap self p d = .refused ∨ ∃ s n rest,
          nestLap o x c wrap self p d = .found (s, rest) ∧ d = nestedText o x c n ++ rest := by
      intro b r he hb
      subst he
      by_cases hx : b = x
      · subst hx
        exact .inr ⟨_, 0, r, by simp [nestLap, hb]; rfl, by simp [nestedText]⟩
      · left; simp [nestLap, hb, hx]
    match d, hd with
    | [], _ => left; simp [nestLap, between]
    | [b], _ => exact hsingle b [] rfl (by simp [between])
    | b :: b2 :: r, hd =>
      by_cases hb : b = o
      · subst hb
        rcases ih (b :: b2 :: r) (b2 :: r) (by simp at hd ⊢; omega) with h | ⟨s, n, rest, h, he⟩
        · exact hsingle b (b2 :: r) rfl (by simp [between, h, Ans.strict])
        · cases rest with
          | nil => exact hsingle b (b2 :: r) rfl (by simp [between, h, Ans.strict])
          | cons b3 r3 =>
            by_cases hc : b3 = c
            · subst hc
              refine .inr ⟨_, n + 1, r3, by simp [nestLap, between, h, Ans.strict]; rfl, ?_⟩
              rw [nestedText_succ, he]
            · exact hsingle b (b2 :: r) rfl (by simp [between, h, Ans.strict, hc])
      · exact hsingle b (b2 :: r) rfl (by simp [between, hb])

/-- **C126.** A token that is either another one of itself between two bytes, or a
single byte: exactly the nested texts are read, to any depth, whether the reference is in the token itself
or in another token inside it.  A nested text at the start is read whole and what follows it is left over;
an input that starts with none is an error. -/
theorem C126_nested_text (o x c : UInt8) (hox : o ≠ x) (g : Grammar)
    (hg : g = brackets o x c ∨ g = bracketsApart o x c) :
    (∀ n rest, Succeeds g (nestedText o x c n ++ rest) (nestedText o x c n) rest) ∧
    (∀ input, (¬ ∃ n rest, input = nestedText o x c n ++ rest) → Parses g input .err) := by
  have hw : ∃ wrap : List ShapeElem → Shape, (∀ es, (wrap es).bytes = shapeElemsBytes es) ∧
      (∀ p d, recGrammar g p d = nestLap o x c wrap (recGrammar g) p d) ∧
      ∀ input, AgreesR g input (recGrammar g [] input) := by
    rcases hg with rfl | rfl
    · refine ⟨.node "T" 0, fun es => by simp [Shape.bytes], fun p d => ?_, fun input => ?_⟩
      · rw [← rootLap_brackets]
        exact (C44_recursive_choice_partial _ (recGrammar_brackets o x c) []).2.1 p d
      · exact (C44_recursive_choice_partial _ (recGrammar_brackets o x c) input).1
    · refine ⟨fun es => .node "T" 0 [.mk "B" [.node "B" 0 es]],
        fun es => by simp [Shape.bytes, shapeElemsBytes, ShapeElem.bytes, shapesBytes],
        fun p d => ?_, fun input => ?_⟩
      · rw [← rootLap_bracketsApart]
        exact (C44_recursive_choice_partial _ (recGrammar_bracketsApart o x c) []).2.1 p d
      · exact (C44_recursive_choice_partial _ (recGrammar_bracketsApart o x c) input).1
  obtain ⟨wrap, hb, hfix, ha⟩ := hw
  constructor
  · intro n rest
    obtain ⟨s, h1, h2⟩ := nestLap_accepts hox hb hfix n [] rest
    have := ha (nestedText o x c n ++ rest)
    rw [h1] at this
    have := this.succeeds
    rwa [h2] at this
  · intro input hno
    have := ha input
    rcases nestLap_only hfix input.length [] input (Nat.le_refl _) with h | ⟨s, n, rest, _, h⟩
    · rw [h] at this
      exact this
    · exact absurd ⟨n, rest, h⟩ hno

/-- Two brackets, the inner byte, two brackets, and one more. -/
example : ∃ t, execute 40 (brackets 40 120 41) [40, 40, 120, 41, 41, 41] = .ok t ∧
    t.bytes false = [40, 40, 120, 41, 41] ∧ t.remaining = [41] := by
  exact ⟨_, rfl, by decide +kernel, by decide +kernel⟩

/-- The hypotheses of C44 are met by the two grammars with nested text, which do not contain the same
tokens. -/
example : RecGrammar (brackets 40 120 41) ∧ RecGrammar (bracketsApart 40 120 41) ∧
    brackets 40 120 41 ≠ bracketsApart 40 120 41 :=
  ⟨recGrammar_brackets _ _ _, recGrammar_bracketsApart _ _ _,
    by simp [brackets, bracketsApart, byteC]⟩

end Rodkina.Props
