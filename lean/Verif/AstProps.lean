import Verif.AstPeg
import Verif.AstLang
import Verif.AstTerm

/-!
# Properties of the parser (C40-C43, C45-C48)

`Parses g input o` says that executing the parser on the grammar and the input ends with the outcome
`o`; `Diverges g input` that it recurses without end.
-/

namespace Rodkina.Props

open Rodkina.Ast

/-! ## Reading off concrete runs -/

/-- Success, bytes with channels and remaining bytes of the returned tree. -/
def report : Out Tree → Option (Bool × Bytes × Bytes)
  | .ok t => some (t.isSuccessful, t.bytes true, t.remaining)
  | _ => none

/-- Did the run end with a panic. -/
def panicked : Out Tree → Bool
  | .panic => true
  | _ => false

/-- Did the run end with an error. -/
def failed : Out Tree → Bool
  | .err => true
  | _ => false

theorem parses_of_report {n : Nat} {g : Grammar} {i : Bytes} {b : Bool} {x y : Bytes}
    (h : report (execute n g i) = some (b, x, y)) :
    ∃ t, Parses g i (.ok t) ∧ t.isSuccessful = b ∧ t.bytes true = x ∧ t.remaining = y := by
  cases he : execute n g i with
  | ok t =>
    rw [he] at h
    simp only [report, Option.some.injEq, Prod.mk.injEq] at h
    exact ⟨t, ⟨trivial, n, he⟩, h.1, h.2.1, h.2.2⟩
  | err => rw [he] at h; simp [report] at h
  | panic => rw [he] at h; simp [report] at h
  | oof => rw [he] at h; simp [report] at h

theorem parses_of_panicked {n : Nat} {g : Grammar} {i : Bytes} (h : panicked (execute n g i) = true) :
    Parses g i .panic := by
  cases he : execute n g i with
  | panic => exact ⟨trivial, n, he⟩
  | err => rw [he] at h; simp [panicked] at h
  | ok t => rw [he] at h; simp [panicked] at h
  | oof => rw [he] at h; simp [panicked] at h

theorem parses_of_failed {n : Nat} {g : Grammar} {i : Bytes} (h : failed (execute n g i) = true) :
    Parses g i .err := by
  cases he : execute n g i with
  | err => exact ⟨trivial, n, he⟩
  | panic => rw [he] at h; simp [failed] at h
  | ok t => rw [he] at h; simp [failed] at h
  | oof => rw [he] at h; simp [failed] at h

/-! ## A sample grammar -/

/-- One byte. -/
def byteC (b : UInt8) : Container := .element 1 (some 1) (.value "byte" b)

/-- `S: '(' S? ')'` with blanks as channel. -/
def nested : Grammar :=
  .mk (.mk "S" [.mk [byteC 40, .element 0 (some 1) (.recursive "S"), byteC 41]] [])
    [.mk (.mk "blank" [.mk [byteC 32]] []) none none]

/-- `( ()) x` leaves `x`. -/
theorem nested_run : ∃ t, Parses nested [40, 32, 40, 41, 41, 32, 120] (.ok t) ∧
    t.isSuccessful = true ∧ t.bytes true = [40, 32, 40, 41, 41, 32] ∧ t.remaining = [120] :=
  parses_of_report (n := 4) (by decide +kernel)

/-! ## C40, C41: bytes -/

/-- Every line of the grammar, its channels and its tokens at any depth is free of external grammars
and of escape tokens. -/
def NoExternalNoEscape (g : Grammar) : Prop := g.All (lineAllowed ⟨False, False⟩)

/-- **C40.** Without external grammars and escape tokens, the bytes of a successful tree (channel
bytes included) followed by the remaining bytes are the input. -/
theorem C40_no_byte_lost (g : Grammar) (hg : NoExternalNoEscape g) (input : Bytes) (t : Tree)
    (h : Parses g input (.ok t)) (hs : t.isSuccessful = true) :
    t.bytes true ++ t.remaining = input := by
  obtain ⟨_, n, hn⟩ := h
  have := (execute_good ⟨False, False⟩ hg n input).1 t hn
  exact (this.2 hs).1.2.2 ⟨id, id⟩

theorem nested_plain : NoExternalNoEscape nested := by
  unfold NoExternalNoEscape
  rw [Grammar.All_iff]
  simp [nested, Grammar.root, Grammar.channels, Channel.All, Token.All, linesAll, GLine.All,
    lineAllowed, containerAllowed, byteC, GLine.containers, containersAll, Container.All, Content.All]

example : ∃ t, Parses nested [40, 32, 40, 41, 41, 32, 120] (.ok t) ∧ t.isSuccessful = true ∧
    t.bytes true ++ t.remaining = [40, 32, 40, 41, 41, 32, 120] := by
  obtain ⟨t, h1, h2, _⟩ := nested_run
  exact ⟨t, h1, h2, C40_no_byte_lost nested nested_plain _ t h1 h2⟩

/-- **C41 (the part that holds).** For every grammar, the remaining bytes of any returned tree are the
end of the input, and a successful tree has no more bytes than were read and read at least one. -/
theorem C41_bytes_bounded_partial (g : Grammar) (input : Bytes) (t : Tree)
    (h : Parses g input (.ok t)) :
    t.remaining <:+ input ∧ (t.isSuccessful = true →
      (t.bytes true).length + t.remaining.length ≤ input.length ∧
      t.remaining.length < input.length) := by
  obtain ⟨_, n, hn⟩ := h
  have := (execute_good Flags.any (Grammar.All_of lineAllowed_any g) n input).1 t hn
  exact ⟨this.1, fun hs => ⟨(this.2 hs).1.2.1, (this.2 hs).2⟩⟩

example : ∃ t, Parses nested [40, 32, 40, 41, 41, 32, 120] (.ok t) ∧ t.isSuccessful = true ∧
    (t.bytes true).length + t.remaining.length ≤ 7 := by
  obtain ⟨t, h1, h2, _⟩ := nested_run
  exact ⟨t, h1, h2, ((C41_bytes_bounded_partial nested _ t h1).2 h2).1⟩

/-- The claim of C41. -/
def NoByteLost (g : Grammar) : Prop :=
  ∀ input t, Parses g input (.ok t) → t.isSuccessful = true → t.bytes true ++ t.remaining = input

/-- The grammar `a` used inside another one. -/
def withExternal : Grammar :=
  .mk (.mk "outer" [.mk [.element 1 (some 1)
    (.external "ext" (.mk (.mk "inner" [.mk [byteC 97]] []) []))]] []) []

/-- Everything up to a quote; a backslash escapes a quote. -/
def withEscape : Grammar :=
  .mk (.mk "outer" [.mk [.element 1 (some 1) (.everything "text"
    (.mk "quote" [.mk [byteC 39]] []) (some (.mk "backslash" [.mk [byteC 92]] [])))]] []) []

/-- **C41 is false**: after an external grammar has matched, the rest of the input is dropped (`ab` is
accepted, the `b` is neither in the tree nor remaining), and escape bytes are dropped. -/
theorem C41_negation : ¬ NoByteLost withExternal ∧ ¬ NoByteLost withEscape := by
  constructor
  · intro h
    obtain ⟨t, h1, h2, h3, h4⟩ : ∃ t, Parses withExternal [97, 98] (.ok t) ∧ t.isSuccessful = true ∧
        t.bytes true = [97] ∧ t.remaining = [] := parses_of_report (n := 3) (by decide +kernel)
    have := h _ t h1 h2
    rw [h3, h4] at this
    simp at this
  · intro h
    obtain ⟨t, h1, h2, h3, h4⟩ : ∃ t, Parses withEscape [97, 92, 39, 98, 39] (.ok t) ∧
        t.isSuccessful = true ∧ t.bytes true = [97, 39, 98] ∧ t.remaining = [39] :=
      parses_of_report (n := 4) (by decide +kernel)
    have := h _ t h1 h2
    rw [h3, h4] at this
    simp at this

/-! ## C42, C43, C47: derivations -/

/-- **C42.** Every successful tree is a derivation of the root token (`TreeOK`): the recorded line is
one of the token's, its elements match the containers in order within their cardinalities, values are
their byte, references by name are to an enclosing token, external grammars and channels are derived
in turn.  Inputs have fewer than 2^63 bytes, as every Go slice has. -/
theorem C42_trees_are_derivations (g : Grammar) (input : Bytes) (hi : input.length < 2 ^ 63) (t : Tree)
    (h : Parses g input (.ok t)) (hs : t.isSuccessful = true) :
    TreeOK [] g.channels false g.root t := by
  obtain ⟨_, n, hn⟩ := h
  exact (token_just n [] g.root ⟨none, g.channels, false⟩ [] input hi [] (sp_nil [])).2 t hn hs

example : ∃ t, Parses nested [40, 32, 40, 41, 41, 32, 120] (.ok t) ∧
    TreeOK [] nested.channels false nested.root t := by
  obtain ⟨t, h1, h2, _⟩ := nested_run
  exact ⟨t, h1, C42_trees_are_derivations nested _ (by simp) t h1 h2⟩

/-- The elements of a line against its containers, counting only: an element has between `min` and
`max` contents (one, if it is a reference by name), and a container without element has minimum
zero. -/
inductive Counts : List Container → List TElement → Prop
  | nil : Counts [] []
  | absent (max : Option Nat) (c : Content) (cs : List Container) (es : List TElement) :
      Counts cs es → Counts (.element 0 max c :: cs) es
  | present (min : Nat) (max : Option Nat) (c : Content) (cs : List Container) (e : TElement)
      (es : List TElement) :
      e.grammar = some (.element min max c) → min ≤ e.contents.length →
      (∀ m, max = some m → e.contents.length ≤ m) →
      (∀ name, c = .recursive name → e.contents.length = 1) → Counts cs es →
      Counts (.element min max c :: cs) (e :: es)

theorem counts_of_elementsOK {path : List Token} {chs : List Channel} {cs : List Container}
    {es : List TElement} (h : ElementsOK path chs cs es) : Counts cs es := by
  refine ElementsOK.rec (motive_1 := fun _ _ _ _ _ _ => True) (motive_2 := fun _ _ _ => True)
    (motive_3 := fun _ _ cs es _ => Counts cs es) (motive_4 := fun _ _ _ _ _ => True)
    ?_ ?_ ?_ ?_ ?_ ?_ ?_ ?_ ?_ ?_ ?_ h
  case _ => intros; trivial
  case _ => intros; trivial
  case _ => intros; trivial
  case _ => intros; exact .nil
  case _ => intro _ _ _ _ _ _ _ ih; exact .absent _ _ _ _ ih
  case _ =>
    intro _ _ _ _ _ _ _ _ _ h1 h2 h3 _ _ _ ih
    exact .present _ _ _ _ _ _ rfl h1 h2 h3 ih
  all_goals intros; trivial

/-- A tree whose block is that of a derivation and whose suffix trees are derivations of channels. -/
def Derived (t : Tree) : Prop :=
  (∃ path chs rev tok t', TreeOK path chs rev tok t' ∧ t'.block = t.block) ∧
    ∀ s ∈ t.suffix, ∃ chs, ChannelTree chs s

theorem derived_of_treeOK {path : List Token} {chs : List Channel} {rev : Bool} {tok : Token} {t : Tree}
    (h : TreeOK path chs rev tok t) : Derived t := by
  refine ⟨⟨_, _, _, _, t, h, rfl⟩, ?_⟩
  cases h with
  | forward _ _ _ _ _ _ _ suf _ _ _ _ hs => exact fun s h => ⟨_, hs s h⟩
  | reverse _ _ _ _ _ _ _ suf _ _ _ hs => exact fun s h => ⟨_, hs s h⟩

theorem derived_of_channelTree {chs : List Channel} {t : Tree} (h : ChannelTree chs t) : Derived t := by
  cases h with
  | mk _ c _ _ h => exact derived_of_treeOK h

/-- The elements of a derivation contain derivations. -/
theorem mem_elementsOK {path : List Token} {chs : List Channel} {cs : List Container}
    {es : List TElement} (h : ElementsOK path chs cs es) (e : TElement) (he : e ∈ es)
    (x : TContent) (hx : x ∈ e.contents) : ∃ c, ContentOK path chs c x := by
  induction cs generalizing es with
  | nil => cases h; simp at he
  | cons c cs ih =>
    cases h with
    | absent _ _ _ _ _ _ h => exact ih h he
    | present _ _ _ _ _ _ xs es _ _ _ _ hall h =>
      rcases List.mem_cons.mp he with rfl | he
      · exact ⟨_, hall x hx⟩
      · exact ih h he

/-- What is required of the lines of a tree. -/
def LineCounts (l : TLine) : Prop :=
  (l.isReverse = false ∧ l.elements ≠ [] ∧ Counts l.grammar.containers l.elements) ∨
  (l.isReverse = true ∧ ∃ bs : Bytes, bs ≠ [] ∧ l.elements = [.mk none (bs.map (.value []))])

theorem lineCounts_of_derived {t : Tree} {l : TLine} (h : LineIn t l) (ht : Derived t) :
    LineCounts l := by
  induction h with
  | here g ls l suf rem =>
    obtain ⟨⟨path, chs, rev, tok, t', hok, hb⟩, _⟩ := ht
    cases hok with
    | forward _ _ _ ls' i gl es suf' rem' h1 h2 h3 h4 =>
      simp only [Tree.block, Block.mk.injEq, Option.some.injEq] at hb
      rw [← hb.2]
      exact .inl ⟨rfl, h3, counts_of_elementsOK h2⟩
    | reverse _ _ _ ls' i gl bs suf' rem' h1 h2 h3 =>
      simp only [Tree.block, Block.mk.injEq, Option.some.injEq] at hb
      rw [← hb.2]
      exact .inr ⟨rfl, bs, h2, rfl⟩
  | suffix g ls l l' suf rem s hs _ ih =>
    obtain ⟨chs, hc⟩ := ht.2 s hs
    exact ih (derived_of_channelTree hc)
  | pre g ls l l' suf rem e pre b s he hv hs _ ih =>
    obtain ⟨⟨path, chs, rev, tok, t', hok, hb⟩, _⟩ := ht
    cases hok with
    | forward _ _ _ ls' i gl es suf' rem' h1 h2 h3 h4 =>
      simp only [Tree.block, Block.mk.injEq, Option.some.injEq] at hb
      rw [← hb.2] at he
      obtain ⟨c, hc⟩ := mem_elementsOK h2 e he _ hv
      cases hc with
      | value _ _ _ _ _ hp => exact ih (derived_of_channelTree (hp s hs))
    | reverse _ _ _ ls' i gl bs suf' rem' h1 h2 h3 =>
      simp only [Tree.block, Block.mk.injEq, Option.some.injEq] at hb
      rw [← hb.2] at he
      simp only [TLine.elements, List.mem_singleton] at he
      subst he
      simp only [TElement.contents, List.mem_map] at hv
      obtain ⟨b', _, hb'⟩ := hv
      injection hb' with h5
      subst h5
      simp at hs
  | sub g ls l l' suf rem e t he hv _ ih =>
    obtain ⟨⟨path, chs, rev, tok, t', hok, hb⟩, _⟩ := ht
    cases hok with
    | forward _ _ _ ls' i gl es suf' rem' h1 h2 h3 h4 =>
      simp only [Tree.block, Block.mk.injEq, Option.some.injEq] at hb
      rw [← hb.2] at he
      obtain ⟨c, hc⟩ := mem_elementsOK h2 e he _ hv
      cases hc with
      | token _ _ _ _ h => exact ih (derived_of_treeOK h)
      | everything _ _ _ _ _ _ h => exact ih (derived_of_treeOK h)
      | recursive _ _ _ _ _ h => exact ih (derived_of_treeOK h)
      | external _ _ _ _ _ _ _ _ _ h =>
        exact ih ⟨⟨_, _, _, _, _, h, rfl⟩, by simp [Tree.suffix]⟩
    | reverse _ _ _ ls' i gl bs suf' rem' h1 h2 h3 =>
      simp only [Tree.block, Block.mk.injEq, Option.some.injEq] at hb
      rw [← hb.2] at he
      simp only [TLine.elements, List.mem_singleton] at he
      subst he
      simp [TElement.contents] at hv

/-- **C43.** In every successful line of a parse tree, at any depth (channel trees included), each
element occurs at least its minimum and at most its maximum number of times, and elements that do not
occur have minimum zero.  (Lines of an "everything except" hold bytes.) -/
theorem C43_cardinalities (g : Grammar) (input : Bytes) (hi : input.length < 2 ^ 63) (t : Tree)
    (h : Parses g input (.ok t)) (hs : t.isSuccessful = true) (l : TLine) (hl : LineIn t l) :
    LineCounts l :=
  lineCounts_of_derived hl (derived_of_treeOK (C42_trees_are_derivations g input hi t h hs))

example : ∃ t l, Parses nested [40, 32, 40, 41, 41, 32, 120] (.ok t) ∧ LineIn t l ∧ LineCounts l := by
  obtain ⟨t, h1, h2, _⟩ := nested_run
  rcases t with ⟨tok, ⟨ls, l⟩, suf, rem⟩
  cases l with
  | none => simp [Tree.isSuccessful, Tree.block, Block.successful] at h2
  | some l => exact ⟨_, l, h1, .here _ _ _ _ _, C43_cardinalities nested _ (by simp) _ h1 h2 l (.here _ _ _ _ _)⟩

theorem counts_no_compose {cs : List Container} {es : List TElement} (h : Counts cs es) (c : Compose) :
    .compose c ∉ cs := by
  induction h with
  | nil => simp
  | absent _ _ _ _ _ ih => simpa using ih
  | present _ _ _ _ _ _ _ _ _ _ _ ih => simpa using ih

/-- **C47 (what holds instead).** No successful line of any parse tree, at any depth, is an
alternative with a compose: such alternatives never match. -/
theorem C47_compose_lines_never_match_partial (g : Grammar) (input : Bytes)
    (hi : input.length < 2 ^ 63) (t : Tree) (h : Parses g input (.ok t)) (hs : t.isSuccessful = true)
    (l : TLine) (hl : LineIn t l) (hr : l.isReverse = false) (c : Compose) :
    .compose c ∉ l.grammar.containers := by
  rcases C43_cardinalities g input hi t h hs l hl with ⟨_, _, hc⟩ | ⟨hr', _⟩
  · exact counts_no_compose hc c
  · rw [hr] at hr'
    exact absurd hr' (by simp)

/-- A compose `a`, or the byte `b`. -/
def composeOrByte : Grammar :=
  .mk (.mk "r" [.mk [.compose ⟨"x", [(97, 1)]⟩], .mk [byteC 98]] []) []

example : ∃ t l, Parses composeOrByte [98] (.ok t) ∧ t.isSuccessful = true ∧ LineIn t l ∧
    (l.isReverse = false → ∀ c, .compose c ∉ l.grammar.containers) := by
  obtain ⟨t, h1, h2, _⟩ := parses_of_report (g := composeOrByte) (i := [98]) (n := 4) (b := true)
    (x := [98]) (y := []) (by decide +kernel)
  rcases t with ⟨tok, ⟨ls, l⟩, suf, rem⟩
  cases l with
  | none => simp [Tree.isSuccessful, Tree.block, Block.successful] at h2
  | some l =>
    exact ⟨_, l, h1, h2, .here _ _ _ _ _, fun hr => C47_compose_lines_never_match_partial composeOrByte _
      (by simp) _ h1 h2 l (.here _ _ _ _ _) hr⟩

/-- In particular a root all of whose alternatives have a compose accepts nothing. -/
theorem C47_compose_root_accepts_nothing (root : Token) (chs : List Channel)
    (hc : ∀ l ∈ root.lines, ∃ c, .compose c ∈ l.containers) (input : Bytes)
    (hi : input.length < 2 ^ 63) :
    ¬ ∃ t, Parses (.mk root chs) input (.ok t) ∧ t.isSuccessful = true := by
  rintro ⟨t, h, hs⟩
  have := C42_trees_are_derivations _ input hi t h hs
  simp only [Grammar.root, Grammar.channels] at this
  cases this with
  | forward _ _ _ ls' i gl es suf' rem' h1 h2 h3 h4 =>
    obtain ⟨c, hc⟩ := hc gl (List.mem_of_getElem? h1)
    exact counts_no_compose (counts_of_elementsOK h2) c hc

example : ¬ ∃ t, Parses (.mk (.mk "r" [.mk [.compose ⟨"x", [(97, 1)]⟩]] []) []) [97] (.ok t) ∧ t.isSuccessful = true :=
  C47_compose_root_accepts_nothing _ _ (by simp [Token.lines, GLine.containers]) [97] (by simp)

/-- The claim of C47 for a one-line grammar. -/
def ComposeMatches (c : Compose) : Prop :=
  ∀ rest, ∃ t, Parses (.mk (.mk "r" [.mk [.compose c]] []) []) (composeCompose c ++ rest) (.ok t) ∧
    t.isSuccessful = true

/-- **C47 is false**, for every compose. -/
theorem C47_negation (c : Compose) (h : (composeCompose c).length < 2 ^ 63) : ¬ ComposeMatches c := by
  intro hm
  obtain ⟨t, h1, h2⟩ := hm []
  exact C47_compose_root_accepts_nothing (.mk "r" [.mk [.compose c]] []) []
    (by simp [Token.lines, GLine.containers]) _ (by simpa using h) ⟨t, h1, h2⟩

example : ¬ ComposeMatches ⟨"ab", [(97, 1), (98, 2)]⟩ := C47_negation _ (by decide)

/-! ## C78: repeated references by name -/

theorem counts_once {cs : List Container} {es : List TElement} (h : Counts cs es) (e : TElement)
    (he : e ∈ es) (min : Nat) (max : Option Nat) (name : String)
    (hg : e.grammar = some (.element min max (.recursive name))) : e.contents.length = 1 := by
  induction h with
  | nil => simp at he
  | absent _ _ _ _ _ ih => exact ih he
  | present mi ma c cs e' es h1 h2 h3 h4 _ ih =>
    rcases List.mem_cons.mp he with rfl | he
    · rw [h1] at hg
      injection hg with hg
      injection hg with _ _ hg
      exact h4 name hg
    · exact ih he

theorem counts_min {cs : List Container} {es : List TElement} (h : Counts cs es) (min : Nat)
    (max : Option Nat) (name : String) (hc : .element min max (.recursive name) ∈ cs) : min ≤ 1 := by
  induction h with
  | nil => simp at hc
  | absent ma c _ _ _ ih =>
    rcases List.mem_cons.mp hc with h | h
    · injection h with h; omega
    · exact ih h
  | present mi ma c cs e' es h1 h2 h3 h4 _ ih =>
    rcases List.mem_cons.mp hc with h | h
    · injection h with ha hb hcc
      have := h4 name hcc.symm
      omega
    · exact ih h

/-- **C78 (what holds).** In every successful line of every parse tree an element that refers to an
enclosing token by name occurs exactly once, whatever its maximum; so an alternative that asks for two
or more never matches. -/
theorem C78_reference_occurs_once_partial (g : Grammar) (input : Bytes) (hi : input.length < 2 ^ 63)
    (t : Tree) (h : Parses g input (.ok t)) (hs : t.isSuccessful = true) (l : TLine)
    (hl : LineIn t l) (hr : l.isReverse = false) :
    (∀ e ∈ l.elements, ∀ min max name, e.grammar = some (.element min max (.recursive name)) →
      e.contents.length = 1) ∧
    (∀ min max name, .element min max (.recursive name) ∈ l.grammar.containers → min ≤ 1) := by
  rcases C43_cardinalities g input hi t h hs l hl with ⟨_, _, hc⟩ | ⟨hr', _⟩
  · exact ⟨fun e he min max name hg => counts_once hc e he min max name hg,
      fun min max name hm => counts_min hc min max name hm⟩
  · rw [hr] at hr'
    exact absurd hr' (by simp)

/-- `S: '(' S* ')'`. -/
def balanced : Grammar :=
  .mk (.mk "S" [.mk [byteC 40, .element 0 none (.recursive "S"), byteC 41]] []) []

/-- Balanced parentheses around balanced parentheses: the language of `balanced`. -/
inductive Balanced : Bytes → Prop
  | mk (inner : List Bytes) : (∀ b ∈ inner, Balanced b) → Balanced (40 :: inner.flatten ++ [41])

/-- The claim of C78 for this grammar. -/
def AcceptsBalanced : Prop :=
  ∀ input, Balanced input → ∃ t, Parses balanced input (.ok t) ∧ t.isSuccessful = true

/-- **C78 is false**: `(()())` is balanced, and refused. -/
theorem C78_negation : Parses balanced [40, 40, 41, 40, 41, 41] .err ∧ ¬ AcceptsBalanced := by
  have h1 : Parses balanced [40, 40, 41, 40, 41, 41] .err :=
    parses_of_failed (n := 6) (by decide +kernel)
  refine ⟨h1, fun h => ?_⟩
  have h0 : Balanced [40, 41] := .mk [] (by simp)
  obtain ⟨t, ht, _⟩ := h [40, 40, 41, 40, 41, 41] (.mk [[40, 41], [40, 41]] (by simp [h0]))
  exact absurd (ht.unique h1) (by simp)

/-- The names and numbers of contents of the elements of the successful line. -/
def amounts : Out Tree → Option (List (Option String × Nat))
  | .ok t => t.block.successful.map (fun l => l.elements.map (fun e => (e.key, e.amount)))
  | _ => none

/-- `(())`: the reference occurs, once. -/
example : amounts (execute 6 balanced [40, 40, 41, 41]) =
    some [(some "byte", 1), (some "S", 1), (some "byte", 1)] := by decide +kernel

example : ∃ t l, Parses balanced [40, 40, 41, 41] (.ok t) ∧ t.isSuccessful = true ∧ LineIn t l ∧
    (l.isReverse = false → ∀ min max name, .element min max (.recursive name) ∈ l.grammar.containers → min ≤ 1) := by
  obtain ⟨t, h1, h2, _⟩ := parses_of_report (g := balanced) (i := [40, 40, 41, 41]) (n := 6) (b := true)
    (x := [40, 40, 41, 41]) (y := []) (by decide +kernel)
  rcases t with ⟨tok, ⟨ls, l⟩, suf, rem⟩
  cases l with
  | none => simp [Tree.isSuccessful, Tree.block, Block.successful] at h2
  | some l =>
    exact ⟨_, l, h1, h2, .here _ _ _ _ _, fun hr => (C78_reference_occurs_once_partial balanced _
      (by simp) _ h1 h2 l (.here _ _ _ _ _) hr).2⟩

/-! ## C45: termination -/

/-- **C45 (the part that holds).** If in every line every reference by name comes after an element
that must occur (in particular if there are none), parsing ends on every input. -/
theorem C45_guarded_grammars_terminate_partial (g : Grammar) (hg : g.All lineGuarded) (input : Bytes) :
    ∃ o, Parses g input o := by
  rcases parses_or_diverges g input with h | h
  · exact h
  · exact absurd (h _) (execute_terminates hg input)

theorem nested_guarded : nested.All lineGuarded := by
  rw [Grammar.All_iff]
  simp [nested, Grammar.root, Grammar.channels, Channel.All, Token.All, linesAll, GLine.All,
    lineGuarded, guardedFrom, Container.isRecursive, Container.mustOccur, byteC, GLine.containers,
    containersAll, Container.All, Content.All]

example (input : Bytes) : ∃ o, Parses nested input o :=
  C45_guarded_grammars_terminate_partial nested nested_guarded input

/-- `A: A | A`. -/
def leftRecursive : Token :=
  .mk "A" [.mk [.element 1 (some 1) (.recursive "A")], .mk [.element 1 (some 1) (.recursive "A")]] []

/-- The map with one entry for `A`. -/
def stackA (ls : List (Nat × Bytes)) : Stk := [("A", ⟨leftRecursive, ls⟩)]

theorem leftRecursive_line (n idx : Nat) (ctx : Ctx) (prev cur : Bytes) (hc : cur ≠ [])
    (ls : List (Nat × Bytes)) :
    (∀ s, token n leftRecursive ctx prev cur (stackA ls) = (.oof, s) →
      line (token n) idx (.mk [.element 1 (some 1) (.recursive "A")]) ctx prev cur (stackA ls) =
        (.oof, s)) ∧
    (∀ s, token n leftRecursive ctx prev cur (stackA ls) = (.err, s) →
      line (token n) idx (.mk [.element 1 (some 1) (.recursive "A")]) ctx prev cur (stackA ls) =
        (.err, s)) := by
  have hne : cur.isEmpty = false := by cases cur <;> simp_all
  have hget : (stackA ls).get "A" = some ⟨leftRecursive, ls⟩ := by simp [stackA, Stk.get]
  constructor <;> intro s h <;>
  simp [line, GLine.containers, lineLoop, lineStep, elementLoop, hne, reachedMax, element,
    elementContent, recursiveToken, hget, h, bind, M.andThen, M.attempt, elementNext, M.ret, pure,
    goMin, M.fail]

theorem stackA_get (ls : List (Nat × Bytes)) :
    (stackA ls).get "A" = some ⟨leftRecursive, ls⟩ := by simp [stackA, Stk.get]

theorem stackA_put (s : Stk) (hs : s.del "A" = []) (ls : List (Nat × Bytes)) :
    s.put "A" ⟨leftRecursive, ls⟩ = stackA ls := by simp [stackA, Stk.put, hs]

theorem stackA_del (ls : List (Nat × Bytes)) : (stackA ls).del "A" = [] := by simp [stackA, Stk.del]

/-- Both lines tried: the token fails and forgets `A`. -/
theorem leftRecursive_both (n : Nat) (ctx : Ctx) (prev cur : Bytes) (ls : List (Nat × Bytes))
    (h0 : ls.lookup 0 = some cur) (h1 : ls.lookup 1 = some cur) :
    token (n + 1) leftRecursive ctx prev cur (stackA ls) = (.err, []) := by
  simp [token, tokenBody, enter, stackA_get, stackA_del, M.thenDelete, blockLoop, alreadyTried,
    leftRecursive, Token.lines, Token.name, h0, h1, bind, M.andThen, M.ret, pure, M.fail]

/-- A line not yet started on this data is recorded and read. -/
theorem leftRecursive_start (rec : Rec) (ctx : Ctx) (hr : ctx.reverse = false) (prev cur : Bytes)
    (idx : Nat) (g : GLine) (gs : List GLine) (s : Stk) (hs : s.del "A" = [])
    (ls : List (Nat × Bytes)) (hg : (s.get "A").getD ⟨leftRecursive, []⟩ = ⟨leftRecursive, ls⟩)
    (h : ls.lookup idx ≠ some cur) :
    blockLoop rec leftRecursive ctx prev cur idx (g :: gs) [] s =
      (M.attempt (line rec idx g ctx prev cur) >>=
        lineNext [] (blockLoop rec leftRecursive ctx prev cur (idx + 1) gs))
        (stackA ((idx, cur) :: ls)) := by
  have hn : leftRecursive.name = "A" := rfl
  have hskip : (s.get "A").any (fun e => e.lines.lookup idx == some cur) = false := by
    cases hg' : s.get "A" with
    | none => rfl
    | some e =>
      rw [hg'] at hg
      simp only [Option.getD_some] at hg
      subst hg
      simpa using h
  have hrec : recordLine leftRecursive idx cur s = (.ok (), stackA ((idx, cur) :: ls)) := by
    simp only [recordLine, hn, hg]
    rw [stackA_put s hs]
  rw [blockLoop]
  simp only [alreadyTried, hn, hskip, bind, M.andThen, hrec, hr, Bool.false_eq_true, if_false]

/-- A line that ends without result stops the loop. -/
theorem leftRecursive_oof (rec : Rec) (ctx : Ctx) (prev cur : Bytes) (idx : Nat) (g : GLine)
    (f : Option (TLine × Bytes) → M (List TLine × Bytes)) (s : Stk)
    (h : (line rec idx g ctx prev cur s).1 = .oof) :
    ((M.attempt (line rec idx g ctx prev cur) >>= f) s).1 = .oof := by
  rcases hl : line rec idx g ctx prev cur s with ⟨o, s'⟩
  rw [hl] at h
  simp only at h
  subst h
  simp [bind, M.andThen, M.attempt, hl]

/-- A line that fails leaves the next one. -/
theorem leftRecursive_err (rec : Rec) (ctx : Ctx) (prev cur : Bytes) (idx : Nat) (g : GLine)
    (next : List TLine → M (List TLine × Bytes)) (s s' : Stk)
    (h : line rec idx g ctx prev cur s = (.err, s')) :
    ((M.attempt (line rec idx g ctx prev cur) >>= lineNext [] next) s) = next [] s' := by
  simp [bind, M.andThen, M.attempt, h, lineNext]

theorem leftRecursive_token_oof (n : Nat) (ctx : Ctx) (prev cur : Bytes) (s s' : Stk)
    (he : enter leftRecursive s = (.ok (), s'))
    (h : (blockLoop (token n) leftRecursive ctx prev cur 0 leftRecursive.lines [] s').1 = .oof) :
    (token (n + 1) leftRecursive ctx prev cur s).1 = .oof := by
  rw [token]
  simp only [tokenBody, bind, M.andThen, he, M.thenDelete, h]

theorem leftRecursive_enter (ls : List (Nat × Bytes)) :
    enter leftRecursive (stackA ls) = (.ok (), stackA ls) := by
  have hn : leftRecursive.name = "A" := rfl
  simp [enter, hn, stackA_get]

/-- The rest of the loop once line 1 has been reached with the map empty. -/
theorem leftRecursive_last (n : Nat) (ctx : Ctx) (hr : ctx.reverse = false) (prev cur : Bytes)
    (hc : cur ≠ [])
    (h : (token n leftRecursive ctx prev cur (stackA [(1, cur)])).1 = .oof) :
    (blockLoop (token n) leftRecursive ctx prev cur 1
      [.mk [.element 1 (some 1) (.recursive "A")]] [] []).1 = .oof := by
  rw [leftRecursive_start (token n) ctx hr prev cur 1 _ [] [] rfl [] rfl (by simp)]
  apply leftRecursive_oof
  have h' : token n leftRecursive ctx prev cur (stackA [(1, cur)]) =
      (.oof, (token n leftRecursive ctx prev cur (stackA [(1, cur)])).2) := Prod.ext h rfl
  rw [(leftRecursive_line n 1 ctx prev cur hc [(1, cur)]).1 _ h']

/-- Line 1 already started: the inner call on line 0 makes the parser forget it, line 1 starts again on
the same data. -/
theorem leftRecursive_one (n : Nat) (ctx : Ctx) (hr : ctx.reverse = false) (prev cur : Bytes)
    (hc : cur ≠ []) : (token n leftRecursive ctx prev cur (stackA [(1, cur)])).1 = .oof := by
  induction n with
  | zero => rfl
  | succ n ih =>
    refine leftRecursive_token_oof n ctx prev cur _ _ (leftRecursive_enter _) ?_
    rw [show leftRecursive.lines = [.mk [.element 1 (some 1) (.recursive "A")],
      .mk [.element 1 (some 1) (.recursive "A")]] from rfl]
    rw [leftRecursive_start (token n) ctx hr prev cur 0 _ _ _ (stackA_del _) [(1, cur)]
      (by rw [stackA_get]; rfl) (by simp [List.lookup_cons])]
    cases n with
    | zero =>
      apply leftRecursive_oof
      rw [(leftRecursive_line 0 0 ctx prev cur hc [(0, cur), (1, cur)]).1 _ rfl]
    | succ n =>
      rw [leftRecursive_err _ _ _ _ _ _ _ _ [] ((leftRecursive_line (n + 1) 0 ctx prev cur hc
        [(0, cur), (1, cur)]).2 _ (leftRecursive_both n ctx prev cur _ (by simp [List.lookup_cons]) (by simp [List.lookup_cons])))]
      exact leftRecursive_last (n + 1) ctx hr prev cur hc ih

/-- Line 0 already started: line 1 fails. -/
theorem leftRecursive_zero (n : Nat) (ctx : Ctx) (hr : ctx.reverse = false) (prev cur : Bytes)
    (hc : cur ≠ []) :
    (token n leftRecursive ctx prev cur (stackA [(0, cur)])).1 = .oof ∨
    token n leftRecursive ctx prev cur (stackA [(0, cur)]) = (.err, []) := by
  match n with
  | 0 => exact .inl rfl
  | 1 =>
    left
    refine leftRecursive_token_oof 0 ctx prev cur _ _ (leftRecursive_enter _) ?_
    rw [show leftRecursive.lines = [.mk [.element 1 (some 1) (.recursive "A")],
      .mk [.element 1 (some 1) (.recursive "A")]] from rfl]
    rw [blockLoop]
    have hn : leftRecursive.name = "A" := rfl
    simp only [alreadyTried, hn, stackA_get, bind, M.andThen]
    simp only [Option.any_some, List.lookup_cons, beq_self_eq_true, if_true]
    rw [leftRecursive_start (token 0) ctx hr prev cur 1 _ _ _ (stackA_del _) [(0, cur)]
      (by rw [stackA_get]; rfl) (by simp [List.lookup_cons])]
    apply leftRecursive_oof
    rw [(leftRecursive_line 0 1 ctx prev cur hc [(1, cur), (0, cur)]).1 _ rfl]
  | n + 2 =>
    right
    have hb : blockLoop (token (n + 1)) leftRecursive ctx prev cur 0 leftRecursive.lines []
        (stackA [(0, cur)]) = (.ok ([], cur), []) := by
      rw [show leftRecursive.lines = [.mk [.element 1 (some 1) (.recursive "A")],
        .mk [.element 1 (some 1) (.recursive "A")]] from rfl]
      rw [blockLoop]
      have hn : leftRecursive.name = "A" := rfl
      simp only [alreadyTried, hn, stackA_get, bind, M.andThen]
      simp only [Option.any_some, List.lookup_cons, beq_self_eq_true, if_true]
      rw [leftRecursive_start (token (n + 1)) ctx hr prev cur 1 _ _ _ (stackA_del _) [(0, cur)]
        (by rw [stackA_get]; rfl) (by simp [List.lookup_cons])]
      rw [leftRecursive_err _ _ _ _ _ _ _ _ [] ((leftRecursive_line (n + 1) 1 ctx prev cur hc
        [(1, cur), (0, cur)]).2 _ (leftRecursive_both n ctx prev cur _ (by simp [List.lookup_cons]) (by simp [List.lookup_cons])))]
      rfl
    rw [token]
    simp only [tokenBody, bind, M.andThen, leftRecursive_enter, M.thenDelete, hb]
    rfl

/-- **C45 is false**: on the grammar `A: A | A` the parser recurses without end on every non-empty
input. -/
theorem C45_negation (input : Bytes) (hi : input ≠ []) : Diverges (.mk leftRecursive []) input := by
  intro n
  unfold execute
  cases n with
  | zero => rfl
  | succ n =>
    have he : enter leftRecursive [] = (.ok (), stackA []) := rfl
    refine leftRecursive_token_oof n _ [] input _ _ he ?_
    rw [show leftRecursive.lines = [.mk [.element 1 (some 1) (.recursive "A")],
      .mk [.element 1 (some 1) (.recursive "A")]] from rfl]
    rw [leftRecursive_start (token n) _ rfl [] input 0 _ _ _ (stackA_del _) []
      (by rw [stackA_get]; rfl) (by simp [List.lookup_cons])]
    rcases leftRecursive_zero n ⟨none, [], false⟩ rfl [] input hi with h | h
    · apply leftRecursive_oof
      have h' : token n leftRecursive ⟨none, [], false⟩ [] input (stackA [(0, input)]) =
        (.oof, (token n leftRecursive ⟨none, [], false⟩ [] input (stackA [(0, input)])).2) :=
        Prod.ext h rfl
      have := (leftRecursive_line n 0 ⟨none, [], false⟩ [] input hi [(0, input)]).1 _ h'
      exact congrArg Prod.fst this
    · have := (leftRecursive_line n 0 ⟨none, [], false⟩ [] input hi [(0, input)]).2 _ h
      erw [leftRecursive_err _ _ _ _ _ _ _ _ [] this]
      exact leftRecursive_last n _ rfl [] input hi (leftRecursive_one n _ rfl [] input hi)

example : Diverges (.mk leftRecursive []) [120] := C45_negation [120] (by simp)

/-! ## C46: panics -/

/-- **C46 (the part that holds).** Without escape tokens parsing never panics. -/
theorem C46_no_panic_without_escape_partial (g : Grammar) (hg : g.All (lineAllowed ⟨False, True⟩))
    (input : Bytes) : ¬ Parses g input .panic := by
  rintro ⟨_, n, hn⟩
  exact (execute_good ⟨False, True⟩ hg n input).2 hn

example (input : Bytes) : ¬ Parses withExternal input .panic :=
  C46_no_panic_without_escape_partial withExternal (by
    rw [Grammar.All_iff]
    simp [withExternal, Grammar.root, Grammar.channels, Token.All, linesAll, GLine.All,
      lineAllowed, containerAllowed, byteC, GLine.containers, containersAll, Container.All,
      Content.All, Grammar.All, channelsAll]) input

/-- **C46 is false**: text that ends right after an escaped exception (here `\'`) panics. -/
theorem C46_negation : Parses withEscape [92, 39] .panic :=
  parses_of_panicked (n := 4) (by decide +kernel)

/-! ## C48: composing -/

/-- The composes of a line, if it has nothing else. -/
def composesOf : List Container → Option (List Compose)
  | [] => some []
  | .compose c :: cs => (composesOf cs).map (c :: ·)
  | .element _ _ _ :: _ => none

/-- **C48.** Composing a root with one line made of composes gives each byte repeated as often as
asked, in order (numbers of occurrences below 2^63; a byte asked for more often is left out); every other root with a line is
refused. -/
theorem C48_compose (t : Token) (ht : t.lines ≠ []) :
    (∀ g cs, t.lines = [g] → composesOf g.containers = some cs →
      composeToken t = .ok (cs.flatMap (fun c => spelled (c.list.filter (fun e => e.2 < 2 ^ 63)))) ∧
      ((∀ c ∈ cs, ∀ e ∈ c.list, e.2 < 2 ^ 63) →
        composeToken t = .ok (cs.flatMap (fun c => spelled c.list)))) ∧
    ((2 ≤ t.lines.length ∨ ∃ g, t.lines = [g] ∧ composesOf g.containers = none) →
      composeToken t = .err) := by
  constructor
  · intro g cs hg hcs
    have main : composeToken t = .ok (cs.flatMap (fun c => spelled (c.list.filter (fun e => e.2 < 2 ^ 63)))) := by
      unfold composeToken
      rw [hg]
      simp only
      have hsp : ∀ c : Compose, composeCompose c = spelled (c.list.filter (fun e => e.2 < 2 ^ 63)) := by
        intro c
        unfold composeCompose
        induction c.list with
        | nil => rfl
        | cons e es ih =>
          rcases e with ⟨b, n⟩
          rw [List.flatMap_cons, ih]
          by_cases h : n < 2 ^ 63
          · rw [List.filter_cons_of_pos (by simpa using h), spelled]
            simp [goCount, h]
          · rw [List.filter_cons_of_neg (by simpa using h)]
            simp [goCount, h]
      clear hg
      generalize g.containers = l at hcs
      induction l generalizing cs with
      | nil => simp only [composesOf, Option.some.injEq] at hcs; subst hcs; rfl
      | cons c l ih =>
        cases c with
        | element => simp [composesOf] at hcs
        | compose c =>
          simp only [composesOf, Option.map_eq_some_iff] at hcs
          obtain ⟨cs', hcs', rfl⟩ := hcs
          rw [composeContainers, ih cs' hcs']
          simp only [List.flatMap_cons, ← hsp c]
          rfl
    refine ⟨main, fun hlt => ?_⟩
    rw [main]
    congr 1
    refine List.flatMap_congr (fun c hc => ?_)
    rw [List.filter_eq_self.mpr (fun e he => by simpa using hlt c hc e he)]
  · intro h
    unfold composeToken
    rcases h with h | ⟨g, hg, hn⟩
    · match hl : t.lines with
      | [] => exact absurd hl ht
      | [g] => rw [hl] at h; simp at h
      | _ :: _ :: _ => rfl
    · rw [hg]
      simp only
      clear hg
      generalize g.containers = l at hn
      induction l with
      | nil => simp [composesOf] at hn
      | cons c l ih =>
        cases c with
        | element => rfl
        | compose c =>
          simp only [composesOf, Option.map_eq_none_iff] at hn
          rw [composeContainers, ih hn]
          rfl

/-- `aab`. -/
example : composeToken (.mk "r" [.mk [.compose ⟨"x", [(97, 2)]⟩, .compose ⟨"y", [(98, 1)]⟩]] []) =
    .ok [97, 97, 98] :=
  ((C48_compose _ (by simp [Token.lines])).1 _ [⟨"x", [(97, 2)]⟩, ⟨"y", [(98, 1)]⟩] rfl rfl).2
    (by simp)

end Rodkina.Props
