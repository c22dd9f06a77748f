import Verif.AstProps
import Verif.AstRename

/-!
# Further properties of the parser (C44, C79-C84)
-/

namespace Rodkina.Props

open Rodkina.Ast Rodkina.Ast.Shipped

/-! ## C79: the language -/

/-- **C79.** The bytes of a successful tree (without channels) are a text of the language of the
grammar's root. -/
theorem C79_accepted_text_in_language (g : Grammar) (input : Bytes) (hi : input.length < 2 ^ 63)
    (t : Tree) (h : Parses g input (.ok t)) (hs : t.isSuccessful = true) :
    TokLang [] g.root (t.bytes false) :=
  (lang_of_treeOK (C42_trees_are_derivations g input hi t h hs)).1 rfl

example : ∃ t, Parses nested [40, 32, 40, 41, 41, 32, 120] (.ok t) ∧
    TokLang [] nested.root (t.bytes false) := by
  obtain ⟨t, h1, h2, _⟩ := nested_run
  exact ⟨t, h1, C79_accepted_text_in_language nested _ (by simp) t h1 h2⟩

/-! ## C44: ordered choice -/

theorem pegLines_first (sk : Bytes → Bytes) (gs : List GLine) (i : Nat) (d : Bytes)
    (x : Nat × List ShapeElem × Bytes) (h : pegLines sk i gs d = some x) :
    ∃ k gl, x.1 = i + k ∧ gs[k]? = some gl ∧ pegLine sk gl d = some x.2 ∧
      ∀ j gj, j < k → gs[j]? = some gj → pegLine sk gj d = none := by
  induction gs generalizing i with
  | nil => simp [pegLines] at h
  | cons g gs ih =>
    rw [pegLines] at h
    cases hp : pegLine sk g d with
    | some y =>
      rw [hp] at h
      simp at h
      subst h
      exact ⟨0, g, rfl, rfl, hp, by simp⟩
    | none =>
      rw [hp] at h
      simp at h
      obtain ⟨k, gl, h1, h2, h3, h4⟩ := ih (i + 1) h
      refine ⟨k + 1, gl, by omega, by simpa using h2, h3, ?_⟩
      intro j gj hj hg
      cases j with
      | zero => simp at hg; subst hg; exact hp
      | succ j => exact h4 j gj (by omega) (by simpa using hg)

/-- **C44 (the part that holds).** For grammars without references by name, external grammars and
escapes, with different token names along every nesting path and channels without conditions: the
result is that of the reference interpreter, which takes the first matching alternative at every
token.  Spelled out for the root: the recorded alternative matches and no earlier one does. -/
theorem C44_first_alternative_partial (g : Grammar) (N : Nat) (hg : PegTok [] g.root)
    (hc : ∀ c ∈ g.channels, PegChannel N c) (input : Bytes) (t : Tree)
    (h : Parses g input (.ok t)) (hs : t.isSuccessful = true) :
    pegToken (skipAll g.channels) g.root input = some (t.shape, t.remaining) ∧
    ∃ i gl es rest, t.shape = .node g.root.name i es ∧ t.remaining = skipAll g.channels rest ∧
      g.root.lines[i]? = some gl ∧ pegLine (skipAll g.channels) gl input = some (es, rest) ∧
      ∀ j gj, j < i → g.root.lines[j]? = some gj →
        pegLine (skipAll g.channels) gj input = none := by
  have ha := peg_execute (fun m hm => skipIs_channels hc hm) hg input
  obtain ⟨x, h1, h2, h3⟩ := Agrees.ok ha h hs
  refine ⟨by rw [h1, h2, h3], ?_⟩
  rcases hr : g.root with ⟨name, ls, ss⟩
  rw [hr, pegToken] at h1
  cases hp : pegLines (skipAll g.channels) 0 ls input with
  | none => rw [hp] at h1; simp at h1
  | some y =>
    rw [hp] at h1
    simp only [Option.map_some, Option.some.injEq] at h1
    obtain ⟨k, gl, hk, hgl, hm, hf⟩ := pegLines_first _ _ _ _ _ hp
    subst h1
    refine ⟨y.1, gl, y.2.1, y.2.2, h2, h3, ?_, hm, ?_⟩
    · rw [hk]; simpa [Token.lines] using hgl
    · intro j gj hj hg'
      exact hf j gj (by omega) (by simpa [Token.lines] using hg')

/-- `T: 'a' 'b' | 'a'`, with blanks. -/
def choice : Grammar :=
  .mk (.mk "T" [.mk [byteC 97, byteC 98], .mk [byteC 97]] [])
    [.mk (.mk "blank" [.mk [byteC 32]] []) none none]

/-- The number of the chosen alternative. -/
def alternative : Out Tree → Option Nat
  | .ok t => t.block.successful.map TLine.index
  | _ => none

/-- `a c`: the second alternative. -/
example : alternative (execute 3 choice [97, 32, 99]) = some 1 ∧ PegTok [] choice.root ∧
    ∀ c ∈ choice.channels, PegChannel 2 c := by
  refine ⟨by decide +kernel, ?_, ?_⟩
  · simp [choice, Grammar.root, PegTok, PegLines, PegLine, PegConts, PegCont, PegContent, byteC,
      sameNames, Container.min]
  · intro c hc
    simp [choice, Grammar.channels] at hc
    subst hc
    refine ⟨rfl, rfl, ?_, ?_, ?_⟩
    · simp [Channel.token, PegTok, PegLines, PegLine, PegConts, PegCont, PegContent, byteC,
        sameNames, Container.min]
    · simp [Channel.token, TokOK, Token.All, linesAll, GLine.All, lineAllowed, containerAllowed,
        byteC, GLine.containers, containersAll, Container.All, Content.All]
    · decide

/-- `S: '(' S* ')' | '(' '(' ')' '(' ')' ')'`. -/
def twoWays : Grammar :=
  .mk (.mk "S" [.mk [byteC 40, .element 0 none (.recursive "S"), byteC 41],
    .mk [byteC 40, byteC 40, byteC 41, byteC 40, byteC 41, byteC 41]] []) []

/-- The claim of C44 for the root: no earlier alternative has a text that the input starts with. -/
def FirstAlternative (g : Grammar) : Prop :=
  ∀ n input t, execute n g input = .ok t → ∀ i, alternative (.ok t) = some i →
    ∀ j gj, j < i → g.root.lines[j]? = some gj →
      ¬ ∃ a, a <+: input ∧ a ≠ [] ∧ SeqLang [g.root] gj.containers a

/-- **C44 is false** with references by name: for `(()())` the second alternative is chosen although
the first one describes the whole input. -/
theorem C44_negation : ¬ FirstAlternative twoWays := by
  intro h
  have hr : alternative (execute 6 twoWays [40, 40, 41, 40, 41, 41]) = some 1 := by decide +kernel
  cases he : execute 6 twoWays [40, 40, 41, 40, 41, 41] with
  | err => rw [he] at hr; simp [alternative] at hr
  | panic => rw [he] at hr; simp [alternative] at hr
  | oof => rw [he] at hr; simp [alternative] at hr
  | ok t =>
    rw [he] at hr
    apply h _ _ _ he 1 hr 0 (.mk [byteC 40, .element 0 none (.recursive "S"), byteC 41])
      (by omega) rfl
    refine ⟨[40, 40, 41, 40, 41, 41], List.prefix_refl _, by simp, ?_⟩
    have hb : ∀ (p : List Token) (b : UInt8) (cs : List Container) (r : Bytes), SeqLang p cs r →
        SeqLang p (byteC b :: cs) (b :: r) := by
      intro p b cs r hr
      exact .element p 1 1 (some 1) _ cs [b] r (Nat.le_refl _) (by simp)
        (.succ _ _ 0 [b] [] (.value _ _ _) (.zero _ _)) hr
    have hinner : ∀ p, TokLang p twoWays.root [40, 41] := by
      intro p
      refine .line _ _ (.mk [byteC 40, .element 0 none (.recursive "S"), byteC 41]) _ ?_ ?_
      · simp [twoWays, Grammar.root, Token.lines]
      · exact hb _ _ _ _ (.element _ 0 0 none _ _ [] [41] (Nat.le_refl _) (by simp) (.zero _ _)
          (hb _ _ _ _ (.nil _)))
    have hc : ContentLang [twoWays.root] (.recursive "S") [40, 41] :=
      .recursive _ twoWays.root _ (by simp) (hinner _)
    exact hb _ _ _ _ (.element _ 0 2 none _ _ [40, 41, 40, 41] [41] (by omega) (by simp)
      (.succ _ _ 1 [40, 41] [40, 41] hc (.succ _ _ 0 [40, 41] [] hc (.zero _ _)))
      (hb _ _ _ _ (.nil _)))

/-! ## C80: names are labels -/

/-- **C80 (the part that holds).** Renaming does not change what is matched, for grammars of the
class of C44 both before and after the renaming (in particular names stay different along every nesting
path). -/
theorem C80_renaming_partial (f : String → String) (t : Token) (h : PegTok [] t)
    (h' : PegTok [] (t.rename f)) (input m r : Bytes) :
    (Succeeds (.mk t []) input m r ↔ Succeeds (.mk (t.rename f) []) input m r) ∧
    (Rejects (.mk t []) input ↔ Rejects (.mk (t.rename f) []) input) := by
  have h1 := Agrees.view (agrees_plain h input)
  have h2 := Agrees.view (agrees_plain h' input)
  rw [pegToken_rename id f t input] at h2
  cases hp : (pegToken id t input).map view with
  | none =>
    rw [hp] at h1 h2
    simp only at h1 h2
    exact ⟨⟨fun h => absurd h1 h.not_rejects, fun h => absurd h2 h.not_rejects⟩,
      ⟨fun _ => h2, fun _ => h1⟩⟩
  | some x =>
    rw [hp] at h1 h2
    simp only at h1 h2
    refine ⟨⟨fun h => ?_, fun h => ?_⟩,
      ⟨fun h => absurd h h1.not_rejects, fun h => absurd h h2.not_rejects⟩⟩
    · obtain ⟨rfl, rfl⟩ := h.unique h1
      exact h2
    · obtain ⟨rfl, rfl⟩ := h.unique h2
      exact h1

/-- `outer: inner 'b'` with `inner: 'a'`. -/
def twoTokens (outer inner : String) : Token :=
  .mk outer [.mk [.element 1 (some 1) (.token (.mk inner [.mk [byteC 97]] [])), byteC 98]] []

/-- Renaming `x` to `outer`. -/
example (input m r : Bytes) :
    (Succeeds (.mk (twoTokens "x" "y") []) input m r ↔
      Succeeds (.mk ((twoTokens "x" "y").rename (fun n => "t" ++ n)) []) input m r) :=
  (C80_renaming_partial _ _
    (by simp [twoTokens, PegTok, PegLines, PegLine, PegConts, PegCont, PegContent, byteC, sameNames,
      Container.min])
    (by simp [twoTokens, Token.rename, linesRename, GLine.rename, containersRename,
      Container.rename, Content.rename, PegTok, PegLines, PegLine, PegConts, PegCont, PegContent,
      byteC, sameNames, Container.min]) input m r).1

/-- The claim of C80. -/
def NamesAreLabels (f : String → String) : Prop :=
  ∀ t input m r, Succeeds (.mk t []) input m r → Succeeds (.mk (t.rename f) []) input m r

theorem succeeds_of_report {n : Nat} {g : Grammar} {i m r : Bytes}
    (h : (match execute n g i with
      | .ok t => some (t.isSuccessful, t.bytes false, t.remaining)
      | _ => none) = some (true, m, r)) : Succeeds g i m r := by
  cases he : execute n g i with
  | ok t =>
    rw [he] at h
    simp only [Option.some.injEq, Prod.mk.injEq] at h
    exact ⟨t, ⟨trivial, n, he⟩, h.1, h.2.1, h.2.2⟩
  | err => rw [he] at h; simp at h
  | panic => rw [he] at h; simp at h
  | oof => rw [he] at h; simp at h

/-- **C80 is false** when a renaming gives a token the name of an enclosing one: `ab` is accepted with
the names `x` and `y`, refused with the names `x` and `x`. -/
theorem C80_negation : Succeeds (.mk (twoTokens "x" "y") []) [97, 98] [97, 98] [] ∧
    Parses (.mk (twoTokens "x" "x") []) [97, 98] .err ∧ ¬ NamesAreLabels (fun _ => "x") := by
  have h1 : Succeeds (.mk (twoTokens "x" "y") []) [97, 98] [97, 98] [] :=
    succeeds_of_report (n := 4) (by decide +kernel)
  have h2 : Parses (.mk (twoTokens "x" "x") []) [97, 98] .err :=
    parses_of_failed (n := 4) (by decide +kernel)
  refine ⟨h1, h2, fun h => ?_⟩
  have h3 : Parses (.mk ((twoTokens "x" "y").rename (fun _ => "x")) []) [97, 98] .err :=
    parses_of_failed (n := 4) (by decide +kernel)
  exact (h _ _ _ _ h1).not_rejects (.inl h3)

/-! ## C81: fixed texts -/

/-- An alternative of bytes, each with its name and a fixed number of occurrences. -/
def wordLine (l : List (String × UInt8 × Nat)) : GLine :=
  .mk (l.map (fun e => .element e.2.2 (some e.2.2) (.value e.1 e.2.1)))

/-- The grammar of one such alternative. -/
def wordGrammar (l : List (String × UInt8 × Nat)) : Grammar := .mk (.mk "word" [wordLine l] []) []

theorem repeatMatch_byte (b : UInt8) (k j n : Nat) (d : Bytes) (hj : d.length ≤ j) :
    repeatMatch (byteMatch id b) (some (n + k)) j n d =
      (List.replicate (min k (d.takeWhile (· == b)).length) (.byte b),
        d.drop (min k (d.takeWhile (· == b)).length)) := by
  induction j generalizing k n d with
  | zero =>
    have : d = [] := List.length_eq_zero_iff.mp (by omega)
    subst this
    simp [repeatMatch]
  | succ j ih =>
    rw [repeatMatch]
    cases d with
    | nil => simp
    | cons c r =>
      cases k with
      | zero => simp
      | succ k =>
        rw [if_neg (by simp)]
        by_cases h : b = c
        · subst h
          have hm : byteMatch id b (b :: r) = some (.byte b, r) := by simp [byteMatch]
          rw [hm]
          simp only
          have := ih k (n + 1) r (by simp at hj; omega)
          rw [show n + 1 + k = n + (k + 1) by omega] at this
          rw [this]
          have hmin : min (k + 1) (List.takeWhile (· == b) (b :: r)).length =
              min k (List.takeWhile (· == b) r).length + 1 := by
            simp only [List.takeWhile_cons, beq_self_eq_true, if_true, List.length_cons]
            omega
          rw [hmin, List.replicate_succ, List.drop_succ_cons]
        · have hm : byteMatch id b (c :: r) = none := by simp [byteMatch, h]
          rw [hm]
          have hc : (c == b) = false := by simpa using fun e : c = b => h e.symm
          simp [hc]

theorem takeWhile_replicate (b : UInt8) (k : Nat) (d : Bytes) :
    k ≤ (d.takeWhile (· == b)).length ↔ List.replicate k b <+: d := by
  induction k generalizing d with
  | zero => simp
  | succ k ih =>
    cases d with
    | nil => simp
    | cons c r =>
      rw [List.replicate_succ, List.cons_prefix_cons, ← ih]
      by_cases h : c = b
      · subst h; simp
      · have hc : (c == b) = false := by simpa using h
        simp only [List.takeWhile_cons, hc]
        simp only [Bool.false_eq_true, if_false, List.length_nil]
        constructor
        · intro h'; omega
        · rintro ⟨rfl, _⟩; exact absurd rfl h

theorem greedy_byte (b : UInt8) (k : Nat) (d : Bytes) :
    greedy (byteMatch id b) k (some k) d =
      if List.replicate k b <+: d then some (List.replicate k (.byte b), d.drop k) else none := by
  have h := repeatMatch_byte b k d.length 0 d (Nat.le_refl _)
  rw [Nat.zero_add] at h
  unfold greedy
  rw [h]
  simp only [List.length_replicate]
  by_cases hp : List.replicate k b <+: d
  · have := (takeWhile_replicate b k d).mpr hp
    rw [if_neg (by omega), if_pos hp, Nat.min_eq_left this]
  · have : ¬ k ≤ (d.takeWhile (· == b)).length := fun h => hp ((takeWhile_replicate b k d).mp h)
    rw [if_pos (by omega), if_neg hp]

theorem shapesBytes_replicate (b : UInt8) (k : Nat) :
    shapesBytes (List.replicate k (.byte b)) = List.replicate k b := by
  rw [shapesBytes_eq]
  induction k with
  | zero => rfl
  | succ k ih => rw [List.replicate_succ, List.map_cons, List.flatten_cons, ih]; rfl

theorem pegSeq_word (l : List (String × UInt8 × Nat)) (d : Bytes) :
    (pegSeq id (wordLine l).containers d).map viewElems =
      if spelled (l.map (·.2)) <+: d then
        some (spelled (l.map (·.2)), decide (∀ e ∈ l, e.2.2 = 0),
          d.drop (spelled (l.map (·.2))).length)
      else none := by
  induction l generalizing d with
  | nil => simp [wordLine, GLine.containers, pegSeq, spelled, viewElems, shapeElemsBytes]
  | cons e l ih =>
    rcases e with ⟨name, b, k⟩
    simp only [wordLine, List.map_cons, GLine.containers, pegSeq, pegContainer]
    have hc : pegContent id (.value name b) = byteMatch id b := rfl
    rw [hc, greedy_byte]
    by_cases hp : List.replicate k b <+: d
    · obtain ⟨r, rfl⟩ := hp
      rw [if_pos (List.prefix_append _ _), List.drop_left' (by simp)]
      simp only [Option.bind_some]
      have ih' := ih r
      simp only [wordLine, GLine.containers] at ih'
      have hs : spelled ((b, k) :: l.map (·.2)) <+: List.replicate k b ++ r ↔
          spelled (l.map (·.2)) <+: r := by
        rw [spelled, List.prefix_append_right_inj]
      by_cases hq : spelled (l.map (·.2)) <+: r
      · rw [if_pos hq] at ih'
        rw [if_pos (hs.mpr hq)]
        rw [Option.map_eq_some_iff] at ih'
        obtain ⟨y, hy, hv⟩ := ih'
        rw [hy]
        simp only [Option.map_some, viewElems_cons, hv, shapesBytes_replicate, spelled]
        congr 2
        congr 1
        · cases k with
          | zero => simp
          | succ k => simp [List.replicate_succ]
        · rw [List.length_append, ← List.drop_drop, List.drop_left' rfl]
      · rw [if_neg hq] at ih'
        rw [if_neg (fun h => hq (hs.mp h))]
        rw [Option.map_eq_none_iff] at ih'
        rw [ih']
        rfl
    · rw [if_neg hp, if_neg]
      · rfl
      · intro h
        apply hp
        rw [spelled] at h
        exact (List.prefix_append _ _).trans h

theorem pegTok_word (l : List (String × UInt8 × Nat)) (hn : sameNames (wordLine l).containers)
    (hm : ∀ e ∈ l, e.2.2 < 2 ^ 63) (name : String) (ss : List Suite) : PegTok [] (.mk name [wordLine l] ss) := by
  have : ∀ l : List (String × UInt8 × Nat), (∀ e ∈ l, e.2.2 < 2 ^ 63) →
      PegConts [name] (l.map (fun e => .element e.2.2 (some e.2.2) (.value e.1 e.2.1))) := by
    intro l
    induction l with
    | nil => intro _; simp [PegConts]
    | cons e l ih =>
      intro h
      rw [List.map_cons, PegConts]
      exact ⟨⟨h e (by simp), by simp [PegContent]⟩, ih (fun e he => h e (by simp [he]))⟩
  simp only [PegTok, PegLines, and_true, List.not_mem_nil, not_false_eq_true, true_and]
  exact ⟨hn, this l hm⟩

/-- Whatever the name and the suites of the token. -/
theorem fixed_text (name : String) (ss : List Suite) (l : List (String × UInt8 × Nat)) (hl : ∃ e ∈ l, e.2.2 ≠ 0)
    (hm : ∀ e ∈ l, e.2.2 < 2 ^ 63) (hn : sameNames (wordLine l).containers) (input : Bytes) :
    (∀ m r, Succeeds (.mk (.mk name [wordLine l] ss) []) input m r ↔ m = spelled (l.map (·.2)) ∧ input = m ++ r) ∧
    (Rejects (.mk (.mk name [wordLine l] ss) []) input ↔ ¬ spelled (l.map (·.2)) <+: input) := by
  have ha := Agrees.view (agrees_plain (pegTok_word l hn hm name ss) input)
  have hp : (pegToken id (.mk name [wordLine l] ss) input).map view =
      if spelled (l.map (·.2)) <+: input then
        some (spelled (l.map (·.2)), input.drop (spelled (l.map (·.2))).length) else none := by
    have hw := pegSeq_word l input
    simp only [pegToken, pegLines]
    have hline : pegLine id (wordLine l) input =
        (pegSeq id (wordLine l).containers input).bind
          (fun x => if x.1.isEmpty then none else some x) := by
      simp only [wordLine, pegLine, GLine.containers]
    rw [hline]
    by_cases h : spelled (l.map (·.2)) <+: input
    · rw [if_pos h] at hw ⊢
      rw [Option.map_eq_some_iff] at hw
      obtain ⟨y, hy, hv⟩ := hw
      simp only [viewElems, Prod.mk.injEq] at hv
      have hne : y.1.isEmpty = false := by
        rw [hv.2.1]
        obtain ⟨e, he, hk⟩ := hl
        exact decide_eq_false (fun hall => hk (hall e he))
      rw [hy]
      simp only [Option.bind_some, hne, Bool.false_eq_true, if_false, Option.map_some]
      change some (view (Shape.node name 0 y.1, y.2)) = _
      simp only [view, Shape.bytes, hv.1, hv.2.2]
    · rw [if_neg h] at hw ⊢
      rw [Option.map_eq_none_iff] at hw
      rw [hw]
      rfl
  rw [hp] at ha
  change match (if spelled (l.map (·.2)) <+: input then
        some (spelled (l.map (·.2)), input.drop (spelled (l.map (·.2))).length) else none) with
      | some x => Succeeds (.mk (.mk name [wordLine l] ss) []) input x.1 x.2
      | none => Rejects (.mk (.mk name [wordLine l] ss) []) input at ha
  by_cases h : spelled (l.map (·.2)) <+: input
  · rw [if_pos h] at ha
    simp only at ha
    refine ⟨fun m r => ⟨fun hs => ?_, ?_⟩, ⟨fun hr => absurd hr ha.not_rejects, fun hh => absurd h hh⟩⟩
    · obtain ⟨rfl, rfl⟩ := hs.unique ha
      obtain ⟨s, rfl⟩ := h
      simp
    · rintro ⟨rfl, rfl⟩
      simpa using ha
  · rw [if_neg h] at ha
    simp only at ha
    refine ⟨fun m r => ⟨fun hs => absurd ha hs.not_rejects, ?_⟩, ⟨fun _ => h, fun _ => ha⟩⟩
    rintro ⟨rfl, rfl⟩
    exact absurd (List.prefix_append _ _) h

/-- **C81 (the part that holds).** An alternative of bytes with fixed numbers of occurrences, in which
elements with the same name do not ask for different numbers above one, matches exactly the text it
spells. -/
theorem C81_fixed_text_partial (l : List (String × UInt8 × Nat)) (hl : ∃ e ∈ l, e.2.2 ≠ 0)
    (hm : ∀ e ∈ l, e.2.2 < 2 ^ 63) (hn : sameNames (wordLine l).containers) (input : Bytes) :
    (∀ m r, Succeeds (wordGrammar l) input m r ↔ m = spelled (l.map (·.2)) ∧ input = m ++ r) ∧
    (Rejects (wordGrammar l) input ↔ ¬ spelled (l.map (·.2)) <+: input) :=
  fixed_text "word" [] l hl hm hn input

/-- `aab` spelled with the names `x` and `y`. -/
example (input : Bytes) : Rejects (wordGrammar [("x", 97, 2), ("y", 98, 1)]) input ↔
    ¬ [97, 97, 98] <+: input :=
  (C81_fixed_text_partial [("x", 97, 2), ("y", 98, 1)] ⟨_, List.mem_cons_self .., by simp⟩ (by simp)
    (by simp [sameNames, wordLine, GLine.containers, Container.name, Content.name, Container.min])
    input).2

/-- The claim of C81. -/
def FixedTextsAccepted : Prop :=
  ∀ l, (∀ e ∈ l, e.2.2 ≠ 0) → l ≠ [] →
    Succeeds (wordGrammar l) (spelled (l.map (·.2))) (spelled (l.map (·.2))) []

/-- **C81 is false** when two elements have the same name: `a` twice and `b` once, both named `n`,
refuses `aab`. -/
theorem C81_negation : Rejects (wordGrammar [("n", 97, 2), ("n", 98, 1)]) [97, 97, 98] ∧
    ¬ FixedTextsAccepted := by
  have h1 : Rejects (wordGrammar [("n", 97, 2), ("n", 98, 1)]) [97, 97, 98] := by
    obtain ⟨t, h1, h2, _⟩ := parses_of_report (g := wordGrammar [("n", 97, 2), ("n", 98, 1)]) (n := 4)
      (i := [97, 97, 98]) (b := false) (x := []) (y := [97, 97, 98]) (by decide +kernel)
    exact .inr ⟨t, h1, h2⟩
  refine ⟨h1, fun h => ?_⟩
  exact (h [("n", 97, 2), ("n", 98, 1)] (by simp) (by simp)).not_rejects h1

/-! ## C82: everything except -/

/-- "Everything except", the exception having the first alternative `w` (a word) and others. -/
def exceptGrammar (w : Bytes) (others : List GLine) : Grammar :=
  .mk (.mk "text" [.mk [.element 1 (some 1) (.everything "all"
    (.mk "stop" (.mk (w.map byteC) :: others) []) none)]] []) []

theorem byteSeq_word (w d : Bytes) :
    byteSeq (w.map byteC) d = if w <+: d then some (d.drop w.length) else none := by
  induction w generalizing d with
  | nil => simp [byteSeq]
  | cons b w ih =>
    simp only [List.map_cons, byteC, byteSeq]
    rw [greedy_once _ _ (byteMatch_nil shrinks_id b)]
    cases d with
    | nil => simp [byteMatch]
    | cons c r =>
      simp only [byteMatch, id]
      have ih' := ih r
      by_cases h : b = c
      · subst h
        simp [ih', List.cons_prefix_cons]
      · simp [h, List.cons_prefix_cons]

/-- What `textUntil` computes. -/
theorem textUntil_spec (S : Bytes → Bool) (d : Bytes) :
    d = (textUntil S d).1 ++ (textUntil S d).2 ∧
    (∀ k, k < (textUntil S d).1.length → S (d.drop k) = false) ∧
    ((textUntil S d).2 = [] ∨ S (textUntil S d).2 = true) := by
  induction d with
  | nil => simp [textUntil]
  | cons b r ih =>
    rw [textUntil]
    by_cases h : S (b :: r) = true
    · simp [h]
    · simp only [h, if_false, Bool.false_eq_true]
      refine ⟨?_, ?_, ih.2.2⟩
      · rw [List.cons_append, ← ih.1]
      · intro k hk
        cases k with
        | zero => simpa using h
        | succ k => exact ih.2.1 k (by simpa using hk)

/-- Two ways to stop at the first match are the same. -/
theorem stop_unique (S : Bytes → Bool) {d m r m' r' : Bytes} (h : d = m ++ r) (h' : d = m' ++ r')
    (hk : ∀ k, k < m.length → S (d.drop k) = false) (hk' : ∀ k, k < m'.length → S (d.drop k) = false)
    (hr : r = [] ∨ S r = true) (hr' : r' = [] ∨ S r' = true) : m = m' ∧ r = r' := by
  have hdrop : d.drop m.length = r := by rw [h]; simp
  have hdrop' : d.drop m'.length = r' := by rw [h']; simp
  have hlen : m.length = m'.length := by
    rcases Nat.lt_trichotomy m.length m'.length with hlt | heq | hgt
    · have := hk' m.length hlt
      rw [hdrop] at this
      rcases hr with rfl | hr
      · have h1 := congrArg List.length h
        have h2 := congrArg List.length h'
        simp at h1 h2
        omega
      · rw [hr] at this; simp at this
    · exact heq
    · have := hk m'.length hgt
      rw [hdrop'] at this
      rcases hr' with rfl | hr'
      · have h1 := congrArg List.length h
        have h2 := congrArg List.length h'
        simp at h1 h2
        omega
      · rw [hr'] at this; simp at this
  rw [h] at h'
  exact List.append_inj h' hlen

/-- **C82 (the part that holds).** "Everything except" an exception whose first alternative is the word
`w` takes a non-empty text up to the first occurrence of `w`, or up to the end of the input.  The other
alternatives of the exception play no role. -/
theorem C82_everything_up_to_first_alternative_partial (w : Bytes)
    (others : List GLine) (input : Bytes) :
    (∀ m r, Succeeds (exceptGrammar w others) input m r ↔
      input = m ++ r ∧ m ≠ [] ∧ (∀ k, k < m.length → ¬ w <+: input.drop k) ∧
        (r = [] ∨ w <+: r)) ∧
    (Rejects (exceptGrammar w others) input ↔ input = [] ∨ w <+: input) := by
  have hpt : PegTok [] (exceptGrammar w others).root := by
    simp only [exceptGrammar, Grammar.root, PegTok, PegLines, PegLine, PegConts, PegCont, PegContent]
    simp [sameNames, Container.min, Token.name, Token.lines, GLine.containers, byteC,
      Container.isBytes]
  have ha := Agrees.view (agrees_plain hpt input)
  have hS : (fun x => (byteSeq (w.map byteC) x).isSome) = (fun x => decide (w <+: x)) := by
    funext x
    rw [byteSeq_word]
    by_cases h : w <+: x <;> simp [h]
  have hev : ∀ d, (everythingMatch (.mk "stop" (.mk (w.map byteC) :: others) []) d).map view =
      if (textUntil (fun x => decide (w <+: x)) d).1 = [] then none
      else some (textUntil (fun x => decide (w <+: x)) d) := by
    intro d
    have key : ∀ (S S' : Bytes → Bool), S = S' →
        Option.map view (if (textUntil S d).1 = [] then none
          else some (Shape.node "stop" 0 [.mk "" ((textUntil S d).1.map .byte)], (textUntil S d).2)) =
        (if (textUntil S' d).1 = [] then none else some (textUntil S' d)) := by
      intro S S' h
      subst h
      by_cases h : (textUntil S d).1 = []
      · rw [if_pos h, if_pos h]; rfl
      · rw [if_neg h, if_neg h]
        have : shapesBytes ((textUntil S d).1.map .byte) = (textUntil S d).1 := by
          rw [shapesBytes_eq, List.map_map]
          generalize (textUntil S d).1 = l
          induction l with
          | nil => rfl
          | cons b l ih => rw [List.map_cons, List.flatten_cons, ih]; rfl
        simp [view, Shape.bytes, shapeElemsBytes, ShapeElem.bytes, this]
    exact key _ _ hS
  have hp : (pegToken id (exceptGrammar w others).root input).map view =
      if (textUntil (fun x => decide (w <+: x)) input).1 = [] then none
      else some (textUntil (fun x => decide (w <+: x)) input) := by
    rw [← hev]
    simp only [exceptGrammar, Grammar.root, pegToken, pegLines, pegLine, pegSeq, pegContainer]
    have hc : pegContent id (.everything "all" (.mk "stop" (.mk (w.map byteC) :: others) []) none) =
        everythingMatch (.mk "stop" (.mk (w.map byteC) :: others) []) := by
      funext d
      simp only [pegContent]
    rw [hc, greedy_once _ _ rfl]
    cases everythingMatch (.mk "stop" (.mk (w.map byteC) :: others) []) input with
    | none => rfl
    | some x => simp [consElem, view, Shape.bytes, shapeElemsBytes, ShapeElem.bytes, shapesBytes]
  have hgr : (Grammar.mk (exceptGrammar w others).root []) = exceptGrammar w others := rfl
  rw [hp, hgr] at ha
  have hspec := textUntil_spec (fun x => decide (w <+: x)) input
  by_cases h : (textUntil (fun x => decide (w <+: x)) input).1 = []
  · rw [if_pos h] at ha
    simp only at ha
    have hin : input = [] ∨ w <+: input := by
      have h1 := hspec.1
      rw [h, List.nil_append] at h1
      have h2 := hspec.2.2
      rw [← h1] at h2
      simpa using h2
    refine ⟨fun m r => ⟨fun hs => absurd ha hs.not_rejects, ?_⟩, ⟨fun _ => hin, fun _ => ha⟩⟩
    rintro ⟨h1, h2, h3, _⟩
    exfalso
    rcases hin with hin | hin
    · rw [hin] at h1
      exact h2 (List.append_eq_nil_iff.mp h1.symm).1
    · exact h3 0 (List.length_pos_iff.mpr h2) (by simpa using hin)
  · rw [if_neg h] at ha
    simp only at ha
    have hin : ¬ (input = [] ∨ w <+: input) := by
      rintro (hin | hin)
      · subst hin; exact h rfl
      · have := hspec.2.1 0 (List.length_pos_iff.mpr h)
        simp [hin] at this
    refine ⟨fun m r => ⟨fun hs => ?_, ?_⟩, ⟨fun hr => absurd hr ha.not_rejects, fun hh => absurd hh hin⟩⟩
    · obtain ⟨rfl, rfl⟩ := hs.unique ha
      refine ⟨hspec.1, h, ?_, ?_⟩
      · intro k hk hpre
        have := hspec.2.1 k hk
        simp [hpre] at this
      · simpa using hspec.2.2
    · rintro ⟨h1, h2, h3, h4⟩
      obtain ⟨e1, e2⟩ := stop_unique (fun x => decide (w <+: x)) hspec.1 h1 hspec.2.1
        (fun k hk => decide_eq_false (h3 k hk)) hspec.2.2 (by simpa using h4)
      rw [← e1, ← e2]
      exact ha

/-- `ab--c` up to `--`. -/
example : Succeeds (exceptGrammar [45, 45] []) [97, 98, 45, 45, 99] [97, 98] [45, 45, 99] := by
  refine ((C82_everything_up_to_first_alternative_partial [45, 45] [] _).1 _ _).mpr
    ⟨rfl, by simp, ?_, by simp⟩
  intro k hk
  match k with
  | 0 => simp
  | 1 => simp
  | k + 2 => simp at hk; omega

/-- The claim of C82: the text stops where any alternative of the exception matches. -/
def StopsAtEveryAlternative : Prop :=
  ∀ w w' : Bytes, ∀ input m r, w' ≠ [] →
    Succeeds (exceptGrammar w [.mk (w'.map byteC)]) input m r →
    ∀ k, k < m.length → ¬ w' <+: input.drop k

/-- **C82 is false**: everything except `x` or `y` takes the whole of `ay`. -/
theorem C82_negation : Succeeds (exceptGrammar [120] [.mk ([121].map byteC)]) [97, 121] [97, 121] [] ∧
    ¬ StopsAtEveryAlternative := by
  have h1 : Succeeds (exceptGrammar [120] [.mk ([121].map byteC)]) [97, 121] [97, 121] [] := by
    refine ((C82_everything_up_to_first_alternative_partial [120] _ _).1 _ _).mpr
      ⟨rfl, by simp, ?_, by simp⟩
    intro k hk
    match k with
    | 0 => simp
    | 1 => simp
    | k + 2 => simp at hk; omega
  refine ⟨h1, fun h => ?_⟩
  exact h [120] [121] _ _ _ (by simp) h1 1 (by simp) (by simp)

/-! ## C83: trees without success -/

/-- Some element must occur, minima fit in 63 bits, and elements with the same name do not ask for
more than each other. -/
def lineSound (g : GLine) : Prop :=
  sameNames g.containers ∧ (∃ c ∈ g.containers, 0 < c.min) ∧
    ∀ c ∈ g.containers, c.min < 2 ^ 63

theorem elemsFor_append {a b : List Container} {x y : List TElement}
    (h1 : ElemsFor a x) (h2 : ElemsFor b y) : ElemsFor (a ++ b) (x ++ y) := by
  refine ⟨?_, ?_⟩
  · intro e he
    rcases List.mem_append.mp he with h | h
    · obtain ⟨m, n, c, hm, r⟩ := h1.from_ e h
      exact ⟨m, n, c, by simp [hm], r⟩
    · obtain ⟨m, n, c, hm, r⟩ := h2.from_ e h
      exact ⟨m, n, c, by simp [hm], r⟩
  · intro c hc
    rcases List.mem_append.mp hc with h | h
    · have := h1.all c h
      refine ⟨this.1, fun hp => ?_⟩
      obtain ⟨e, he, hk⟩ := this.2 hp
      exact ⟨e, by simp [he], hk⟩
    · have := h2.all c h
      refine ⟨this.1, fun hp => ?_⟩
      obtain ⟨e, he, hk⟩ := this.2 hp
      exact ⟨e, by simp [he], hk⟩

theorem elementLoop_max (rec : Rec) (c : Content) (max : Option Nat) (ctx : Ctx) (k : Nat)
    (st : ElState) (h : ∀ m, max = some m → st.list.length ≤ m) :
    Ens (fun _ => True) True (elementLoop rec c max ctx k st)
      (fun st' => ∀ m, max = some m → st'.list.length ≤ m) := by
  induction k generalizing st with
  | zero => exact Ens.oof
  | succ k ih =>
    unfold elementLoop
    refine Ens.ite (fun _ => Ens.pure h) (fun _ => ?_)
    refine Ens.ite (fun _ => Ens.pure h) (fun hmax => ?_)
    refine Ens.bind (V := fun _ => True) (ens_trivial _) (fun r _ => ?_)
    unfold elementNext
    cases r with
    | none => exact Ens.pure h
    | some x =>
      apply ih
      intro m hm
      subst hm
      simp only [reachedMax, decide_eq_true_eq, not_le] at hmax
      simp only [List.length_append, List.length_singleton]
      omega

theorem lineLoop_elems (rec : Rec) (ctx : Ctx) (prev0 : Bytes) (done cs : List Container)
    (hmin : ∀ c ∈ cs, c.min < 2 ^ 63) (st : LnState) (h : ElemsFor done st.list) :
    Ens (fun _ => True) True (lineLoop rec ctx prev0 cs st)
      (fun st' => ElemsFor (done ++ cs) st'.list) := by
  induction cs generalizing done st with
  | nil =>
    rw [List.append_nil]
    exact Ens.pure h
  | cons c cs ih =>
    unfold lineLoop
    refine Ens.bind (V := fun st' : LnState => ElemsFor (done ++ [c]) st'.list) ?_ ?_
    · unfold lineStep
      cases c with
      | compose cmp =>
        exact Ens.bind (V := fun _ => True) (ens_trivial _) (fun _ _ => Ens.fail)
      | element min max content =>
        refine Ens.bind (elementLoop_max rec content max ctx _ _ (by simp)) ?_
        intro r hr
        refine Ens.ite (fun _ => Ens.fail) (fun hlt => Ens.pure ?_)
        have hm : goMin min = min := by
          have := hmin _ (List.mem_cons_self ..)
          simp only [Container.min] at this
          simp [goMin, this]
        rw [hm] at hlt
        cases hl : r.list with
        | nil =>
          have h0 : min = 0 := by simp [hl] at hlt; exact hlt
          have : ElemsFor [Container.element min max content] [] := by
            refine ⟨by simp, ?_⟩
            intro c hc
            simp only [List.mem_singleton] at hc
            subst hc
            exact ⟨⟨_, _, _, rfl⟩, fun hp => by simp [Container.min, h0] at hp⟩
          simpa using elemsFor_append h this
        | cons x xs =>
          have : ElemsFor [Container.element min max content]
              [.mk (some (.element min max content)) r.list] := by
            refine ⟨?_, ?_⟩
            · intro e he
              simp only [List.mem_singleton] at he
              subst he
              refine ⟨min, max, content, by simp, rfl, ?_, ?_, ?_⟩
              · simp only [TElement.amount, TElement.contents]; omega
              · simp [TElement.amount, TElement.contents, hl]
              · simp only [TElement.amount, TElement.contents]
                unfold withinMax
                cases max with
                | none => rfl
                | some m => exact decide_eq_true (hr m rfl)
            · intro c hc
              simp only [List.mem_singleton] at hc
              subst hc
              exact ⟨⟨_, _, _, rfl⟩, fun _ => ⟨_, List.mem_singleton.mpr rfl, rfl⟩⟩
          have := elemsFor_append h this
          simpa [hl] using this
    · intro st' h'
      have := ih (done ++ [c]) (fun c hc => hmin c (by simp [hc])) st' h'
      simpa using this

theorem line_sound (rec : Rec) (idx : Nat) (g : GLine) (hg : lineSound g) (ctx : Ctx)
    (prev cur : Bytes) :
    Ens (fun _ => True) True (Ast.line rec idx g ctx prev cur) (fun x => x.1.isSuccessful = true) := by
  rcases g with ⟨cs⟩
  obtain ⟨h1, ⟨c, hc, hp⟩, h3⟩ := hg
  unfold Ast.line
  refine Ens.bind (lineLoop_elems rec ctx prev [] cs h3 ⟨[], prev, cur⟩ ⟨by simp, by simp⟩) ?_
  intro st h
  simp only [List.nil_append] at h
  apply Ens.pure
  simp only
  rw [h.successful h1]
  obtain ⟨e, he, _⟩ := (h.all c hc).2 hp
  cases hl : st.list with
  | nil => rw [hl] at he; simp at he
  | cons => rfl

theorem blockLoop_sound (rec : Rec) (tok : Token) (ctx : Ctx) (prev cur : Bytes) (idx : Nat)
    (gs : List GLine) (hg : ∀ g ∈ gs, lineSound g) (hr : ctx.reverse = false) :
    Ens (fun _ => True) True (blockLoop rec tok ctx prev cur idx gs [])
      (fun r => ∀ l ∈ r.1, l.isSuccessful = true) := by
  induction gs generalizing idx with
  | nil => exact Ens.pure (by simp)
  | cons g gs ih =>
    have ih' := ih (idx + 1) (fun g h => hg g (by simp [h]))
    unfold blockLoop
    refine Ens.bind (V := fun _ => True) (ens_trivial _) (fun skip _ => ?_)
    refine Ens.ite (fun _ => ih') (fun _ => ?_)
    refine Ens.bind (V := fun _ => True) (ens_trivial _) (fun _ _ => ?_)
    refine Ens.ite (fun h => by rw [hr] at h; simp at h) (fun _ => ?_)
    refine Ens.bind (Ens.attempt (line_sound rec idx g (hg g (by simp)) ctx prev cur)) ?_
    intro r hr'
    unfold lineNext
    cases r with
    | none => exact ih'
    | some x =>
      have hx := hr' x rfl
      simp only [hx, if_true]
      apply Ens.pure
      simpa using hx

/-- **C83 (the part that holds).** If every alternative of the root has an element that must occur, and
elements with the same name do not ask for different minima above one, then parsing returns an error or
a successful tree. -/
theorem C83_success_or_error_partial (g : Grammar) (hg : ∀ l ∈ g.root.lines, lineSound l)
    (input : Bytes) (t : Tree) (h : Parses g input (.ok t)) : t.isSuccessful = true := by
  obtain ⟨_, n, hn⟩ := h
  cases n with
  | zero => simp [execute, token, M.oof] at hn
  | succ n =>
    have : Ens (fun _ => True) True (token (n + 1) g.root ⟨none, g.channels, false⟩ [] input)
        (fun t => t.isSuccessful = true) := by
      unfold token tokenBody
      refine Ens.bind (V := fun _ => True) (ens_trivial _) (fun _ _ => ?_)
      refine Ens.bind (V := fun r => ∀ l ∈ r.1, l.isSuccessful = true) ?_ ?_
      · intro s _
        have := blockLoop_sound (token n) g.root ⟨none, g.channels, false⟩ [] input 0 g.root.lines hg
          rfl s trivial
        exact ⟨trivial, this.2.1, fun _ => trivial⟩
      · intro r hr
        refine Ens.ite (fun _ => Ens.fail) (fun hne => ?_)
        refine Ens.bind (V := fun _ => True) (ens_trivial _) (fun s _ => ?_)
        apply Ens.pure
        cases hl : r.1 with
        | nil => simp [hl] at hne
        | cons l ls =>
          have := hr l (by simp [hl])
          simp [Tree.isSuccessful, Tree.block, mkBlock, Block.successful, this]
    exact (this [] trivial).2.1 t hn

example (input : Bytes) (t : Tree) (h : Parses nested input (.ok t)) : t.isSuccessful = true := by
  apply C83_success_or_error_partial nested _ input t h
  intro l hl
  simp [nested, Grammar.root, Token.lines] at hl
  subst hl
  simp [lineSound, GLine.containers, sameNames, Container.min, Container.name, Content.name, byteC]

/-- The claim of C83. -/
def SuccessOrError : Prop := ∀ g input t, Parses g input (.ok t) → t.isSuccessful = true

/-- `T: 'x'?`. -/
def optionalOnly : Grammar := .mk (.mk "T" [.mk [.element 0 (some 1) (.value "byte" 120)]] []) []

/-- `T: 'a' 'a' 'b'`, the first element being "two a", both elements having the same name. -/
def sameName : Grammar :=
  .mk (.mk "T" [.mk [.element 2 (some 2) (.value "n" 97), .element 1 (some 1) (.value "n" 98)]] []) []

/-- **C83 is false**: a tree without success is returned without error when nothing had to occur and
nothing did, and when two elements of the matched alternative have the same name and the second occurs
less often than the first must. -/
theorem C83_negation :
    (∃ t, Parses optionalOnly [98] (.ok t) ∧ t.isSuccessful = false) ∧
    (∃ t, Parses sameName [97, 97, 98] (.ok t) ∧ t.isSuccessful = false) ∧ ¬ SuccessOrError := by
  have h1 : ∃ t, Parses optionalOnly [98] (.ok t) ∧ t.isSuccessful = false := by
    obtain ⟨t, h1, h2, _⟩ := parses_of_report (g := optionalOnly) (n := 4) (i := [98]) (b := false)
      (x := []) (y := [98]) (by decide +kernel)
    exact ⟨t, h1, h2⟩
  have h2 : ∃ t, Parses sameName [97, 97, 98] (.ok t) ∧ t.isSuccessful = false := by
    obtain ⟨t, h1, h2, _⟩ := parses_of_report (g := sameName) (n := 4) (i := [97, 97, 98])
      (b := false) (x := []) (y := [97, 97, 98]) (by decide +kernel)
    exact ⟨t, h1, h2⟩
  refine ⟨h1, h2, fun h => ?_⟩
  obtain ⟨t, ht, hs⟩ := h1
  rw [h _ _ _ ht] at hs
  exact absurd hs (by simp)

/-! ## C84: bytes of contents -/

/-- The bytes of the contents one after the other: `Contents().List()` and `content.Bytes`,
libs/asts/domain/trees/contents.go:18-20, libs/asts/domain/trees/content.go:33-41. -/
def contentsOwnBytes (ch : Bool) (cs : List TContent) : Bytes := cs.flatMap (TContent.ownBytes ch)

/-- **C84 (the part that holds).** Without channels the bytes of an element are those of its contents;
with channels they are when no value has channel bytes before it. -/
theorem C84_content_bytes_partial (e : TElement) :
    e.bytes false = contentsOwnBytes false e.contents ∧
    ((∀ p b, .value p b ∈ e.contents → p = []) → e.bytes true = contentsOwnBytes true e.contents) := by
  rcases e with ⟨g, cs⟩
  simp only [TElement.bytes, TElement.contents, contentsOwnBytes]
  constructor
  · induction cs with
    | nil => rfl
    | cons c cs ih =>
      rw [contentsBytes, List.flatMap_cons, ih]
      cases c <;> simp [TContent.bytes, TContent.ownBytes]
  · induction cs with
    | nil => intro _; rfl
    | cons c cs ih =>
      intro h
      rw [contentsBytes, List.flatMap_cons, ih (fun p b hm => h p b (by simp [hm]))]
      cases c with
      | value p b =>
        have := h p b (by simp)
        subst this
        simp [TContent.bytes, TContent.ownBytes, treesBytes]
      | tree t => simp [TContent.bytes, TContent.ownBytes]

example : (TElement.mk none [.value [] 97, .value [.mk (.mk "x" [] []) (.mk [] none) [] []] 98]).bytes false =
      contentsOwnBytes false [.value [] 97, .value [.mk (.mk "x" [] []) (.mk [] none) [] []] 98] ∧
    (TElement.mk none [.value [] 97, .value [] 98]).bytes true =
      contentsOwnBytes true [.value [] 97, .value [] 98] :=
  ⟨(C84_content_bytes_partial _).1, (C84_content_bytes_partial (.mk none [.value [] 97, .value [] 98])).2
    (by simp only [TElement.contents, List.mem_cons, TContent.value.injEq, List.not_mem_nil, or_false]; rintro p b (h | h) <;> exact h.1)⟩

/-- The bytes of the first element with channels, and those of its contents. -/
def bothBytes : Out Tree → Option (Bytes × Bytes)
  | .ok t => (t.block.successful.bind (fun l => l.elements.head?)).map
      (fun e => (e.bytes true, contentsOwnBytes true e.contents))
  | _ => none

/-- The claim of C84: the same with channels, for every element of a returned tree. -/
def ContentBytesAgree : Prop :=
  ∀ g input t l e, Parses g input (.ok t) → t.block.successful = some l → e ∈ l.elements →
    e.bytes true = contentsOwnBytes true e.contents

/-- **C84 is false**: parsing ` a` with blanks as channel, the element has the bytes ` a`, its contents
have `a`. -/
theorem C84_negation : ¬ ContentBytesAgree := by
  intro h
  have hr : bothBytes (execute 4 choice [32, 97]) = some ([32, 97], [97]) := by decide +kernel
  cases he : execute 4 choice [32, 97] with
  | err => rw [he] at hr; simp [bothBytes] at hr
  | panic => rw [he] at hr; simp [bothBytes] at hr
  | oof => rw [he] at hr; simp [bothBytes] at hr
  | ok t =>
    rw [he] at hr
    simp only [bothBytes, Option.map_eq_some_iff, Option.bind_eq_some_iff, Prod.mk.injEq] at hr
    obtain ⟨e, ⟨l, hl, hh⟩, h1, h2⟩ := hr
    have := h choice [32, 97] t l e ⟨trivial, 4, he⟩ hl (List.mem_of_head? hh)
    rw [h1, h2] at this
    simp at this

end Rodkina.Props
