import Verif.AstRef4

/-!
# Ordered choice, exceptions, escape tokens and channel conditions (C44, C82, C123, C124)
-/

namespace Rodkina.Props

open Rodkina.Ast

/-! ## C44: ordered choice, for all grammars without references by name -/

/-- How the root of a grammar is read: no escape token, its channels are skipped. -/
def rootMode (g : Grammar) : Mode :=
  ⟨none, fun p d => channelsSkip (refChannels g.channels) (d.length + 1) p d, false⟩

theorem firstOf_found (fs : List (Matcher (List ShapeElem))) (i : Nat) (p d : Bytes)
    (x : (Nat × List ShapeElem) × Bytes) (h : firstOf fs i p d = .found x) :
    ∃ k f, x.1.1 = i + k ∧ fs[k]? = some f ∧ f p d = .found (x.1.2, x.2) ∧
      ∀ j f', j < k → fs[j]? = some f' → f' p d = .blank ∨ f' p d = .refused := by
  induction fs generalizing i with
  | nil => simp [firstOf] at h
  | cons f fs ih =>
    have later : firstOf fs (i + 1) p d = .found x → (f p d = .blank ∨ f p d = .refused) →
        ∃ k g, x.1.1 = i + k ∧ (f :: fs)[k]? = some g ∧ g p d = .found (x.1.2, x.2) ∧
          ∀ j f', j < k → (f :: fs)[j]? = some f' → f' p d = .blank ∨ f' p d = .refused := by
      intro hl hf
      obtain ⟨k, g, h1, h2, h3, h4⟩ := ih (i + 1) hl
      refine ⟨k + 1, g, by omega, by simpa using h2, h3, ?_⟩
      intro j f' hj hf'
      cases j with
      | zero =>
        simp only [List.getElem?_cons_zero, Option.some.injEq] at hf'
        subst hf'
        exact hf
      | succ j => exact h4 j f' (by omega) (by simpa using hf')
    unfold firstOf at h
    cases hf : f p d with
    | found y =>
      rw [hf] at h
      simp only [Ans.found.injEq] at h
      subst h
      exact ⟨0, f, rfl, rfl, hf, by simp⟩
    | crash => rw [hf] at h; simp at h
    | refused =>
      rw [hf] at h
      exact later h (.inr hf)
    | blank =>
      rw [hf] at h
      cases hl : firstOf fs (i + 1) p d with
      | refused => rw [hl] at h; simp at h
      | found y =>
        rw [hl] at h
        simp only [Ans.found.injEq] at h
        subst h
        exact later hl (.inl hf)
      | blank => rw [hl] at h; simp at h
      | crash => rw [hl] at h; simp at h

theorem refLines_getElem (m : Mode) (gs : List GLine) (i : Nat) :
    (refLines m gs)[i]? = gs[i]?.map (refLine m) := by
  induction gs generalizing i with
  | nil => simp [refLines]
  | cons g gs ih =>
    rw [refLines]
    cases i with
    | zero => simp
    | succ i => simpa using ih i

/-- **C44 (the part that holds), general form.** For every grammar without references by name, with
different token names along every nesting path: every outcome — the tree with its alternatives and its
texts, the remaining input, the tree without success, the error, the panic — is that of the reference
interpreter, in which a token takes the first of its alternatives that matches.  Spelled out for the
root: the recorded alternative matches, and every earlier one matches nothing or fails. -/
theorem C44_every_choice_partial (g : Grammar) (hg : RefGrammar g) (input : Bytes) :
    AgreesR g input (refGrammar false g [] input) ∧
    ∀ t, Parses g input (.ok t) → t.isSuccessful = true →
      ∃ i gl es rest, t.shape = .node g.root.name i es ∧
        t.remaining = (rootMode g).skip [] rest ∧
        g.root.lines[i]? = some gl ∧ refLine (rootMode g) gl [] input = .found (es, rest) ∧
        ∀ j gj, j < i → g.root.lines[j]? = some gj →
          refLine (rootMode g) gj [] input = .blank ∨ refLine (rootMode g) gj [] input = .refused := by
  have ha := ref_execute g hg input
  refine ⟨ha, fun t ht hs => ?_⟩
  obtain ⟨x, hx, _⟩ := (ha.ok_iff t.remaining).mp ⟨t, ht, hs, rfl⟩
  rw [hx] at ha
  obtain ⟨u, g1, _, g3, g4⟩ := ha
  have := ht.unique g1
  injection this with this
  subst this
  rcases g with ⟨⟨name, ls, ss⟩, chs⟩
  rw [refGrammar, refToken] at hx
  unfold tokenOf at hx
  simp only [Bool.false_eq_true, if_false] at hx
  change (firstOf (refLines (rootMode (.mk (.mk name ls ss) chs)) ls) 0 [] input).map _ = _ at hx
  cases hf : firstOf (refLines (rootMode (.mk (.mk name ls ss) chs)) ls) 0 [] input with
  | blank => rw [hf] at hx; simp [Ans.map] at hx
  | refused => rw [hf] at hx; simp [Ans.map] at hx
  | crash => rw [hf] at hx; simp [Ans.map] at hx
  | found y =>
    rw [hf] at hx
    simp only [Ans.map, Ans.found.injEq] at hx
    obtain ⟨k, f, h1, h2, h3, h4⟩ := firstOf_found _ _ _ _ _ hf
    rw [refLines_getElem] at h2
    cases hl : ls[k]? with
    | none => rw [hl] at h2; simp at h2
    | some gl =>
      rw [hl] at h2
      simp only [Option.map_some, Option.some.injEq] at h2
      subst h2
      rw [Nat.zero_add] at h1
      refine ⟨k, gl, y.1.2, y.2, ?_, ?_, ?_, h3, ?_⟩
      · rw [g3, ← hx, h1]
        rfl
      · rw [g4, ← hx]
        rfl
      · exact hl
      · intro j gj hj hgj
        refine h4 j _ hj ?_
        rw [refLines_getElem]
        simp only [Grammar.root, Token.lines] at hgj
        rw [hgj]
        rfl

/-- `T: 'a' 'b' | 'a'` with blanks that may be skipped only before `c`, and behind it an external
grammar for the rest. -/
def choice2 : Grammar :=
  .mk (.mk "T" [.mk [byteC 97, byteC 98],
      .mk [byteC 97, .element 1 (some 1) (.external "rest" (.mk (.mk "C" [.mk [byteC 99]] [])
        [.mk (.mk "blank" [.mk [byteC 32]] []) none (some (.mk "next" [.mk [byteC 99]] []))]))]] []) []

/-- `a cd`: the second alternative; the external grammar takes all of the rest with it. -/
example : RefGrammar choice2 ∧ alternative (execute 6 choice2 [97, 32, 99, 100]) = some 1 := by
  refine ⟨?_, by decide +kernel⟩
  simp [choice2, RefGrammar, RefTok, RefLines, RefLine, RefConts, RefCont, RefContent, RefChans,
    RefChan, RefOpt, byteC, sameNames, Container.min, Container.name, Content.name, TokOK, Token.All,
    linesAll, GLine.All, lineAllowed, containerAllowed, GLine.containers, containersAll,
    Container.All, Content.All]

/-! ## C82: everything except, for exceptions whose first alternative is made of bytes -/

/-- Everything except a token. -/
def everythingBut (ex : Token) (esc : Option Token) : Grammar :=
  .mk (.mk "text" [.mk [.element 1 (some 1) (.everything "all" ex esc)]] []) []

/-- The containers match at the start of `d`, be it with nothing. -/
def MatchesAt (cs : List Container) (d : Bytes) : Prop :=
  ∃ t, Parses (.mk (.mk "stop" [.mk cs] []) []) d (.ok t)

theorem refToken_everythingBut (ex : Token) (esc : Option Token) (input : Bytes) :
    refGrammar false (everythingBut ex esc) [] input =
      if input = [] then .refused
      else match refToken ⟨refEscape esc, fun _ d => d, true⟩ ex [] input with
        | .found x => .found (.node "text" 0 [.mk "all" [x.1]], x.2)
        | .crash => .crash
        | _ => .refused := by
  rw [everythingBut, refGrammar_plain, refToken]
  unfold tokenOf
  simp only [Mode.plain, Bool.false_eq_true, if_false, refLines, firstOf, refLine, refSeq,
    refContainer, timesOf_once, refContent, Bool.not_false]
  by_cases h : input = []
  · simp [h, Ans.bind, Ans.map]
  · simp only [h, if_false]
    cases refToken ⟨refEscape esc, fun _ d => d, true⟩ ex [] input <;>
      simp [Ans.strict, Ans.bind, Ans.map, consElem, Container.name, Content.name]

theorem refToken_reverse (esc : Option Token) (name : String) (g : GLine) (others : List GLine)
    (ss : List Suite) (d : Bytes) :
    refToken ⟨refEscape esc, fun _ d => d, true⟩ (.mk name (g :: others) ss) [] d =
      (upTo (refEscape esc) (refLine ⟨refEscape esc, fun _ d => d, true⟩ g) (d.length + 1) [] d).bind
        (fun x => if x.1 = [] then .refused
          else .found (.node name 0 [.mk "" (x.1.map .byte)], x.2)) := by
  rw [refToken]
  unfold tokenOf
  simp only [if_true, refLines]

theorem refGrammar_stop {cs : List Container} (d : Bytes) :
    (refGrammar false (.mk (.mk "stop" [.mk cs] []) []) [] d).holds =
      (refLine Mode.plain (.mk cs) [] d).holds := by
  rw [refGrammar_plain, refToken]
  unfold tokenOf
  simp only [Mode.plain, Bool.false_eq_true, if_false, refLines, firstOf]
  generalize refLine ⟨none, fun _ d => d, false⟩ (.mk cs) [] d = r
  cases r <;> rfl

theorem bytesOnly_lineAllowed {cs : List Container} (hcs : BytesOnly cs) (F : Flags) :
    GLine.All (lineAllowed F) (.mk cs) := by
  rw [GLine.All]
  refine ⟨?_, ?_⟩
  · intro c hc
    obtain ⟨min, max, name, b, rfl⟩ := hcs c hc
    trivial
  · induction cs with
    | nil => simp [containersAll]
    | cons c cs ih =>
      obtain ⟨min, max, name, b, rfl⟩ := hcs c (by simp)
      rw [containersAll]
      exact ⟨by simp [Container.All, Content.All], ih (fun c hc => hcs c (by simp [hc]))⟩

theorem refGrammar_of_bytes {name : String} {cs : List Container} (hcs : BytesOnly cs)
    (hn : sameNames cs) (hm : ∀ c ∈ cs, c.min < 2 ^ 63) (ss : List Suite) :
    RefGrammar (.mk (.mk name [.mk cs] ss) []) := by
  simp only [RefGrammar, RefTok, RefLines, RefLine, RefChans, and_true]
  exact ⟨by simp, hn, refConts_bytes hcs hm⟩

theorem refSeq_bytes_no_crash {m : Mode} {cs : List Container} (hcs : BytesOnly cs) (p d : Bytes) :
    refSeq m cs p d ≠ .crash := by
  induction cs generalizing p d with
  | nil => simp [refSeq]
  | cons c cs ih =>
    obtain ⟨min, max, name, b, rfl⟩ := hcs c (by simp)
    have hmany : ∀ k n p d, manyOf (oneByte m.skip b) max k n p d ≠ .crash := by
      intro k
      induction k with
      | zero => intro n p d; simp [manyOf]
      | succ k ihk =>
        intro n p d
        unfold manyOf
        split
        · simp
        · cases hf : oneByte m.skip b p d with
          | found x =>
            simp only
            have := ihk (n + 1) d x.2
            cases hr : manyOf (oneByte m.skip b) max k (n + 1) d x.2 with
            | crash => exact absurd hr this
            | found _ => simp [Ans.map]
            | blank => simp [Ans.map]
            | refused => simp [Ans.map]
          | blank => simp
          | refused => simp
          | crash =>
            unfold oneByte at hf
            split at hf
            · simp at hf
            · split at hf <;> simp at hf
    rw [refSeq]
    beta_reduce
    have hc : refContainer m (.element min max (.value name b)) p d ≠ .crash := by
      rw [refContainer, refContent]
      unfold timesOf
      cases hr : manyOf (oneByte m.skip b) max d.length 0 p d with
      | crash => exact absurd hr (hmany _ _ _ _)
      | found x =>
        simp only [Ans.bind]
        split <;> simp
      | blank => simp [Ans.bind]
      | refused => simp [Ans.bind]
    cases hr : refContainer m (.element min max (.value name b)) p d with
    | crash => exact absurd hr hc
    | blank => simp [Ans.bind]
    | refused => simp [Ans.bind]
    | found x =>
      simp only [Ans.bind]
      cases hq : refSeq m cs x.2.1 x.2.2 with
      | crash => exact absurd hq (ih (fun c hc => hcs c (by simp [hc])) _ _)
      | found _ => simp [Ans.map]
      | blank => simp [Ans.map]
      | refused => simp [Ans.map]

theorem refLine_bytes_no_crash {m : Mode} {cs : List Container} (hcs : BytesOnly cs) (p d : Bytes) :
    refLine m (.mk cs) p d ≠ .crash := by
  rw [refLine]
  beta_reduce
  cases hr : refSeq m cs p d with
  | crash => exact absurd hr (refSeq_bytes_no_crash hcs p d)
  | found x =>
    simp only [Ans.bind]
    split <;> simp
  | blank => simp [Ans.bind]
  | refused => simp [Ans.bind]

/-- The exception matches, in the words of the reference interpreter. -/
theorem matchesAt_iff {cs : List Container} (hcs : BytesOnly cs) (hn : sameNames cs)
    (hm : ∀ c ∈ cs, c.min < 2 ^ 63) (esc : Option (Matcher Shape)) (p d : Bytes) :
    (refLine ⟨esc, fun _ d => d, true⟩ (.mk cs) p d).holds = true ↔ MatchesAt cs d := by
  have h1 := (ref_execute _ (refGrammar_of_bytes (name := "stop") hcs hn hm []) d).tree_iff
  rw [refGrammar_stop] at h1
  have h2 : refLine ⟨esc, fun _ d => d, true⟩ (.mk cs) p d = refLine Mode.plain (.mk cs) [] d := by
    rw [refLine_bytes (m := ⟨esc, fun _ d => d, true⟩) (m' := Mode.plain) rfl hcs]
    exact blind_line Mode.plain_blind (.mk cs) (bytesOnly_lineAllowed hcs _) p [] d
  rw [h2]
  exact h1.symm

/-- **C82 (the part that holds), general form.** "Everything except" an exception whose first
alternative is any sequence of bytes with any numbers of occurrences takes a non-empty text up to the
first place where that alternative matches, or up to the end of the input; it fails when the input is
empty or starts with the exception.  The other alternatives play no role. -/
theorem C82_everything_up_to_first_match_partial (name : String) (hname : name ≠ "text")
    (cs : List Container) (hcs : BytesOnly cs) (hn : sameNames cs) (hm : ∀ c ∈ cs, c.min < 2 ^ 63)
    (others : List GLine) (ho : RefLines [name, "text"] others) (input : Bytes) :
    (∀ m r, Succeeds (everythingBut (.mk name (.mk cs :: others) []) none) input m r ↔
      input = m ++ r ∧ m ≠ [] ∧ (∀ k, k < m.length → ¬ MatchesAt cs (input.drop k)) ∧
        (r = [] ∨ MatchesAt cs r)) ∧
    (Rejects (everythingBut (.mk name (.mk cs :: others) []) none) input ↔
      input = [] ∨ MatchesAt cs input) := by
  classical
  have hg : RefGrammar (everythingBut (.mk name (.mk cs :: others) []) none) := by
    simp only [everythingBut, RefGrammar, RefTok, RefLines, RefLine, RefConts, RefCont, RefContent,
      RefOpt, RefChans, and_true]
    refine ⟨by simp, by simp [sameNames, Container.min], by omega, ?_, ⟨hn, refConts_bytes hcs hm⟩, ho⟩
    simpa using hname
  have ha := ref_execute _ hg input
  rw [refToken_everythingBut, refToken_reverse] at ha
  have hS : ∀ p d, refLine ⟨refEscape none, fun _ d => d, true⟩ (.mk cs) p d ≠ .crash ∧
      (refLine ⟨refEscape none, fun _ d => d, true⟩ (.mk cs) p d).holds =
        decide (MatchesAt cs d) := by
    intro p d
    refine ⟨refLine_bytes_no_crash hcs p d, ?_⟩
    rw [Bool.eq_iff_iff, matchesAt_iff hcs hn hm]
    simp
  have hne : refEscape none = none := by rw [refEscape]
  rw [hne] at ha hS
  rw [upTo_none hS _ _ _ (Nat.lt_succ_self _)] at ha
  simp only [Ans.bind] at ha
  have hspec := textUntil_spec (fun x => decide (MatchesAt cs x)) input
  by_cases hin : input = [] ∨ MatchesAt cs input
  · have hrej : Rejects (everythingBut (.mk name (.mk cs :: others) []) none) input := by
      refine ha.rejects (.inr ?_)
      rcases hin with hin | hin
      · rw [if_pos hin]
      · have : textUntil (fun x => decide (MatchesAt cs x)) input = ([], input) := by
          cases input with
          | nil => rfl
          | cons b r => unfold textUntil; rw [if_pos (by simpa using hin)]
        rw [this]
        simp
    refine ⟨fun m r => ⟨fun hs => absurd hrej hs.not_rejects, ?_⟩, ⟨fun _ => hin, fun _ => hrej⟩⟩
    rintro ⟨h1, h2, h3, _⟩
    exfalso
    rcases hin with hin | hin
    · rw [hin] at h1
      exact h2 (List.append_eq_nil_iff.mp h1.symm).1
    · exact h3 0 (List.length_pos_iff.mpr h2) (by simpa using hin)
  · rw [not_or] at hin
    have h : (textUntil (fun x => decide (MatchesAt cs x)) input).1 ≠ [] := by
      cases hi : input with
      | nil => exact absurd hi hin.1
      | cons b r =>
        rw [hi] at hin
        unfold textUntil
        rw [if_neg (by simpa using hin.2)]
        simp
    rw [if_neg hin.1, if_neg h] at ha
    have hsuc := ha.succeeds
    simp only [Shape.bytes, shapeElemsBytes, ShapeElem.bytes, shapesBytes, shapesBytes_bytes,
      List.append_nil] at hsuc
    refine ⟨fun m r => ⟨fun hs => ?_, ?_⟩, ⟨fun hr => absurd hr hsuc.not_rejects, fun hh => ?_⟩⟩
    · obtain ⟨rfl, rfl⟩ := hs.unique hsuc
      refine ⟨hspec.1, h, fun k hk => ?_, ?_⟩
      · simpa using hspec.2.1 k hk
      · simpa using hspec.2.2
    · rintro ⟨h1, h2, h3, h4⟩
      obtain ⟨e1, e2⟩ := stop_unique (fun x => decide (MatchesAt cs x)) hspec.1 h1 hspec.2.1
        (fun k hk => decide_eq_false (h3 k hk)) hspec.2.2 (by simpa using h4)
      rw [← e1, ← e2]
      exact hsuc
    · rcases hh with hh | hh
      · exact absurd hh hin.1
      · exact absurd hh hin.2

/-- Everything up to `-`, `--`, … -/
example (input m r : Bytes) :
    Succeeds (everythingBut (.mk "dashes" [.mk [.element 1 none (.value "dash" 45)]] []) none) input m r
      ↔ input = m ++ r ∧ m ≠ [] ∧
        (∀ k, k < m.length → ¬ MatchesAt [.element 1 none (.value "dash" 45)] (input.drop k)) ∧
        (r = [] ∨ MatchesAt [.element 1 none (.value "dash" 45)] r) :=
  (C82_everything_up_to_first_match_partial "dashes" (by simp) _
    (by intro c hc; simp at hc; exact ⟨_, _, _, _, hc⟩) (by simp [sameNames, Container.min])
    (by simp [Container.min]) [] (by simp [RefLines]) input).1 m r

/-- `E: T` with `T: 'a'`. -/
def nestedException : Token :=
  .mk "E" [.mk [.element 1 (some 1) (.token (.mk "T" [.mk [byteC 97]] []))]] []

/-- The claim of C82 for an exception: the text stops before the first place where the exception is
found by the same parser. -/
def StopsAt (ex : Token) : Prop :=
  ∀ input m r, Succeeds (everythingBut ex none) input m r →
    (∀ k, k < m.length → Rejects (.mk ex []) (input.drop k)) ∧ (r = [] ∨ ¬ Rejects (.mk ex []) r)

/-- **C82 is false for exceptions made of tokens**: tokens inside an exception are themselves read as
everything but their texts.  Everything except a token whose text is `a` takes the `a` of `ab` and stops
at `b`, and refuses `ba`. -/
theorem C82_nested_exception_negation :
    Succeeds (everythingBut nestedException none) [97, 98] [97] [98] ∧
    Rejects (everythingBut nestedException none) [98, 97] ∧ ¬ StopsAt nestedException := by
  have h1 : Succeeds (everythingBut nestedException none) [97, 98] [97] [98] :=
    succeeds_of_report (n := 6) (by decide +kernel)
  refine ⟨h1, .inl (parses_of_failed (n := 6) (by decide +kernel)), fun h => ?_⟩
  have h2 : Succeeds (.mk nestedException []) [97, 98] [97] [98] :=
    succeeds_of_report (n := 6) (by decide +kernel)
  exact h2.not_rejects ((h _ _ _ h1).1 0 (by simp))

/-! ## C124: escaped exceptions -/

/-- Everything up to the byte `q`, with the escape byte `e`. -/
def upToQuote (e q : UInt8) : Grammar :=
  everythingBut (.mk "quote" [.mk [byteC q]] []) (some (.mk "escape" [.mk [byteC e]] []))

/-- Put an escape byte before every quote. -/
def escapeQuotes (e q : UInt8) (w : Bytes) : Bytes :=
  w.flatMap (fun b => if b = q then [e, q] else [b])

theorem refLine_byte (m : Mode) (hm : m.skip = fun _ d => d) (b : UInt8) (p d : Bytes) :
    refLine m (.mk [byteC b]) p d =
      match d with
      | [] => .refused
      | b' :: r => if b = b' then .found ([.mk "byte" [.byte b]], r) else .refused := by
  simp only [byteC, refLine, refSeq, refContainer, timesOf_once, refContent, oneByte, hm]
  cases d with
  | nil => simp [Ans.bind]
  | cons b' r =>
    by_cases h : b = b'
    · simp [h, Ans.bind, Ans.map, consElem, Container.name, Content.name]
    · simp [h, Ans.bind]

theorem refToken_byte (name : String) (b : UInt8) (p d : Bytes) :
    refToken Mode.plain (.mk name [.mk [byteC b]] []) p d =
      match d with
      | [] => .refused
      | b' :: r => if b = b' then .found (.node name 0 [.mk "byte" [.byte b]], r) else .refused := by
  rw [refToken]
  unfold tokenOf
  simp only [Mode.plain, Bool.false_eq_true, if_false, refLines, firstOf]
  rw [refLine_byte _ rfl]
  cases d with
  | nil => rfl
  | cons b' r =>
    by_cases h : b = b'
    · simp [h, Ans.map]
    · simp [h, Ans.map]

/-- What may follow a text for its escaped form to be read back. -/
def EndsWell (e q : UInt8) (w tail : Bytes) : Prop :=
  (tail = [] ∧ w.getLast? ≠ some q) ∨ (∃ rest, tail = q :: rest) ∧ w.getLast? ≠ some e

theorem EndsWell.suffix {e q : UInt8} {w tail : Bytes} {b : UInt8} (h : EndsWell e q (b :: w) tail) :
    EndsWell e q w tail := by
  cases w with
  | nil =>
    rcases h with ⟨h1, _⟩ | ⟨h1, _⟩
    · exact .inl ⟨h1, by simp⟩
    · exact .inr ⟨h1, by simp⟩
  | cons c w => simpa [EndsWell, List.getLast?_cons_cons] using h

theorem upTo_escaped {e q : UInt8} (heq : e ≠ q) (tail : Bytes) (n : Nat) :
    ∀ (w : Bytes), w.length ≤ n → (∀ a b, w ≠ a ++ q :: q :: b) → EndsWell e q w tail →
    ∀ (k : Nat) (p : Bytes), (escapeQuotes e q w ++ tail).length < k →
    upTo (some (refToken Mode.plain (.mk "escape" [.mk [byteC e]] [])))
      (refLine ⟨some (refToken Mode.plain (.mk "escape" [.mk [byteC e]] [])), fun _ d => d, true⟩
        (.mk [byteC q])) k p (escapeQuotes e q w ++ tail) = .found (w, tail) := by
  induction n with
  | zero =>
    intro w hw _ hend k p hk
    have : w = [] := List.length_eq_zero_iff.mp (by omega)
    subst this
    simp only [escapeQuotes, List.flatMap_nil, List.nil_append] at hk ⊢
    obtain ⟨k, rfl⟩ : ∃ j, k = j + 1 := ⟨k - 1, by omega⟩
    unfold upTo
    rcases hend with ⟨rfl, _⟩ | ⟨⟨rest, rfl⟩, _⟩
    · rfl
    · rw [if_neg (by simp)]
      simp only [escaped, refToken_byte, heq, if_false, Ans.bind]
      rw [refLine_byte _ rfl]
      simp
  | succ n ih =>
    intro w hw hadj hend k p hk
    cases w with
    | nil => exact ih [] (by simp) hadj hend k p hk
    | cons b w =>
      obtain ⟨k, rfl⟩ : ∃ j, k = j + 1 := ⟨k - 1, by omega⟩
      have hadj' : ∀ a c, w ≠ a ++ q :: q :: c := by
        intro a c h
        exact hadj (b :: a) c (by rw [h]; rfl)
      have hw' : w.length ≤ n := by simp at hw; omega
      by_cases hb : b = q
      · subst hb
        have henc : escapeQuotes e b (b :: w) ++ tail = e :: b :: (escapeQuotes e b w ++ tail) := by
          simp [escapeQuotes]
        rw [henc] at hk ⊢
        unfold upTo
        rw [if_neg (by simp)]
        have hesc : escaped (some (refToken Mode.plain (.mk "escape" [.mk [byteC e]] [])))
            (refLine ⟨some (refToken Mode.plain (.mk "escape" [.mk [byteC e]] [])), fun _ d => d, true⟩
              (.mk [byteC b])) p (e :: b :: (escapeQuotes e b w ++ tail)) =
            .found ([b], b :: (escapeQuotes e b w ++ tail), escapeQuotes e b w ++ tail) := by
          simp only [escaped, refToken_byte, if_true]
          rw [if_neg (by simp), refLine_byte _ rfl]
          simp only [if_true]
          congr 2
          rw [List.length_cons, Nat.add_sub_cancel_left]
          rfl
        rw [hesc]
        simp only [Ans.bind]
        rw [refLine_byte _ rfl]
        cases w with
        | nil =>
          simp only [escapeQuotes, List.flatMap_nil, List.nil_append]
          rcases hend with ⟨_, hl⟩ | ⟨⟨rest, rfl⟩, _⟩
          · simp at hl
          · simp
        | cons c w =>
          have hc : c ≠ b := fun h => hadj [] w (by rw [h]; rfl)
          have henc' : escapeQuotes e b (c :: w) ++ tail = c :: (escapeQuotes e b w ++ tail) := by
            simp [escapeQuotes, hc]
          rw [henc'] at hk ⊢
          simp only [hc.symm, if_false]
          rw [ih w (by simp at hw'; omega)
            (fun a d h => hadj' (c :: a) d (by rw [h]; rfl)) hend.suffix.suffix k _
            (by simp only [List.length_cons] at hk; omega)]
          rfl
      · have henc : escapeQuotes e q (b :: w) ++ tail = b :: (escapeQuotes e q w ++ tail) := by
          simp [escapeQuotes, hb]
        rw [henc] at hk ⊢
        have hnoq : ∀ r, b = e → escapeQuotes e q w ++ tail ≠ q :: r := by
          intro r hbe h
          cases w with
          | nil =>
            simp only [escapeQuotes, List.flatMap_nil, List.nil_append] at h
            rcases hend with ⟨h1, _⟩ | ⟨_, h2⟩
            · rw [h] at h1
              simp at h1
            · simp [hbe] at h2
          | cons c w =>
            by_cases hc : c = q
            · subst hc
              simp [escapeQuotes, heq] at h
            · simp [escapeQuotes, hc] at h
        unfold upTo
        rw [if_neg (by simp)]
        have hesc : escaped (some (refToken Mode.plain (.mk "escape" [.mk [byteC e]] [])))
            (refLine ⟨some (refToken Mode.plain (.mk "escape" [.mk [byteC e]] [])), fun _ d => d, true⟩
              (.mk [byteC q])) p (b :: (escapeQuotes e q w ++ tail)) =
            .found ([], p, b :: (escapeQuotes e q w ++ tail)) := by
          simp only [escaped, refToken_byte]
          by_cases hbe : e = b
          · simp only [hbe, if_true]
            by_cases hnil : escapeQuotes b q w ++ tail = []
            · rw [if_pos hnil]
            · rw [if_neg hnil, refLine_byte _ rfl]
              rw [hbe] at hnoq
              cases hx : escapeQuotes b q w ++ tail with
              | nil => exact absurd hx hnil
              | cons c r =>
                have : q ≠ c := fun h => hnoq r rfl (by rw [hx, h])
                simp [this]
          · simp [hbe]
        rw [hesc]
        simp only [Ans.bind]
        rw [refLine_byte _ rfl]
        have hqb : q ≠ b := fun h => hb h.symm
        simp only [hqb, if_false]
        rw [ih w hw' hadj' hend.suffix k _ (by simp only [List.length_cons] at hk; omega)]
        rfl

theorem refGrammar_quoted (e q : UInt8) : RefGrammar (upToQuote e q) := by
  simp [upToQuote, everythingBut, RefGrammar, RefTok, RefLines, RefLine, RefConts, RefCont, RefContent,
    RefChans, RefOpt, byteC, sameNames, Container.min, tokenNames, linesNames, lineNames,
    containersNames, containerNames, contentNames]

/-- **C124 (the part that holds).** A text in which every quote is escaped is read back, up to the quote
behind it (or to the end of the input): when no two quotes of the text are next to each other and the
text does not end in an escape byte (at the end of the input: in a quote). -/
theorem C124_escaped_text_partial (e q : UInt8) (heq : e ≠ q) (w : Bytes) (hne : w ≠ [])
    (hadj : ∀ a b, w ≠ a ++ q :: q :: b) (tail : Bytes) (hend : EndsWell e q w tail) :
    Succeeds (upToQuote e q) (escapeQuotes e q w ++ tail) w tail := by
  have ha := ref_execute _ (refGrammar_quoted e q) (escapeQuotes e q w ++ tail)
  unfold upToQuote at ha
  rw [refToken_everythingBut, refToken_reverse] at ha
  have hesc : refEscape (some (.mk "escape" [.mk [byteC e]] [])) =
      some (refToken Mode.plain (.mk "escape" [.mk [byteC e]] [])) := by rw [refEscape]
  rw [hesc, upTo_escaped heq tail w.length w (Nat.le_refl _) hadj hend _ _ (Nat.lt_succ_self _)] at ha
  have hn : escapeQuotes e q w ++ tail ≠ [] := by
    cases w with
    | nil => exact absurd rfl hne
    | cons b w =>
      by_cases hb : b = q <;> simp [escapeQuotes, hb]
  rw [if_neg hn] at ha
  simp only [Ans.bind, hne, if_false] at ha
  have := ha.succeeds
  unfold upToQuote
  simpa only [Shape.bytes, shapeElemsBytes, ShapeElem.bytes, shapesBytes, shapesBytes_bytes,
    List.append_nil] using this

/-- `say \"hi\" now"`: the text is `say "hi" now`. -/
example : Succeeds (upToQuote 92 34)
    [115, 97, 121, 32, 92, 34, 104, 105, 92, 34, 32, 110, 111, 119, 34, 33]
    [115, 97, 121, 32, 34, 104, 105, 34, 32, 110, 111, 119] [34, 33] := by
  refine C124_escaped_text_partial 92 34 (by decide)
    [115, 97, 121, 32, 34, 104, 105, 34, 32, 110, 111, 119] (by simp) ?_ [34, 33]
    (.inr ⟨⟨[33], rfl⟩, by decide⟩)
  intro a b h
  have : ∀ (l : Bytes), l.length = 12 → (∀ i, i < 12 → l[i]? = some 34 → l[i + 1]? ≠ some 34) →
      l ≠ a ++ 34 :: 34 :: b := by
    intro l hl hi h
    refine hi a.length ?_ (by rw [h]; simp) (by rw [h]; simp)
    have := congrArg List.length h
    simp only [List.length_append, List.length_cons] at this
    omega
  exact this _ rfl (by decide) h

/-- The claim of C124: every non-empty text not ending in an escape byte is read back. -/
def EscapesWork (e q : UInt8) : Prop :=
  ∀ w rest, w ≠ [] → w.getLast? ≠ some e →
    Succeeds (upToQuote e q) (escapeQuotes e q w ++ q :: rest) w (q :: rest)

/-- **C124 is false**: for every escape byte and quote, a text with two quotes next to each other is cut
after the escape byte of the second one. -/
theorem C124_negation (e q : UInt8) (heq : e ≠ q) (rest : Bytes) :
    Succeeds (upToQuote e q) (escapeQuotes e q [q, q] ++ q :: rest) [q, e] (q :: q :: rest) ∧
    ¬ EscapesWork e q := by
  have h : Succeeds (upToQuote e q) (escapeQuotes e q [q, q] ++ q :: rest) [q, e] (q :: q :: rest) := by
    have ha := ref_execute _ (refGrammar_quoted e q) (escapeQuotes e q [q, q] ++ q :: rest)
    unfold upToQuote at ha
    rw [refToken_everythingBut, refToken_reverse] at ha
    have hesc : refEscape (some (.mk "escape" [.mk [byteC e]] [])) =
        some (refToken Mode.plain (.mk "escape" [.mk [byteC e]] [])) := by rw [refEscape]
    have henc : escapeQuotes e q [q, q] ++ q :: rest = e :: q :: e :: q :: q :: rest := by
      simp [escapeQuotes]
    rw [hesc, henc] at ha
    have hup : upTo (some (refToken Mode.plain (.mk "escape" [.mk [byteC e]] [])))
        (refLine ⟨some (refToken Mode.plain (.mk "escape" [.mk [byteC e]] [])), fun _ d => d, true⟩
          (.mk [byteC q])) ((e :: q :: e :: q :: q :: rest).length + 1) []
        (e :: q :: e :: q :: q :: rest) = .found ([q, e], q :: q :: rest) := by
      have hqe : q ≠ e := fun h => heq h.symm
      simp [upTo, escaped, refToken_byte, refLine_byte, Ans.bind, Ans.map, heq, hqe]
    rw [hup] at ha
    simp only [Ans.bind] at ha
    have := ha.succeeds
    rw [henc]
    unfold upToQuote
    simpa [Shape.bytes, shapeElemsBytes, ShapeElem.bytes, shapesBytes, shapesBytes_bytes] using this
  refine ⟨h, fun hc => ?_⟩
  have h2 := hc [q, q] rest (by simp) (by simpa using fun h => heq h.symm)
  have := (h.unique h2).1
  simp at this
  exact heq this

/-- **C124 is false at the end of the input**: an escaped quote that ends the input makes the parser
panic. -/
theorem C124_end_negation (e q : UInt8) (heq : e ≠ q) : Parses (upToQuote e q) [e, q] .panic := by
  have ha := ref_execute _ (refGrammar_quoted e q) [e, q]
  unfold upToQuote at ha
  rw [refToken_everythingBut, refToken_reverse] at ha
  have hesc : refEscape (some (.mk "escape" [.mk [byteC e]] [])) =
      some (refToken Mode.plain (.mk "escape" [.mk [byteC e]] [])) := by rw [refEscape]
  rw [hesc] at ha
  have hqe : q ≠ e := fun h => heq h.symm
  have : AgreesR (upToQuote e q) [e, q] .crash := by
    unfold upToQuote
    simpa [upTo, escaped, refToken_byte, refLine_byte, Ans.bind, Ans.map, heq, hqe] using ha
  exact this

end Rodkina.Props
