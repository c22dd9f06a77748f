import Verif.AstRefProps

/-!
# Conditions of channels (C123)
-/

namespace Rodkina.Props

open Rodkina.Ast

/-! ## C123: channel conditions -/

/-- The word `bs`, with one channel. -/
def wordWith (bs : Bytes) (c : Channel) : Grammar := .mk (.mk "word" [.mk (bs.map byteC)] []) [c]

/-- The text of the channel is at the start of `d`, with the rest `r`. -/
def ChannelAt (c : Channel) (d r : Bytes) : Prop :=
  ∃ t, Parses (.mk c.token []) d (.ok t) ∧ t.isSuccessful = true ∧ t.remaining = r

/-- A condition holds at the start of `d`. -/
def HoldsAt (o : Option Token) (d : Bytes) : Prop :=
  ∀ e, o = some e → ∃ t, Parses (.mk e []) d (.ok t)

/-- What the parser does: the first condition is tested at the start of `p`. -/
def SkipStep (c : Channel) (p d r : Bytes) : Prop :=
  ChannelAt c d r ∧ HoldsAt c.previous p ∧ HoldsAt c.next r

/-- Skip as long as possible; `p` becomes the text skipped last with all that follows. -/
inductive SkipAll (c : Channel) : Bytes → Bytes → Bytes → Prop where
  | stop (p d : Bytes) (h : ∀ r, ¬ SkipStep c p d r) : SkipAll c p d d
  | skip (p d r d' : Bytes) (h : SkipStep c p d r) (h' : SkipAll c d r d') : SkipAll c p d d'

/-- Read the bytes of a word; in front of each the channel is skipped.  For the next byte `p` becomes
all of the input from this byte and the texts skipped in front of it. -/
inductive ReadWord (c : Channel) : Bytes → Bytes → Bytes → Bytes → Prop where
  | nil (p d : Bytes) : ReadWord c [] p d d
  | cons (b : UInt8) (bs p d r rest : Bytes) (h : SkipAll c p d (b :: r))
      (h' : ReadWord c bs d r rest) : ReadWord c (b :: bs) p d rest

theorem refChannel_iff {c : Channel} (hc : RefChan c) (p d r : Bytes) :
    refChannel c p d = some r ↔ SkipStep c p d r := by
  rcases c with ⟨t, a, b⟩
  unfold RefChan at hc
  obtain ⟨⟨h1, h2⟩, ⟨h3, _⟩, ⟨h5, _⟩⟩ := hc
  have hat : ∀ r, ChannelAt (.mk t a b) d r ↔ ∃ x, refToken Mode.plain t p d = .found x ∧ x.2 = r := by
    intro r
    have := (ref_execute (.mk t []) (by rw [RefGrammar]; exact ⟨h1, by simp [RefChans]⟩) d).ok_iff r
    rw [refGrammar_plain, blind_token Mode.plain_blind t h2 [] p d] at this
    exact this
  have hcond : ∀ (o : Option Token), RefOpt [] o → ∀ x, HoldsAt o x ↔ refCondition o x = true := by
    intro o ho x
    cases o with
    | none => simp [HoldsAt, refCondition]
    | some e =>
      have := (ref_execute (.mk e []) (by
        rw [RefGrammar]; exact ⟨by simpa [RefOpt] using ho, by simp [RefChans]⟩) x).tree_iff
      rw [refGrammar_plain] at this
      rw [refCondition, ← this]
      simp [HoldsAt]
  unfold SkipStep
  rw [refChannel, hat, hcond _ (by simpa [Channel.previous] using h3),
    hcond _ (by simpa [Channel.next] using h5)]
  beta_reduce
  simp only [Channel.previous, Channel.next]
  cases refToken Mode.plain t p d with
  | found x =>
    simp only [Ans.found.injEq, exists_eq_left']
    constructor
    · intro h
      by_cases hh : (refCondition a p && refCondition b x.2) = true
      · rw [if_pos hh] at h
        simp only [Option.some.injEq] at h
        subst h
        simpa using hh
      · rw [if_neg hh] at h
        simp at h
    · rintro ⟨rfl, h1, h2⟩
      simp [h1, h2]
  | blank => simp
  | refused => simp
  | crash => simp

/-- A channel text is not empty. -/
theorem SkipStep.shorter {c : Channel} (hc : RefChan c) {p d r : Bytes} (h : SkipStep c p d r) :
    r.length < d.length := by
  rcases c with ⟨t, a, b⟩
  obtain ⟨⟨tr, ⟨_, n, hn⟩, hs, hr⟩, _⟩ := h
  unfold RefChan at hc
  unfold execute at hn
  simp only [Channel.token, Grammar.root, Grammar.channels] at hn
  have hgood := (token_good Flags.none n t Ctx.plain [] d hc.1.2 (ctxOK_plain _) [] (stkAll_nil _)).2.1
  obtain ⟨⟨_, _, hexact⟩, hlt⟩ := (hgood tr hn).2 hs
  rw [hr] at hlt
  exact hlt

theorem channelsOnce_one (f : Bytes → Bytes → Option Bytes) (p d : Bytes) :
    channelsOnce [f] p d = match f p d with
      | some r => (d, r)
      | none => (p, d) := by
  unfold channelsOnce
  cases f p d <;> rfl

theorem skipAll_iff {c : Channel} (hc : RefChan c) (k : Nat) (p d d' : Bytes) (hk : d.length < k) :
    SkipAll c p d d' ↔ channelsSkip (refChannels [c]) k p d = d' := by
  induction k generalizing p d with
  | zero => omega
  | succ k ih =>
    have hch : refChannels [c] = [refChannel c] := by simp [refChannels]
    unfold channelsSkip
    simp only [hch] at ih ⊢
    rw [channelsOnce_one]
    cases hr : refChannel c p d with
    | none =>
      simp only [if_true]
      have hno : ∀ r, ¬ SkipStep c p d r := by
        intro r h
        rw [(refChannel_iff hc p d r).mpr h] at hr
        simp at hr
      constructor
      · intro h
        cases h with
        | stop => rfl
        | skip _ _ _ _ h _ => exact absurd h (hno _)
      · rintro rfl
        exact .stop p d hno
    | some r =>
      have hstep := (refChannel_iff hc p d r).mp hr
      have hlt := hstep.shorter hc
      have hne : r ≠ d := fun h => by rw [h] at hlt; omega
      simp only [hne, if_false]
      rw [← ih d r (by omega)]
      constructor
      · intro h
        cases h with
        | stop _ _ h => exact absurd hstep (h r)
        | skip _ _ r' _ h h' =>
          have := (refChannel_iff hc p d _).mpr h
          rw [hr] at this
          injection this with this
          subst this
          exact h'
      · exact fun h => .skip p d r d' hstep h

theorem SkipAll.shorter {c : Channel} (hc : RefChan c) {p d d' : Bytes} (h : SkipAll c p d d') :
    d'.length ≤ d.length := by
  induction h with
  | stop => exact Nat.le_refl _
  | skip p d r d' h _ ih => exact Nat.le_trans ih (Nat.le_of_lt (h.shorter hc))

/-- How the word is read. -/
abbrev wordMode (c : Channel) : Mode :=
  ⟨none, fun p d => channelsSkip (refChannels [c]) (d.length + 1) p d, false⟩

theorem refSeq_word {c : Channel} (hc : RefChan c) (bs p d : Bytes) :
    (∀ x, refSeq (wordMode c) (bs.map byteC) p d = .found x →
      shapeElemsBytes x.1 = bs ∧ (x.1 = [] ↔ bs = []) ∧ ReadWord c bs p d x.2) ∧
    (∀ rest, ReadWord c bs p d rest →
      ∃ es, refSeq (wordMode c) (bs.map byteC) p d = .found (es, rest)) ∧
    refSeq (wordMode c) (bs.map byteC) p d ≠ .blank := by
  induction bs generalizing p d with
  | nil =>
    rw [List.map_nil, refSeq]
    refine ⟨?_, ?_, by simp⟩
    · intro x hx
      simp only [Ans.found.injEq] at hx
      subst hx
      exact ⟨rfl, by simp, .nil p d⟩
    · intro rest h
      cases h
      exact ⟨[], rfl⟩
  | cons b bs ih =>
    have hb : byteC b = .element 1 (some 1) (.value "byte" b) := rfl
    rw [List.map_cons, hb, refSeq]
    beta_reduce
    rw [refContainer, timesOf_once, refContent]
    have hsk : ∀ d', SkipAll c p d d' ↔ channelsSkip (refChannels [c]) (d.length + 1) p d = d' :=
      fun d' => skipAll_iff hc _ p d d' (Nat.lt_succ_self _)
    have hshort : ∀ d', SkipAll c p d d' → d'.length ≤ d.length := fun d' h => h.shorter hc
    by_cases hd : d = []
    · rw [if_pos hd]
      refine ⟨by simp [Ans.bind], ?_, by simp [Ans.bind]⟩
      intro rest h
      cases h with
      | cons _ _ _ _ r _ h h' =>
        have := hshort _ h
        rw [hd] at this
        simp at this
    · rw [if_neg hd]
      unfold oneByte
      simp only [wordMode]
      cases hskip : channelsSkip (refChannels [c]) (d.length + 1) p d with
      | nil =>
        refine ⟨by simp [Ans.bind], ?_, by simp [Ans.bind]⟩
        intro rest h
        cases h with
        | cons _ _ _ _ r _ h h' =>
          have := (hsk _).mp h
          rw [hskip] at this
          simp at this
      | cons b' r =>
        by_cases hbb : b = b'
        · subst hbb
          simp only [if_true, Ans.bind]
          obtain ⟨h1, h2, h3⟩ := ih d r
          refine ⟨?_, ?_, ?_⟩
          · intro x hx
            cases hs : refSeq (wordMode c) (bs.map byteC) d r with
            | found y =>
              rw [hs] at hx
              simp only [Ans.map, Ans.found.injEq] at hx
              subst hx
              obtain ⟨g1, g2, g3⟩ := h1 y hs
              refine ⟨?_, ?_, .cons b bs p d r _ ((hsk _).mpr hskip) g3⟩
              · simp [consElem, shapeElemsBytes, ShapeElem.bytes, shapesBytes, Shape.bytes, g1]
              · simp [consElem]
            | blank => exact absurd hs h3
            | refused => rw [hs] at hx; simp [Ans.map] at hx
            | crash => rw [hs] at hx; simp [Ans.map] at hx
          · intro rest h
            cases h with
            | cons _ _ _ _ r' _ h h' =>
              have := (hsk _).mp h
              rw [hskip] at this
              injection this with _ this
              subst this
              obtain ⟨es, he⟩ := h2 rest h'
              rw [he]
              exact ⟨_, rfl⟩
          · cases hs : refSeq (wordMode c) (bs.map byteC) d r with
            | found y => simp [Ans.map]
            | blank => exact absurd hs h3
            | refused => simp [Ans.map]
            | crash => simp [Ans.map]
        · simp only [hbb, if_false, Ans.bind]
          refine ⟨by simp, ?_, by simp⟩
          intro rest h
          cases h with
          | cons _ _ _ _ r' _ h h' =>
            have := (hsk _).mp h
            rw [hskip] at this
            injection this with this _
            exact absurd this.symm hbb

theorem refGrammar_word {c : Channel} (hc : RefChan c) (bs : Bytes) : RefGrammar (wordWith bs c) := by
  simp only [wordWith, RefGrammar, RefTok, RefLines, RefLine, RefChans, and_true]
  exact ⟨⟨by simp, sameNames_word bs, refConts_bytes (bytesOnly_word bs) (wordMin bs)⟩, hc⟩

/-- **C123, what the parser does.** A word of bytes with one channel (whose token has neither escape
tokens nor external grammars, whose conditions have no escape tokens, all without references by name) is
found exactly when the bytes of the word can be read one after the other, skipping channel texts in
front of each: a channel text is skipped when `next` holds behind it and `previous` holds at the start of
the previous item (with the channel texts skipped in front of that item), or of the channel text skipped
last.  Behind the word, and in front of its first byte, `previous` is tested on nothing. -/
theorem C123_channel_conditions_partial (c : Channel) (hc : RefChan c) (bs : Bytes) (hbs : bs ≠ [])
    (input rem : Bytes) :
    Succeeds (wordWith bs c) input bs rem ↔
      ∃ r, ReadWord c bs [] input r ∧ SkipAll c [] r rem := by
  have ha := ref_execute _ (refGrammar_word hc bs) input
  obtain ⟨h1, h2, h3⟩ := refSeq_word hc bs [] input
  have href : refGrammar false (wordWith bs c) [] input =
      match refSeq (wordMode c) (bs.map byteC) [] input with
      | .found x => if x.1.isEmpty then .blank
          else .found (.node "word" 0 x.1, channelsSkip (refChannels [c]) (x.2.length + 1) [] x.2)
      | .blank => .blank
      | .refused => .refused
      | .crash => .crash := by
    rw [wordWith, refGrammar, refToken]
    unfold tokenOf
    simp only [Bool.false_eq_true, if_false, refLines, firstOf, refLine]
    cases refSeq (wordMode c) (bs.map byteC) [] input with
    | found x =>
      simp only [Ans.bind]
      by_cases hx : x.1.isEmpty = true
      · simp [hx, Ans.map]
      · simp [hx, Ans.map]
    | blank => rfl
    | refused => rfl
    | crash => rfl
  constructor
  · rintro ⟨t, ht, hs, hb, hr⟩
    obtain ⟨x, hx, hxr⟩ := (ha.ok_iff rem).mp ⟨t, ht, hs, hr⟩
    rw [href] at hx
    cases hsq : refSeq (wordMode c) (bs.map byteC) [] input with
    | found y =>
      rw [hsq] at hx
      obtain ⟨_, g2, g3⟩ := h1 y hsq
      simp only at hx
      split at hx
      · simp at hx
      · simp only [Ans.found.injEq] at hx
        subst hx
        exact ⟨y.2, g3, (skipAll_iff hc _ _ _ _ (Nat.lt_succ_self _)).mpr hxr⟩
    | blank => rw [hsq] at hx; simp at hx
    | refused => rw [hsq] at hx; simp at hx
    | crash => rw [hsq] at hx; simp at hx
  · rintro ⟨r, hr, hsk⟩
    obtain ⟨es, he⟩ := h2 r hr
    obtain ⟨g1, g2, _⟩ := h1 _ he
    rw [href, he] at ha
    simp only at g1 g2 ha
    have hne : es ≠ [] := fun h => hbs (g2.mp h)
    rw [if_neg (by simpa using hne), (skipAll_iff hc _ _ _ _ (Nat.lt_succ_self _)).mp hsk] at ha
    have := ha.succeeds
    simp only [Shape.bytes, g1] at this
    exact this

/-! ### The claim -/

/-- What was read of the input when `d` is left. -/
def readBefore (input d : Bytes) : Bytes := input.take (input.length - d.length)

/-- The claim of C123: `previous` holds for a text that ends directly in front of the channel text,
`next` holds directly behind it. -/
def ClaimStep (c : Channel) (input d r : Bytes) : Prop :=
  ChannelAt c d r ∧
  (∀ e, c.previous = some e → ∃ a m, a <:+ readBefore input d ∧ Succeeds (.mk e []) a m []) ∧
  HoldsAt c.next r

/-- Skip as long as possible. -/
inductive ClaimSkip (c : Channel) (input : Bytes) : Bytes → Bytes → Prop where
  | stop (d : Bytes) (h : ∀ r, ¬ ClaimStep c input d r) : ClaimSkip c input d d
  | skip (d r d' : Bytes) (h : ClaimStep c input d r) (h' : ClaimSkip c input r d') :
      ClaimSkip c input d d'

/-- Read the bytes of a word. -/
inductive ClaimRead (c : Channel) (input : Bytes) : Bytes → Bytes → Bytes → Prop where
  | nil (d : Bytes) : ClaimRead c input [] d d
  | cons (b : UInt8) (bs d r rest : Bytes) (h : ClaimSkip c input d (b :: r))
      (h' : ClaimRead c input bs r rest) : ClaimRead c input (b :: bs) d rest

/-- The claim of C123 for words. -/
def ConditionsRight (c : Channel) : Prop :=
  ∀ bs input rem, bs ≠ [] → (Succeeds (wordWith bs c) input bs rem ↔
    ∃ r, ClaimRead c input bs input r ∧ ClaimSkip c input r rem)

/-- **C123 (the part that holds).** The claim holds for channels without the condition `previous`: a
channel text is skipped exactly when `next` holds directly behind it. -/
theorem C123_next_condition_partial (c : Channel) (hc : RefChan c) (hp : c.previous = none) :
    ConditionsRight c := by
  have hstep : ∀ input p d r, SkipStep c p d r ↔ ClaimStep c input d r := by
    intro input p d r
    unfold SkipStep ClaimStep HoldsAt
    simp [hp]
  have hskip : ∀ input p d d', SkipAll c p d d' ↔ ClaimSkip c input d d' := by
    intro input p d d'
    constructor
    · intro h
      induction h with
      | stop p d h => exact .stop d (fun r hr => h r ((hstep input p d r).mpr hr))
      | skip p d r d' h _ ih => exact .skip d r d' ((hstep input p d r).mp h) ih
    · intro h
      induction h generalizing p with
      | stop d h => exact .stop p d (fun r hr => h r ((hstep input p d r).mp hr))
      | skip d r d' h _ ih => exact .skip p d r d' ((hstep input p d r).mpr h) (ih d)
  have hread : ∀ input bs p d r, ReadWord c bs p d r ↔ ClaimRead c input bs d r := by
    intro input bs p d r
    constructor
    · intro h
      induction h with
      | nil p d => exact .nil d
      | cons b bs p d r rest h _ ih => exact .cons b bs d r rest ((hskip input _ _ _).mp h) ih
    · intro h
      induction h generalizing p with
      | nil d => exact .nil p d
      | cons b bs d r rest h _ ih => exact .cons b bs p d r rest ((hskip input _ _ _).mpr h) (ih d)
  intro bs input rem hbs
  rw [C123_channel_conditions_partial c hc bs hbs input rem]
  constructor
  · rintro ⟨r, h1, h2⟩
    exact ⟨r, (hread input _ _ _ _).mp h1, (hskip input _ _ _).mp h2⟩
  · rintro ⟨r, h1, h2⟩
    exact ⟨r, (hread input _ _ _ _).mpr h1, (hskip input _ _ _).mpr h2⟩

/-- A blank that may be skipped in front of `b`. -/
def blankBeforeB : Channel :=
  .mk (.mk "blank" [.mk [byteC 32]] []) none (some (.mk "next" [.mk [byteC 98]] []))

/-- The condition is met in `a b`, not in `a  b`. -/
example : ConditionsRight blankBeforeB ∧ Succeeds (wordWith [97, 98] blankBeforeB) [97, 32, 98] [97, 98] []
    ∧ Rejects (wordWith [97, 98] blankBeforeB) [97, 32, 32, 98] := by
  refine ⟨C123_next_condition_partial _ ?_ rfl, succeeds_of_report (n := 6) (by decide +kernel),
    .inl (parses_of_failed (n := 6) (by decide +kernel))⟩
  simp [blankBeforeB, RefTok, RefLines, RefLine, RefConts, RefCont, RefContent,
    RefChan, RefOpt, byteC, sameNames, Container.min, TokOK, Token.All,
    linesAll, GLine.All, lineAllowed, containerAllowed, GLine.containers, containersAll,
    Container.All, Content.All]

example : ∃ r, ReadWord blankBeforeB [97, 98] [] [97, 32, 98] r ∧ SkipAll blankBeforeB [] r [] := by
  refine (C123_channel_conditions_partial blankBeforeB ?_ [97, 98] (by simp) [97, 32, 98] []).mp
    (succeeds_of_report (n := 6) (by decide +kernel))
  simp [blankBeforeB, RefTok, RefLines, RefLine, RefConts, RefCont, RefContent,
    RefChan, RefOpt, byteC, sameNames, Container.min, TokOK, Token.All,
    linesAll, GLine.All, lineAllowed, containerAllowed, GLine.containers, containersAll,
    Container.All, Content.All]

/-- A blank that may be skipped behind `x` and behind `y`. -/
def blankBehindXY : Channel :=
  .mk (.mk "blank" [.mk [byteC 32]] []) (some (.mk "previous" [.mk [byteC 120], .mk [byteC 121]] [])) none

theorem refChan_blankBehindXY : RefChan blankBehindXY := by
  simp [blankBehindXY, RefTok, RefLines, RefLine, RefConts, RefCont, RefContent,
    RefChan, RefOpt, byteC, sameNames, Container.min, TokOK, Token.All,
    linesAll, GLine.All, lineAllowed, containerAllowed, GLine.containers, containersAll,
    Container.All, Content.All]

/-- **C123 is false** with the condition `previous`: `x y z` is refused for the word `xyz`, although each
of its blanks is directly behind `x` or `y`. -/
theorem C123_negation : Rejects (wordWith [120, 121, 122] blankBehindXY) [120, 32, 121, 32, 122] ∧
    ¬ ConditionsRight blankBehindXY := by
  have hrej : Rejects (wordWith [120, 121, 122] blankBehindXY) [120, 32, 121, 32, 122] :=
    .inl (parses_of_failed (n := 6) (by decide +kernel))
  refine ⟨hrej, fun h => ?_⟩
  have hno : ∀ input d, failed (execute 6 (.mk blankBehindXY.token []) d) = true →
      ∀ r, ¬ ClaimStep blankBehindXY input d r := by
    intro input d hf r hr
    obtain ⟨⟨t, ht, _⟩, _⟩ := hr
    exact absurd (ht.unique (parses_of_failed hf)) (by simp)
  have hyes : ∀ input d r, Succeeds (.mk blankBehindXY.token []) d [32] r →
      (∃ a m, a <:+ readBefore input d ∧
        Succeeds (.mk (.mk "previous" [.mk [byteC 120], .mk [byteC 121]] []) []) a m []) →
      ClaimStep blankBehindXY input d r := by
    intro input d r h1 h2
    obtain ⟨t, g1, g2, _, g4⟩ := h1
    refine ⟨⟨t, g1, g2, g4⟩, ?_, ?_⟩
    · intro e he
      simp only [blankBehindXY, Channel.previous, Option.some.injEq] at he
      subst he
      exact h2
    · intro e he
      simp [blankBehindXY, Channel.next] at he
  refine (((h [120, 121, 122] [120, 32, 121, 32, 122] [] (by simp)).mpr ⟨[], ?_, ?_⟩).not_rejects hrej)
  · refine .cons 120 _ _ [32, 121, 32, 122] _ (.stop _ (hno _ _ (by decide +kernel))) ?_
    refine .cons 121 _ _ [32, 122] _ (.skip _ [121, 32, 122] _ (hyes _ _ _
      (succeeds_of_report (n := 6) (by decide +kernel))
      ⟨[120], [120], by simp [readBefore], succeeds_of_report (n := 6) (by decide +kernel)⟩)
      (.stop _ (hno _ _ (by decide +kernel)))) ?_
    refine .cons 122 _ _ [] _ (.skip _ [122] _ (hyes _ _ _
      (succeeds_of_report (n := 6) (by decide +kernel))
      ⟨[121], [121], ⟨[120, 32], by simp [readBefore]⟩,
        succeeds_of_report (n := 6) (by decide +kernel)⟩)
      (.stop _ (hno _ _ (by decide +kernel)))) ?_
    exact .nil _
  · exact .stop _ (hno _ _ (by decide +kernel))

end Rodkina.Props
