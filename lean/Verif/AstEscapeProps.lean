import Verif.AstEscapeSpec
import Verif.AstRefProps

/-!
# Everything-except with an escape token, for every input (C124)
-/

namespace Rodkina.Props

open Rodkina.Ast Rodkina.EscapeSpec

/-- Everything up to the word `q`, with the escape word `e`. -/
def upToWord (e q : Bytes) : Grammar :=
  everythingBut (.mk "quote" [.mk (q.map byteC)] []) (some (.mk "escape" [.mk (e.map byteC)] []))

theorem refSeq_spelled (m : Mode) (hm : m.skip = fun _ d => d) (w : Bytes) (p d : Bytes) :
    (w <+: d → ∃ es, (es = [] ↔ w = []) ∧ refSeq m (w.map byteC) p d = .found (es, d.drop w.length)) ∧
    (¬ w <+: d → refSeq m (w.map byteC) p d = .refused) := by
  induction w generalizing p d with
  | nil => exact ⟨fun _ => ⟨[], by simp, by simp [refSeq]⟩, fun h => absurd (List.nil_prefix) h⟩
  | cons b w ih =>
    simp only [List.map_cons, byteC, refSeq, refContainer, timesOf_once, refContent, oneByte, hm]
    cases d with
    | nil => simp [Ans.bind]
    | cons b' r =>
      by_cases h : b = b'
      · subst h
        have := ih (b :: r) r
        constructor
        · intro hp
          obtain ⟨es, _, h2⟩ := this.1 ((List.cons_prefix_cons.mp hp).2)
          refine ⟨consElem (Container.element 1 (some 1) (Content.value "byte" b)).name [Shape.byte b] es, ?_, ?_⟩
          · simp [consElem]
          · simp [Ans.bind, Ans.map, h2]
        · intro hp
          have h2 := this.2 (fun hx => hp (List.cons_prefix_cons.mpr ⟨rfl, hx⟩))
          simp [Ans.bind, Ans.map, h2]
      · simp [h, Ans.bind]

theorem refLine_spelled (m : Mode) (hm : m.skip = fun _ d => d) (w : Bytes) (hw : w ≠ []) (p d : Bytes) :
    (w <+: d → ∃ es, refLine m (.mk (w.map byteC)) p d = .found (es, d.drop w.length)) ∧
    (¬ w <+: d → refLine m (.mk (w.map byteC)) p d = .refused) := by
  obtain ⟨h1, h2⟩ := refSeq_spelled m hm w p d
  constructor
  · intro h
    obtain ⟨es, h3, h4⟩ := h1 h
    refine ⟨es, ?_⟩
    have : es ≠ [] := fun hx => hw (h3.mp hx)
    simp [refLine, h4, Ans.bind, this]
  · intro h
    simp [refLine, h2 h, Ans.bind]

theorem refToken_spelled (name : String) (w : Bytes) (hw : w ≠ []) (p d : Bytes) :
    (w <+: d → ∃ s, refToken Mode.plain (.mk name [.mk (w.map byteC)] []) p d =
      .found (s, d.drop w.length)) ∧
    (¬ w <+: d → refToken Mode.plain (.mk name [.mk (w.map byteC)] []) p d = .refused) := by
  obtain ⟨h1, h2⟩ := refLine_spelled Mode.plain rfl w hw p d
  rw [refToken]
  unfold tokenOf
  simp only [Mode.plain, Bool.false_eq_true, if_false, refLines, firstOf]
  constructor
  · intro h
    obtain ⟨es, h3⟩ := h1 h
    simp only [Mode.plain] at h3
    exact ⟨_, by rw [h3]; rfl⟩
  · intro h
    have h3 := h2 h
    simp only [Mode.plain] at h3
    rw [h3]
    rfl

/-- The answer of the reference interpreter for what is read. -/
def ansOf : Option (Bytes × Bytes) → Ans (Bytes × Bytes)
  | none => .crash
  | some x => .found x

theorem ansOf_map (o : Option (Bytes × Bytes)) (f : Bytes × Bytes → Bytes × Bytes) :
    (ansOf o).map f = ansOf (o.map f) := by cases o <;> rfl

/-- The matchers of the two words. -/
def escW (e : Bytes) : Matcher Shape := refToken Mode.plain (.mk "escape" [.mk (e.map byteC)] [])
def excW (e q : Bytes) : Matcher (List ShapeElem) :=
  refLine ⟨some (escW e), fun _ d => d, true⟩ (.mk (q.map byteC))

theorem excW_yes (e q : Bytes) (hq : q ≠ []) (p d : Bytes) (h : q <+: d) :
    ∃ es, excW e q p d = .found (es, d.drop q.length) := (refLine_spelled _ rfl q hq p d).1 h

theorem excW_no (e q : Bytes) (hq : q ≠ []) (p d : Bytes) (h : ¬ q <+: d) :
    excW e q p d = .refused := (refLine_spelled _ rfl q hq p d).2 h

theorem escaped_no (e q : Bytes) (he : e ≠ []) (hq : q ≠ []) (p d : Bytes) (h : ¬ e ++ q <+: d) :
    escaped (some (escW e)) (excW e q) p d = .found ([], p, d) := by
  simp only [escaped]
  by_cases hd : e <+: d
  · obtain ⟨s, hs⟩ := (refToken_spelled "escape" e he p d).1 hd
    rw [show escW e p d = _ from hs]
    obtain ⟨r, rfl⟩ := hd
    simp only [List.drop_left]
    by_cases hr : r = []
    · rw [if_pos hr]
    · rw [if_neg hr, excW_no e q hq]
      intro hx
      exact h (List.prefix_append_right_inj e |>.mpr hx)
  · rw [show escW e p d = _ from (refToken_spelled "escape" e he p d).2 hd]

theorem escaped_yes (e q : Bytes) (he : e ≠ []) (hq : q ≠ []) (p r : Bytes) :
    escaped (some (escW e)) (excW e q) p (e ++ q ++ r) = .found (q, q ++ r, r) := by
  simp only [escaped]
  obtain ⟨s, hs⟩ := (refToken_spelled "escape" e he p (e ++ q ++ r)).1
    ⟨q ++ r, (List.append_assoc e q r).symm⟩
  rw [show escW e p _ = _ from hs]
  have h1 : (e ++ q ++ r).drop e.length = q ++ r := by rw [List.append_assoc, List.drop_left]
  simp only [h1]
  rw [if_neg (by simp [hq])]
  obtain ⟨es, hx⟩ := excW_yes e q hq (e ++ q ++ r) (q ++ r) ⟨r, rfl⟩
  rw [hx]
  simp

theorem upTo_word {e q : Bytes} (he : e ≠ []) (hq : q ≠ []) {d : Bytes} {o : Option (Bytes × Bytes)}
    (h : ReadsText e q d o) : ∀ (k : Nat) (p : Bytes), d.length < k →
    upTo (some (escW e)) (excW e q) k p d = ansOf o := by
  induction h with
  | atEnd =>
    intro k p hk
    obtain ⟨k, rfl⟩ : ∃ j, k = j + 1 := ⟨k - 1, by omega⟩
    simp [upTo, ansOf]
  | stop d h1 h2 =>
    intro k p hk
    obtain ⟨k, rfl⟩ : ∃ j, k = j + 1 := ⟨k - 1, by omega⟩
    have hd : d ≠ [] := by
      rintro rfl
      exact hq (List.prefix_nil.mp h2)
    unfold upTo
    rw [if_neg hd, escaped_no e q he hq p d h1]
    obtain ⟨es, hx⟩ := excW_yes e q hq p d h2
    simp only [Ans.bind, hx, ansOf]
  | byte b r o h1 h2 _ ih =>
    intro k p hk
    obtain ⟨k, rfl⟩ : ∃ j, k = j + 1 := ⟨k - 1, by omega⟩
    unfold upTo
    rw [if_neg (by simp), escaped_no e q he hq p _ h1]
    simp only [Ans.bind, excW_no e q hq p _ h2, List.nil_append]
    rw [ih k _ (by simp at hk; omega), ansOf_map]
  | escapedEnd =>
    intro k p hk
    obtain ⟨k, rfl⟩ : ∃ j, k = j + 1 := ⟨k - 1, by omega⟩
    unfold upTo
    rw [if_neg (by simp [he])]
    have := escaped_yes e q he hq p []
    rw [List.append_nil, List.append_nil] at this
    rw [this]
    simp only [Ans.bind, excW_no e q hq q [] (fun h => hq (List.prefix_nil.mp h)), ansOf]
  | escapedStop r h1 =>
    intro k p hk
    obtain ⟨k, rfl⟩ : ∃ j, k = j + 1 := ⟨k - 1, by omega⟩
    unfold upTo
    rw [if_neg (by simp [he]), escaped_yes e q he hq p r]
    obtain ⟨es, hx⟩ := excW_yes e q hq (q ++ r) r h1
    simp only [Ans.bind, hx, ansOf]
  | escapedByte b r o h1 _ ih =>
    intro k p hk
    obtain ⟨k, rfl⟩ : ∃ j, k = j + 1 := ⟨k - 1, by omega⟩
    unfold upTo
    rw [if_neg (by simp), escaped_yes e q he hq p (b :: r)]
    simp only [Ans.bind, excW_no e q hq _ _ h1]
    rw [ih k _ (by simp at hk; omega), ansOf_map]

theorem refConts_spelled (names : List String) (w : Bytes) : RefConts names (w.map byteC) := by
  induction w with
  | nil => simp [RefConts]
  | cons b w ih => 
    rw [List.map_cons]
    simp only [RefConts]
    exact ⟨by simp [byteC, RefCont, RefContent, Container.min], ih⟩

theorem sameNames_spelled (w : Bytes) : sameNames (w.map byteC) := by
  simp [sameNames, byteC, Container.min]

theorem refGrammar_upToWord (e q : Bytes) : RefGrammar (upToWord e q) := by
  have h : ∀ (w : Bytes) (path : List String), RefLine path (.mk (w.map byteC)) :=
    fun w path => ⟨sameNames_spelled w, refConts_spelled path w⟩
  have hn : ∀ w : Bytes, containersNames (w.map byteC) = [] := by
    intro w
    induction w with
    | nil => rfl
    | cons b w ih => rw [List.map_cons]; simp only [containersNames, ih]; rfl
  simp only [upToWord, everythingBut, RefGrammar, RefTok, RefLines, RefChans, and_true]
  refine ⟨by simp, by simp [sameNames, Container.min], ?_⟩
  simp only [RefConts, RefCont, RefContent, RefTok, RefLines, RefOpt, and_true, tokenNames, linesNames,
    lineNames, hn]
  exact ⟨by decide, ⟨by simp, h q _⟩, by simp, h e _⟩

theorem reads_some (e q : Bytes) (n : Nat) : ∀ d : Bytes, d.length ≤ n → ∃ o, ReadsText e q d o := by
  induction n with
  | zero =>
    intro d hd
    have : d = [] := List.length_eq_zero_iff.mp (by omega)
    subst this
    exact ⟨_, .atEnd⟩
  | succ n ih =>
    intro d hd
    by_cases h1 : e ++ q <+: d
    · obtain ⟨r, rfl⟩ := h1
      by_cases h2 : q <+: r
      · exact ⟨_, .escapedStop r h2⟩
      · cases r with
        | nil =>
          rw [List.append_nil]
          exact ⟨_, .escapedEnd⟩
        | cons b r =>
          obtain ⟨o, ho⟩ := ih r (by simp at hd; omega)
          exact ⟨_, .escapedByte b r o h2 ho⟩
    · by_cases h2 : q <+: d
      · exact ⟨_, .stop d h1 h2⟩
      · cases d with
        | nil => exact ⟨_, .atEnd⟩
        | cons b r =>
          obtain ⟨o, ho⟩ := ih r (by simp at hd; omega)
          exact ⟨_, .byte b r o h1 h2 ho⟩

theorem reads_unique {e q : Bytes} (he : e ≠ []) (hq : q ≠ []) {d : Bytes} {o o' : Option (Bytes × Bytes)}
    (h : ReadsText e q d o) (h' : ReadsText e q d o') : o = o' := by
  have := (upTo_word he hq h (d.length + 1) [] (by omega)).symm.trans
    (upTo_word he hq h' (d.length + 1) [] (by omega))
  cases o <;> cases o' <;> simp_all [ansOf]

/-- What the parser does for what is read: crash, accept the text (when there is one), or refuse. -/
def Gives (g : Grammar) (input : Bytes) : Option (Bytes × Bytes) → Prop
  | none => Parses g input .panic
  | some (w, r) => (w ≠ [] → Succeeds g input w r) ∧ (w = [] → Rejects g input)

theorem gives_of_reads {e q : Bytes} (he : e ≠ []) (hq : q ≠ []) {input : Bytes}
    {o : Option (Bytes × Bytes)} (h : ReadsText e q input o) : Gives (upToWord e q) input o := by
  have ha := ref_execute _ (refGrammar_upToWord e q) input
  unfold upToWord at ha
  rw [refToken_everythingBut, refToken_reverse] at ha
  have hesc : refEscape (some (.mk "escape" [.mk (e.map byteC)] [])) = some (escW e) := by
    rw [refEscape]; rfl
  rw [hesc, show refLine ⟨some (escW e), fun _ d => d, true⟩ (.mk (q.map byteC)) = excW e q from rfl,
    upTo_word he hq h _ _ (Nat.lt_succ_self _)] at ha
  change AgreesR (upToWord e q) _ _ at ha
  cases o with
  | none =>
    have hn : input ≠ [] := by
      rintro rfl
      have := reads_unique he hq h .atEnd
      cases this
    rw [if_neg hn] at ha
    exact ha
  | some x =>
    obtain ⟨w, r⟩ := x
    simp only [ansOf, Ans.bind] at ha
    constructor
    · intro hw
      have hn : input ≠ [] := by
        rintro rfl
        have := reads_unique he hq h .atEnd
        simp at this
        exact hw this.1
      rw [if_neg hn, if_neg hw] at ha
      have := ha.succeeds
      simpa only [Shape.bytes, shapeElemsBytes, ShapeElem.bytes, shapesBytes, shapesBytes_bytes,
        List.append_nil] using this
    · intro hw
      rw [if_pos hw] at ha
      simp only [ite_self] at ha
      exact .inl ha

/-- **C124, for every input.**  Everything up to the word `q` with the escape word `e`: every input is
read in exactly one way, and the parser does what it says: it crashes when nothing is behind an escaped
exception that is read, takes a text that is not empty, and refuses an empty one. -/
theorem C124_exact_partial (e q : Bytes) (he : e ≠ []) (hq : q ≠ []) (input : Bytes) :
    ∃ o, ReadsText e q input o ∧ (∀ o', ReadsText e q input o' → o' = o) ∧
      Gives (upToWord e q) input o := by
  obtain ⟨o, ho⟩ := reads_some e q input.length input (Nat.le_refl _)
  exact ⟨o, ho, fun o' h => reads_unique he hq h ho, gives_of_reads he hq ho⟩

/-- `a\\"` followed by the end of the input crashes the parser for the escape `\\` and the exception `"`. -/
example : Parses (upToWord [92] [34]) [97, 92, 34] .panic :=
  gives_of_reads (by decide) (by decide) (.byte 97 _ none (by decide) (by decide) .escapedEnd)

/-- Comments up to `-->`, with the escape `!!`: `x!!-->y-->z`. -/
example : Succeeds (upToWord [33, 33] [45, 45, 62]) [120, 33, 33, 45, 45, 62, 121, 45, 45, 62, 122]
    [120, 45, 45, 62, 121] [45, 45, 62, 122] :=
  (gives_of_reads (e := [33, 33]) (q := [45, 45, 62]) (by decide) (by decide)
    (o := some ([120, 45, 45, 62, 121], [45, 45, 62, 122]))
    (.byte 120 _ (some ([45, 45, 62, 121], [45, 45, 62, 122])) (by decide) (by decide)
      (.escapedByte 121 [45, 45, 62, 122] (some ([], [45, 45, 62, 122])) (by decide)
        (.stop _ (by decide) (by decide))))).1 (by decide)

theorem upToWord_byte (e q : UInt8) : upToWord [e] [q] = upToQuote e q := rfl

/-- No two quotes next to each other; an escape byte at the end comes after a quote. -/
def ReadableText (e q : UInt8) (w : Bytes) : Prop :=
  (∀ a b, w ≠ a ++ q :: q :: b) ∧ w ≠ [e] ∧ ∀ a c, w = a ++ [c, e] → c = q

theorem readable_cons {e q b : UInt8} {w : Bytes} (hb : b ≠ q) (hw : ¬ (b = e ∧ w = [])) :
    ReadableText e q (b :: w) ↔ ReadableText e q w := by
  unfold ReadableText
  constructor
  · rintro ⟨h1, h2, h3⟩
    refine ⟨fun a c h => h1 (b :: a) c (by rw [h]; rfl), ?_, fun a c h => h3 (b :: a) c (by rw [h]; rfl)⟩
    rintro rfl
    exact hb (h3 [] b rfl)
  · rintro ⟨h1, h2, h3⟩
    refine ⟨?_, ?_, ?_⟩
    · intro a c h
      cases a with
      | nil => simp only [List.nil_append, List.cons.injEq] at h; exact hb h.1
      | cons x a => simp only [List.cons_append, List.cons.injEq] at h; exact h1 a c h.2
    · intro h
      simp only [List.cons.injEq] at h
      exact hw h
    · intro a c h
      cases a with
      | nil => simp only [List.nil_append, List.cons.injEq] at h; exact absurd h.2 h2
      | cons x a => simp only [List.cons_append, List.cons.injEq] at h; exact h3 a c h.2

theorem readable_quote {e q c : UInt8} {w : Bytes} (hc : c ≠ q) (heq : e ≠ q) :
    ReadableText e q (q :: c :: w) ↔ ReadableText e q w := by
  unfold ReadableText
  constructor
  · rintro ⟨h1, h2, h3⟩
    refine ⟨fun a b h => h1 (q :: c :: a) b (by rw [h]; rfl), ?_,
      fun a b h => h3 (q :: c :: a) b (by rw [h]; rfl)⟩
    rintro rfl
    exact hc (h3 [q] c rfl)
  · rintro ⟨h1, h2, h3⟩
    refine ⟨?_, by simp, ?_⟩
    · intro a b h
      match a with
      | [] => simp only [List.nil_append, List.cons.injEq] at h; exact hc h.2.1
      | [x] => simp only [List.cons_append, List.nil_append, List.cons.injEq] at h; exact hc h.2.1
      | x :: y :: a => simp only [List.cons_append, List.cons.injEq] at h; exact h1 a b h.2.2
    · intro a b h
      match a with
      | [] => simp only [List.nil_append, List.cons.injEq] at h; exact h.1.symm
      | [x] => simp only [List.cons_append, List.nil_append, List.cons.injEq] at h; exact absurd h.2.2 h2
      | x :: y :: a => simp only [List.cons_append, List.cons.injEq] at h; exact h3 a b h.2.2

theorem pair_prefix {e q b : UInt8} {d : Bytes} : [e] ++ [q] <+: b :: d ↔ e = b ∧ ∃ r, d = q :: r := by
  constructor
  · rintro ⟨r, h⟩
    simp only [List.cons_append, List.nil_append, List.cons.injEq] at h
    exact ⟨h.1, r, h.2.symm⟩
  · rintro ⟨rfl, r, rfl⟩
    exact ⟨r, rfl⟩

theorem quote_prefix {q b : UInt8} {d : Bytes} : [q] <+: b :: d ↔ q = b := by
  rw [List.cons_prefix_cons]
  simp

theorem reads_escaped (e q : UInt8) (heq : e ≠ q) (rest : Bytes) (n : Nat) : ∀ w : Bytes, w.length ≤ n →
    (ReadsText [e] [q] (escapeQuotes e q w ++ q :: rest) (some (w, q :: rest)) ↔ ReadableText e q w) := by
  have he : [e] ≠ [] := by simp
  have hq : [q] ≠ [] := by simp
  have h0 : ReadsText [e] [q] (q :: rest) (some ([], q :: rest)) :=
    .stop _ (fun h => heq (pair_prefix.mp h).1) (quote_prefix.mpr rfl)
  induction n with
  | zero =>
    intro w hw
    have : w = [] := List.length_eq_zero_iff.mp (by omega)
    subst this
    exact ⟨fun _ => ⟨by simp, by simp, by simp⟩, fun _ => h0⟩
  | succ n ih =>
    intro w hw
    cases w with
    | nil => exact ih [] (by simp)
    | cons b w =>
      by_cases hb : b = q
      · subst hb
        cases w with
        | nil =>
          refine ⟨fun _ => ⟨?_, by simpa using heq.symm, ?_⟩, fun _ => ?_⟩
          · intro a c h
            have := congrArg List.length h
            simp at this
            omega
          · intro a c h
            have := congrArg List.length h
            simp at this
          · have : escapeQuotes e b [b] ++ b :: rest = [e] ++ [b] ++ b :: rest := by simp [escapeQuotes]
            rw [this]
            exact .escapedStop _ (quote_prefix.mpr rfl)
        | cons c w =>
          have henc : escapeQuotes e b (b :: c :: w) ++ b :: rest =
              [e] ++ [b] ++ (escapeQuotes e b (c :: w) ++ b :: rest) := by simp [escapeQuotes]
          rw [henc]
          by_cases hc : c = b
          · subst hc
            have henc2 : escapeQuotes e c (c :: w) ++ c :: rest =
                e :: (c :: (escapeQuotes e c w ++ c :: rest)) := by simp [escapeQuotes]
            rw [henc2]
            constructor
            · intro h
              obtain ⟨o, ho⟩ := reads_some [e] [c] _ (c :: (escapeQuotes e c w ++ c :: rest)) (Nat.le_refl _)
              have := reads_unique he hq h (.escapedByte e _ o (fun h => heq (quote_prefix.mp h).symm) ho)
              cases o with
              | none => simp at this
              | some x => simp at this; exact absurd this.1.1.symm heq
            · intro h
              exact absurd rfl (h.1 [] w)
          · have henc2 : escapeQuotes e b (c :: w) ++ b :: rest =
                c :: (escapeQuotes e b w ++ b :: rest) := by simp [escapeQuotes, hc]
            rw [henc2, readable_quote hc heq, ← ih w (by simp at hw; omega)]
            have hnp : ¬ [b] <+: c :: (escapeQuotes e b w ++ b :: rest) :=
              fun h => hc (quote_prefix.mp h).symm
            constructor
            · intro h
              obtain ⟨o, ho⟩ := reads_some [e] [b] _ (escapeQuotes e b w ++ b :: rest) (Nat.le_refl _)
              have := reads_unique he hq h (.escapedByte c _ o hnp ho)
              cases o with
              | none => simp at this
              | some x =>
                obtain ⟨x1, x2⟩ := x
                simp at this
                obtain ⟨rfl, rfl⟩ := this
                exact ho
            · intro h
              exact .escapedByte c _ _ hnp h
      · have henc : escapeQuotes e q (b :: w) ++ q :: rest = b :: (escapeQuotes e q w ++ q :: rest) := by
          simp [escapeQuotes, hb]
        rw [henc]
        have hnq : ¬ [q] <+: b :: (escapeQuotes e q w ++ q :: rest) := fun h => hb (quote_prefix.mp h).symm
        by_cases hw0 : b = e ∧ w = []
        · obtain ⟨rfl, rfl⟩ := hw0
          constructor
          · intro h
            have hs : b :: (escapeQuotes b q [] ++ q :: rest) = [b] ++ [q] ++ rest := by simp [escapeQuotes]
            rw [hs] at h
            exfalso
            by_cases h2 : [q] <+: rest
            · have := reads_unique he hq h (.escapedStop rest h2)
              simp at this
            · cases rest with
              | nil =>
                rw [List.append_nil] at h
                have := reads_unique he hq h .escapedEnd
                simp at this
              | cons x r =>
                obtain ⟨o, ho⟩ := reads_some [b] [q] _ r (Nat.le_refl _)
                have := reads_unique he hq h (.escapedByte x r o h2 ho)
                cases o with
                | none => simp at this
                | some y => simp at this
          · intro h
            exact absurd rfl h.2.1
        · rw [readable_cons hb hw0, ← ih w (by simp at hw; omega)]
          have hnp : ¬ [e] ++ [q] <+: b :: (escapeQuotes e q w ++ q :: rest) := by
            intro h
            obtain ⟨rfl, r, hr⟩ := pair_prefix.mp h
            cases w with
            | nil => exact hw0 ⟨rfl, rfl⟩
            | cons c w =>
              by_cases hc : c = q
              · subst hc
                simp [escapeQuotes] at hr
                exact heq hr.1
              · simp [escapeQuotes, hc] at hr
          constructor
          · intro h
            obtain ⟨o, ho⟩ := reads_some [e] [q] _ (escapeQuotes e q w ++ q :: rest) (Nat.le_refl _)
            have := reads_unique he hq h (.byte b _ o hnp hnq ho)
            cases o with
            | none => simp at this
            | some x =>
              obtain ⟨x1, x2⟩ := x
              simp at this
              obtain ⟨rfl, rfl⟩ := this
              exact ho
          · intro h
            exact .byte b _ _ hnp hnq h

/-- **C124: the texts for which it holds, exactly.**  A text, escaped and followed by a quote, is read
back exactly when no two quotes of it are next to each other and an escape byte at its end comes right
after a quote. -/
theorem C124_read_back_partial (e q : UInt8) (heq : e ≠ q) (w : Bytes) (hne : w ≠ []) (rest : Bytes) :
    Succeeds (upToQuote e q) (escapeQuotes e q w ++ q :: rest) w (q :: rest) ↔
      (∀ a b, w ≠ a ++ q :: q :: b) ∧ w ≠ [e] ∧ ∀ a c, w = a ++ [c, e] → c = q := by
  refine Iff.trans ?_ (reads_escaped e q heq rest _ w (Nat.le_refl _))
  constructor
  · intro h
    obtain ⟨o, ho, _, hg⟩ := C124_exact_partial [e] [q] (by simp) (by simp)
      (escapeQuotes e q w ++ q :: rest)
    rw [upToWord_byte] at hg
    obtain ⟨t, ht, h1, h2, h3⟩ := h
    cases o with
    | none => cases ht.unique hg
    | some x =>
      obtain ⟨x1, x2⟩ := x
      by_cases hx : x1 = []
      · exact absurd (hg.2 hx) (Succeeds.not_rejects ⟨t, ht, h1, h2, h3⟩)
      · obtain ⟨rfl, rfl⟩ := (hg.1 hx).unique ⟨t, ht, h1, h2, h3⟩
        exact ho
  · intro h
    exact (gives_of_reads (by simp) (by simp) h).1 hne

/-- `"\\` is read back from `\\"\\"`, and `\\` is not. -/
example : Succeeds (upToQuote 92 34) [92, 34, 92, 34, 33] [34, 92] [34, 33] ∧
    ¬ Succeeds (upToQuote 92 34) [92, 34, 33] [92] [34, 33] := by
  constructor
  · refine (C124_read_back_partial 92 34 (by decide) [34, 92] (by simp) [33]).mpr ⟨?_, by decide, ?_⟩
    · intro a b h
      match a with
      | [] => simp at h
      | [x] => simp at h
      | x :: y :: a => simp at h
    · intro a c h
      match a with
      | [] => simp at h; exact h.symm
      | x :: a =>
        have := congrArg List.length h
        simp at this
  · intro h
    exact ((C124_read_back_partial 92 34 (by decide) [92] (by simp) [33]).mp h).2.1 rfl

end Rodkina.Props
