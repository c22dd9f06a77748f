import Verif.AstParts

/-!
# The parts of a grammar can be understood one at a time (C127)
-/

namespace Rodkina.Props

open Rodkina.Ast

/-- The answer of a matcher in terms of a relation. -/
def Reads (One : Option (Bytes × Bytes) → Prop) (d : Bytes) : Ans (Shape × Bytes) → Prop
  | .found y => (∀ o, One o ↔ o = some (y.1.bytes, y.2)) ∧ y.2.length < d.length
  | .crash => ∀ o, ¬ One o
  | .refused => ∀ o, One o ↔ o = none
  | .blank => ∀ o, One o ↔ o = none

theorem agreesR_reads {g : Grammar} {d : Bytes} {a : Ans (Shape × Bytes)} (h : AgreesR g d a) :
    Reads (GrammarOn g d) d a := by
  have rej : ∀ {a : Ans (Shape × Bytes)}, AgreesR g d a → a = .blank ∨ a = .refused →
      ∀ o, GrammarOn g d o ↔ o = none := by
    intro a h ha o
    have := h.rejects ha
    cases o with
    | none => exact ⟨fun _ => rfl, fun _ => this⟩
    | some x => exact ⟨fun hs => absurd this (Succeeds.not_rejects hs), fun e => by simp at e⟩
  cases a with
  | found y =>
    have hs := h.succeeds
    refine ⟨fun o => ?_, ?_⟩
    · cases o with
      | none => exact ⟨fun hr => absurd hr hs.not_rejects, fun e => by simp at e⟩
      | some x =>
        constructor
        · intro hx
          obtain ⟨e1, e2⟩ := Succeeds.unique (m := x.1) (r := x.2) hx hs
          rw [← e1, ← e2]
        · intro e
          simp only [Option.some.injEq] at e
          subst e
          exact hs
    · obtain ⟨t, h1, h2, _, h4⟩ := hs
      rw [← h4]
      exact ((C41_bytes_bounded_partial g d t h1).2 h2).2
  | blank => exact rej h (.inl rfl)
  | refused => exact rej h (.inr rfl)
  | crash =>
    intro o ho
    cases o with
    | none =>
      rcases ho with ho | ⟨t, ho, _⟩
      · exact absurd (ho.unique h) (by simp)
      · exact absurd (ho.unique h) (by simp)
    | some x =>
      obtain ⟨t, ho, _⟩ := ho
      exact absurd (ho.unique h) (by simp)

theorem Reads.strict {One : Option (Bytes × Bytes) → Prop} {d : Bytes} {a : Ans (Shape × Bytes)}
    (h : Reads One d a) : Reads One d a.strict := by
  cases a <;> exact h

/-- The root of a grammar without channels: its name stands for the grammar. -/
def rootEnv (g : Grammar) : Env := Env.empty.set g.root.name (recGrammar g)

theorem single_answer {name : String} {c : Content} (h : Interpreted (single name c)) (hf : contentFree c = [])
    (env : Env) (d : Bytes) (hd : d ≠ []) :
    recGrammar (single name c) [] d = match recContent Mode.plain env c [] d with
      | .found y => .found (.node name 0 [.mk c.name [y.1]], y.2)
      | .crash => .crash
      | _ => .refused := by
  rw [interpreted_fix h]
  have hm : rootMode (single name c) = Mode.plain := rootMode_plain _
  unfold rootLap
  rw [hm]
  have he := recContent_env Mode.plain c (Env.empty.set name (recGrammar (single name c))) env
    (by rw [hf]; simp)
  have ht := timesOf_once (recContent Mode.plain env c) [] d
  rw [if_neg hd] at ht
  unfold tokenOf
  simp only [single, Grammar.root, Token.name, Token.lines, recLines, firstOf, recLine, recSeq,
    recContainer, Mode.plain] at he ht ⊢
  rw [he, ht]
  cases recContent _ env c [] d <;>
    simp [Ans.map, Ans.bind, consElem, Container.name]

theorem linesAll_mem {p : GLine → Prop} {ls : List GLine} (h : linesAll p ls) {g : GLine} (hg : g ∈ ls) :
    GLine.All p g := by
  induction ls with
  | nil => simp at hg
  | cons a l ih =>
    rw [linesAll] at h
    rcases List.mem_cons.mp hg with rfl | hg
    · exact h.1
    · exact ih h.2 hg

theorem containersAll_mem {p : GLine → Prop} {cs : List Container} (h : containersAll p cs) {c : Container}
    (hc : c ∈ cs) : Container.All p c := by
  induction cs with
  | nil => simp at hc
  | cons a l ih =>
    rw [containersAll] at h
    rcases List.mem_cons.mp hc with rfl | hc
    · exact h.1
    · exact ih h.2 hc

theorem interpreted_closed {g : Grammar} (hg : Interpreted g) : tokenFree g.root = [] := by
  rcases g with ⟨t, chs⟩
  rcases hg with h | ⟨_, toks, _, h⟩
  · rw [RefGrammar] at h
    exact tokenFree_of_noRefs t (refTok_noRefs t h.1)
  · exact linTok_root h

/-- A part of the root, read inside it, is what it is on its own. -/
theorem part_reads {t : Token} (hg : Interpreted (.mk t [])) (hx : TokOK Flags.noExternal t)
    (hcl : Closed (.mk t [])) {cs : List Container} (hl : GLine.mk cs ∈ t.lines) {min : Nat} {max : Option Nat}
    {c : Content} (hc : Container.element min max c ∈ cs) (p d : Bytes) (hd : d ≠ []) :
    Reads (PartOn (.mk t []) c d) d (recContent Mode.plain (rootEnv (.mk t [])) c p d) := by
  have hall : Content.All (lineAllowed Flags.noExternal) c ∧ containerAllowed Flags.noExternal (.element min max c) := by
    rcases t with ⟨name, ls, ss⟩
    unfold TokOK at hx
    rw [Token.All] at hx
    have h1 := linesAll_mem hx hl
    rw [GLine.All] at h1
    have h2 := containersAll_mem h1.2 hc
    rw [Container.All] at h2
    exact ⟨h2, h1.1 _ hc⟩
  have hpl : (⟨none, fun p d => channelsSkip (refChannels []) (d.length + 1) p d, false⟩ : Mode) = Mode.plain := by
    have := rootMode_plain t
    unfold rootMode at this
    exact this
  rcases hcl (.mk cs) hl _ hc min max c rfl with hf | rfl
  · cases c with
    | recursive n => simp [contentFree] at hf
    | external n x => exact False.elim hall.2
    | value n b =>
      rw [recContent, refContent]
      unfold oneByte
      cases d with
      | nil => exact absurd rfl hd
      | cons b' r =>
        simp only [Mode.plain]
        by_cases hb : b = b'
        · subst hb
          rw [if_pos rfl]
          refine ⟨fun o => ?_, by simp⟩
          cases o with
          | none => simp [PartOn]
          | some x =>
            obtain ⟨m, r'⟩ := x
            simp [PartOn, Shape.bytes]
            exact fun _ => eq_comm
        · rw [if_neg hb]
          intro o
          cases o with
          | none => simp [PartOn, Ne.symm hb]
          | some x =>
            obtain ⟨m, r'⟩ := x
            simp [PartOn, Ne.symm hb]
    | token u =>
      have hi := interpreted_token hg (cs := cs) hl hc hf
      rw [contentFree] at hf
      rw [Content.All] at hall
      have hb : Blind (recToken Mode.plain (rootEnv (.mk t [])) u) :=
        recBlind_token Mode.plain_blind u _ hall.1 (by rw [hf]; simp)
      rw [recContent]
      beta_reduce
      rw [hb p [] d, recToken_env Mode.plain u (rootEnv (.mk t [])) Env.empty (by rw [hf]; simp)]
      have hr := agreesR_reads (interpreted_agrees hi d)
      rw [recGrammar, hpl] at hr
      exact hr.strict
    | everything n ex esc =>
      have hi := interpreted_single hg (cs := cs) hl hc hf
      have hb : Blind (recContent Mode.plain (rootEnv (.mk t [])) (.everything n ex esc)) :=
        recBlind_content Mode.plain_blind _ _ hall.1 trivial (by rw [hf]; simp)
      have hr := agreesR_reads (interpreted_agrees hi d)
      rw [hb p [] d]
      have ha := single_answer hi hf (rootEnv (.mk t [])) d hd
      simp only [Grammar.root] at ha hr
      rw [ha] at hr
      have hone : PartOn (.mk t []) (.everything n ex esc) d = GrammarOn (single t.name (.everything n ex esc)) d := by
        funext o; rfl
      rw [hone]
      cases hrc : recContent Mode.plain (rootEnv (.mk t [])) (.everything n ex esc) [] d with
      | found y =>
        rw [hrc] at hr
        simpa [Reads, Shape.bytes, shapeElemsBytes, ShapeElem.bytes, shapesBytes] using hr
      | blank => rw [hrc] at hr; exact hr
      | refused => rw [hrc] at hr; exact hr
      | crash => rw [hrc] at hr; exact hr
  · have hb : Blind (recGrammar (.mk t [])) := by
      rw [recGrammar, hpl]
      exact recBlind_token Mode.plain_blind t _ hx (by rw [show tokenFree t = [] from interpreted_closed hg]; simp)
    rw [recContent]
    beta_reduce
    have : rootEnv (.mk t []) (Grammar.mk t []).root.name = recGrammar (.mk t []) := by
      simp [rootEnv, Env.set]
    rw [this, hb p [] d]
    exact (agreesR_reads (interpreted_agrees hg d)).strict

/-- Repetitions. -/
theorem manyOf_reads {g : Grammar} {c : Content} {f : Matcher Shape} (max : Option Nat)
    (hf : ∀ p d, d ≠ [] → Reads (PartOn g c d) d (f p d)) (k : Nat) :
    ∀ (n : Nat) (p d : Bytes), d.length ≤ k →
      match manyOf f max k n p d with
      | .found x => ∀ q m r, RepOn g c max n d q m r ↔ q = x.1.length ∧ m = shapesBytes x.1 ∧ r = x.2.2
      | .crash => ∀ q m r, ¬ RepOn g c max n d q m r
      | _ => False := by
  have stop : ∀ (n : Nat) (d : Bytes), (d = [] ∨ max = some n ∨
      ((∀ o, PartOn g c d o ↔ o = none))) → ∀ q m r, RepOn g c max n d q m r ↔
        q = 0 ∧ m = [] ∧ r = d := by
    intro n d h q m r
    constructor
    · intro hr
      cases hr with
      | stop _ _ _ => exact ⟨rfl, rfl, rfl⟩
      | step _ _ m' r'' k' ms' _ hd hn hp _ =>
        rcases h with h | h | h
        · exact absurd h hd
        · exact absurd h hn
        · rw [h] at hp; simp at hp
    · rintro ⟨rfl, rfl, rfl⟩
      exact .stop n r (h.imp id (fun h => h.imp id (fun h => (h none).mpr rfl)))
  induction k with
  | zero =>
    intro n p d hk
    have hd : d = [] := List.eq_nil_of_length_eq_zero (by omega)
    rw [manyOf]
    exact stop n d (.inl hd)
  | succ k ih =>
    intro n p d hk
    rw [manyOf]
    by_cases h0 : d = [] ∨ max = some n
    · rw [if_pos h0]
      exact stop n d (h0.imp id (fun h => .inl h))
    · rw [if_neg h0]
      have hd : d ≠ [] := fun e => h0 (.inl e)
      have hn : max ≠ some n := fun e => h0 (.inr e)
      have h1 := hf p d hd
      cases hfd : f p d with
      | blank => rw [hfd] at h1; exact stop n d (.inr (.inr h1))
      | refused => rw [hfd] at h1; exact stop n d (.inr (.inr h1))
      | crash =>
        rw [hfd] at h1
        intro q m r hr
        cases hr with
        | stop _ _ h =>
          rcases h with h | h | h
          · exact hd h
          · exact hn h
          · exact h1 _ h
        | step _ _ _ _ _ _ _ _ _ hp _ => exact h1 _ hp
      | found y =>
        rw [hfd] at h1
        obtain ⟨h2, h3⟩ := h1
        have h4 := ih (n + 1) d y.2 (by omega)
        simp only
        have inv : ∀ q m r, RepOn g c max n d q m r →
            ∃ q' m', RepOn g c max (n + 1) y.2 q' m' r ∧ q = q' + 1 ∧ m = y.1.bytes ++ m' := by
          intro q m r hr
          cases hr with
          | stop _ _ h =>
            rcases h with h | h | h
            · exact absurd h hd
            · exact absurd h hn
            · rw [h2] at h; simp at h
          | step _ _ m1 r1 k1 ms1 _ _ _ hp hrest =>
            rw [h2] at hp
            simp only [Option.some.injEq, Prod.mk.injEq] at hp
            obtain ⟨rfl, rfl⟩ := hp
            exact ⟨k1, ms1, hrest, rfl, rfl⟩
        cases hmk : manyOf f max k (n + 1) d y.2 with
        | blank => rw [hmk] at h4; exact h4
        | refused => rw [hmk] at h4; exact h4
        | crash =>
          rw [hmk] at h4
          intro q m r hr
          obtain ⟨q', m', hr', _⟩ := inv q m r hr
          exact h4 _ _ _ hr'
        | found x =>
          rw [hmk] at h4
          intro q m r
          simp only [Ans.map, List.length_cons, shapesBytes]
          constructor
          · intro hr
            obtain ⟨q', m', hr', rfl, rfl⟩ := inv q m r hr
            obtain ⟨rfl, rfl, rfl⟩ := (h4 _ _ _).mp hr'
            exact ⟨rfl, rfl, rfl⟩
          · rintro ⟨rfl, rfl, rfl⟩
            exact .step n d _ y.2 _ _ _ hd hn ((h2 _).mpr rfl) ((h4 _ _ _).mpr ⟨rfl, rfl, rfl⟩)

theorem shapeElemsBytes_cons (name : String) (cs : List Shape) (es : List ShapeElem) :
    shapeElemsBytes (consElem name cs es) = shapesBytes cs ++ shapeElemsBytes es := by
  unfold consElem
  cases cs with
  | nil => simp [shapesBytes]
  | cons c cs => simp [shapeElemsBytes, ShapeElem.bytes]

/-- Sequences. -/
theorem recSeq_reads {g : Grammar} {env : Env} (cs : List Container)
    (hf : ∀ min max c, Container.element min max c ∈ cs → ∀ p d, d ≠ [] →
      Reads (PartOn g c d) d (recContent Mode.plain env c p d)) :
    ∀ p d, match recSeq Mode.plain env cs p d with
      | .found x => ∃ k, (k = 0 ↔ x.1 = []) ∧
          ∀ o, SeqOn g cs d o ↔ o = some (k, shapeElemsBytes x.1, x.2)
      | .crash => ∀ o, ¬ SeqOn g cs d o
      | .refused => ∀ o, SeqOn g cs d o ↔ o = none
      | .blank => False := by
  induction cs with
  | nil =>
    intro p d
    rw [recSeq]
    refine ⟨0, by simp, fun o => ?_⟩
    constructor
    · intro h; cases h; rfl
    · rintro rfl; exact .done d
  | cons a cs ih =>
    intro p d
    rw [recSeq]
    beta_reduce
    cases a with
    | compose cmp =>
      rw [recContainer]
      simp only [Ans.bind]
      intro o
      constructor
      · intro h; cases h; rfl
      · rintro rfl; exact .compose cmp cs d
    | element min max c =>
      rw [recContainer]
      have hm := manyOf_reads max (hf min max c (by simp)) d.length 0 p d (Nat.le_refl _)
      have ih' := ih (fun min max c hc => hf min max c (by simp [hc]))
      unfold timesOf
      have inv : ∀ o, SeqOn g (.element min max c :: cs) d o → ∃ q m r, RepOn g c max 0 d q m r ∧
          ((q < min ∧ o = none) ∨ (min ≤ q ∧ ∃ o', SeqOn g cs r o' ∧
            o = o'.map (fun x => (q + x.1, m ++ x.2.1, x.2.2)))) := by
        intro o h
        cases h with
        | short _ _ _ _ _ k m r h hk => exact ⟨k, m, r, h, .inl ⟨hk, rfl⟩⟩
        | fails _ _ _ _ _ k m r h hk rest => exact ⟨k, m, r, h, .inr ⟨hk, none, rest, rfl⟩⟩
        | more _ _ _ _ _ k m r k' m' r' h hk rest =>
          exact ⟨k, m, r, h, .inr ⟨hk, some (k', m', r'), rest, rfl⟩⟩
      cases hmk : manyOf (recContent Mode.plain env c) max d.length 0 p d with
      | blank => rw [hmk] at hm; exact hm.elim
      | refused => rw [hmk] at hm; exact hm.elim
      | crash =>
        rw [hmk] at hm
        simp only [Ans.bind]
        intro o ho
        obtain ⟨q, m, r, hr, _⟩ := inv o ho
        exact hm _ _ _ hr
      | found x =>
        rw [hmk] at hm
        simp only at hm
        have hrep := (hm _ _ _).mpr ⟨rfl, rfl, rfl⟩
        by_cases hlt : x.1.length < min
        · simp only [Ans.bind, if_pos hlt]
          intro o
          constructor
          · intro ho
            obtain ⟨q, m, r, hr, hcase⟩ := inv o ho
            obtain ⟨rfl, rfl, rfl⟩ := (hm _ _ _).mp hr
            rcases hcase with ⟨_, h⟩ | ⟨h, _⟩
            · exact h
            · omega
          · rintro rfl
            exact .short min max c cs d _ _ _ hrep hlt
        · simp only [Ans.bind, if_neg hlt]
          have h5 := ih' x.2.1 x.2.2
          have inv' : ∀ o, SeqOn g (.element min max c :: cs) d o → ∃ o', SeqOn g cs x.2.2 o' ∧
              o = o'.map (fun y => (x.1.length + y.1, shapesBytes x.1 ++ y.2.1, y.2.2)) := by
            intro o ho
            obtain ⟨q, m, r, hr, hcase⟩ := inv o ho
            obtain ⟨rfl, rfl, rfl⟩ := (hm _ _ _).mp hr
            rcases hcase with ⟨h, _⟩ | ⟨_, h⟩
            · omega
            · exact h
          cases hrs : recSeq Mode.plain env cs x.2.1 x.2.2 with
          | blank => rw [hrs] at h5; exact h5.elim
          | crash =>
            rw [hrs] at h5
            simp only [Ans.map]
            intro o ho
            obtain ⟨o', ho', _⟩ := inv' o ho
            exact h5 _ ho'
          | refused =>
            rw [hrs] at h5
            simp only [Ans.map]
            intro o
            constructor
            · intro ho
              obtain ⟨o', ho', rfl⟩ := inv' o ho
              rw [(h5 _).mp ho']
              rfl
            · rintro rfl
              exact .fails min max c cs d _ _ _ hrep (by omega) ((h5 _).mpr rfl)
          | found y =>
            rw [hrs] at h5
            simp only [Ans.map]
            obtain ⟨k, hk, h6⟩ := h5
            refine ⟨x.1.length + k, ?_, ?_⟩
            · unfold consElem
              cases hx : x.1 with
              | nil => simpa using hk
              | cons s l => simp
            · intro o
              rw [shapeElemsBytes_cons]
              constructor
              · intro ho
                obtain ⟨o', ho', rfl⟩ := inv' o ho
                rw [(h6 _).mp ho']
                rfl
              · rintro rfl
                exact .more min max c cs d _ _ _ _ _ _ hrep (by omega) ((h6 _).mpr rfl)

/-- Choices. -/
theorem firstOf_reads {g : Grammar} {env : Env} (ls : List GLine)
    (hf : ∀ cs, GLine.mk cs ∈ ls → ∀ min max c, Container.element min max c ∈ cs → ∀ p d, d ≠ [] →
      Reads (PartOn g c d) d (recContent Mode.plain env c p d)) :
    ∀ i p d, match firstOf (recLines Mode.plain env ls) i p d with
      | .found x => ∀ o, ChoiceOn g ls d o ↔ o = some (shapeElemsBytes x.1.2, x.2)
      | .crash => ∀ o, ¬ ChoiceOn g ls d o
      | .refused => ∀ o, ChoiceOn g ls d o ↔ o = none
      | .blank => ∀ o, ChoiceOn g ls d o ↔ o = none := by
  induction ls with
  | nil =>
    intro i p d
    rw [recLines, firstOf]
    intro o
    constructor
    · intro h; cases h; rfl
    · rintro rfl; exact .none d
  | cons a ls ih =>
    intro i p d
    rcases a with ⟨cs⟩
    have h1 := recSeq_reads cs (hf cs (by simp)) p d
    have h2 := ih (fun cs hcs => hf cs (by simp [hcs])) (i + 1) p d
    rw [recLines, firstOf, recLine]
    beta_reduce
    cases hs : recSeq Mode.plain env cs p d with
    | blank => rw [hs] at h1; exact h1.elim
    | crash =>
      rw [hs] at h1
      simp only [Ans.bind]
      intro o ho
      cases ho with
      | here _ _ _ k m r h => exact h1 _ h
      | later _ _ _ _ h _ =>
        rcases h with h | ⟨m, r, h⟩
        · exact h1 _ h
        · exact h1 _ h
    | refused =>
      rw [hs] at h1
      simp only [Ans.bind]
      have key : ∀ o, ChoiceOn g (.mk cs :: ls) d o ↔ ChoiceOn g ls d o := by
        intro o
        constructor
        · intro ho
          cases ho with
          | here _ _ _ k m r h => rw [h1] at h; simp at h
          | later _ _ _ _ _ h => exact h
        · exact fun h => .later cs ls d o (.inl ((h1 _).mpr rfl)) h
      cases hfo : firstOf (recLines Mode.plain env ls) (i + 1) p d <;> rw [hfo] at h2 <;>
        simpa only [key] using h2
    | found x =>
      rw [hs] at h1
      obtain ⟨k, hk, h3⟩ := h1
      by_cases hx : x.1 = []
      · have hk0 := hk.mpr hx
        subst hk0
        have key : ∀ o, ChoiceOn g (.mk cs :: ls) d o ↔ ChoiceOn g ls d o := by
          intro o
          constructor
          · intro ho
            cases ho with
            | here _ _ _ k m r h => rw [h3] at h; simp at h
            | later _ _ _ _ _ h => exact h
          · exact fun h => .later cs ls d o (.inr ⟨_, _, (h3 _).mpr rfl⟩) h
        simp only [Ans.bind, hx, List.isEmpty_nil, if_true]
        cases hfo : firstOf (recLines Mode.plain env ls) (i + 1) p d <;> rw [hfo] at h2 <;>
          simpa only [key] using h2
      · have he : x.1.isEmpty = false := by
          cases hxx : x.1 with
          | nil => exact absurd hxx hx
          | cons _ _ => rfl
        obtain ⟨k', rfl⟩ : ∃ k', k = k' + 1 :=
          Nat.exists_eq_succ_of_ne_zero (fun e => hx (hk.mp e))
        simp only [Ans.bind, he, Bool.false_eq_true, if_false]
        intro o
        constructor
        · intro ho
          cases ho with
          | here _ _ _ k m r h =>
            rw [h3] at h
            simp only [Option.some.injEq, Prod.mk.injEq] at h
            rw [h.2.1, h.2.2]
          | later _ _ _ _ h _ =>
            rcases h with h | ⟨m, r, h⟩
            · rw [h3] at h; simp at h
            · rw [h3] at h; simp at h
        · rintro rfl
          exact .here cs ls d k' _ _ ((h3 _).mpr rfl)

/-- **C127 (the part that holds).** The parts of a grammar without channels and external grammars can be
understood one at a time: what the grammar reads and refuses is what the first alternative of its root
reads that reads something, where every part of an alternative, be it a byte, an exception or a token with
all its own parts, reads and refuses what it does as a grammar of its own.  Parts that are the root again
read what the whole grammar reads.  The grammar has a reference interpreter (names are apart; see C44),
and its parts refer to no other token around them. -/
theorem C127_parts_partial (t : Token) (hg : Interpreted (.mk t [])) (hx : TokOK Flags.noExternal t)
    (hcl : Closed (.mk t [])) (input : Bytes) :
    (∀ m r, Succeeds (.mk t []) input m r ↔ ChoiceOn (.mk t []) t.lines input (some (m, r))) ∧
    (Rejects (.mk t []) input ↔ ChoiceOn (.mk t []) t.lines input none) := by
  have h1 := agreesR_reads (interpreted_agrees hg input)
  have h2 := firstOf_reads (g := .mk t []) (env := rootEnv (.mk t [])) t.lines
    (fun cs hcs min max c hc p d hd => part_reads hg hx hcl hcs hc p d hd) 0 [] input
  have key : ∀ o, GrammarOn (.mk t []) input o ↔ ChoiceOn (.mk t []) t.lines input o := by
    have hfix := interpreted_fix hg [] input
    have hm := rootMode_plain t
    unfold rootLap tokenOf at hfix
    rw [hm] at hfix
    rw [hfix] at h1
    have hr : Mode.plain.reverse = false := rfl
    simp only [hr, Bool.false_eq_true, if_false, Grammar.root] at h1
    change Reads _ _ ((firstOf (recLines Mode.plain (rootEnv (.mk t [])) t.lines) 0 [] input).map _) at h1
    intro o
    cases hfo : firstOf (recLines Mode.plain (rootEnv (.mk t [])) t.lines) 0 [] input with
    | found x =>
      rw [hfo] at h1 h2
      rw [h2]
      exact h1.1 o
    | crash =>
      rw [hfo] at h1 h2
      exact ⟨fun h => absurd h (h1 o), fun h => absurd h (h2 o)⟩
    | blank =>
      rw [hfo] at h1 h2
      rw [h2]
      exact h1 o
    | refused =>
      rw [hfo] at h1 h2
      rw [h2]
      exact h1 o
  exact ⟨fun m r => key (some (m, r)), key none⟩

/-- `S: W+ end`, `W: a | b`, everything up to the end: two kinds of parts. -/
def sentence : Token :=
  .mk "S" [.mk [.element 1 none (.token (.mk "W" [.mk [byteC 97], .mk [byteC 98]] [])),
    .element 0 (some 1) (.everything "rest" (.mk "end" [.mk [byteC 46]] []) none), byteC 46]] []

theorem interpreted_sentence : Interpreted (.mk sentence []) := by
  refine .inl ?_
  simp [sentence, RefGrammar, RefTok, RefLines, RefLine, RefConts, RefCont, RefContent, RefOpt, RefChans, byteC,
    sameNames, Container.name, Content.name, Container.min, Token.name, List.not_mem_nil]

theorem noExternal_sentence : TokOK Flags.noExternal sentence := by
  simp [TokOK, sentence, Token.All, linesAll, GLine.All, containersAll, Container.All, Content.All, byteC,
    lineAllowed, GLine.containers, containerAllowed]

theorem closed_sentence : Closed (.mk sentence []) := by
  simp [Closed, sentence, Grammar.root, Token.lines, GLine.containers, byteC, contentFree, tokenFree, linesFree,
    lineFree, contsFree, contFree]

/-- A sentence is words, which can be looked at on their own. -/
example (input m r : Bytes) : Succeeds (.mk sentence []) input m r ↔
    ChoiceOn (.mk sentence []) sentence.lines input (some (m, r)) :=
  (C127_parts_partial sentence interpreted_sentence noExternal_sentence closed_sentence input).1 m r

/-- Brackets: the root is a part of itself. -/
example (o x c : UInt8) (input m r : Bytes) : Succeeds (brackets o x c) input m r ↔
    ChoiceOn (brackets o x c) (brackets o x c).root.lines input (some (m, r)) :=
  (C127_parts_partial (brackets o x c).root (.inr (recGrammar_brackets o x c))
    (by simp [TokOK, brackets, Grammar.root, Token.All, linesAll, GLine.All, containersAll, Container.All, Content.All,
      byteC, lineAllowed, GLine.containers, containerAllowed])
    (by simp [Closed, brackets, Grammar.root, Token.lines, Token.name, GLine.containers, byteC, contentFree])
    input).1 m r

/-! ### Replacing parts -/

/-- Parts in the same places with the same bounds that read the same. -/
def SameCont (g g' : Grammar) : Container → Container → Prop
  | .element min max c, .element min' max' c' =>
      min = min' ∧ max = max' ∧ ∀ d o, PartOn g c d o ↔ PartOn g' c' d o
  | .compose _, .compose _ => True
  | _, _ => False

theorem repOn_same {g g' : Grammar} {c c' : Content} {max : Option Nat}
    (h : ∀ d o, PartOn g c d o ↔ PartOn g' c' d o) {n : Nat} {d : Bytes} {k : Nat} {m r : Bytes}
    (hr : RepOn g c max n d k m r) : RepOn g' c' max n d k m r := by
  induction hr with
  | stop n d hs => exact .stop n d (hs.imp id (fun x => x.imp id (h _ _).mp))
  | step n d m r k ms r' hd hn hp _ ih => exact .step n d m r k ms r' hd hn ((h _ _).mp hp) ih

theorem seqOn_same {g g' : Grammar} {cs cs' : List Container} (h : List.Forall₂ (SameCont g g') cs cs')
    {d : Bytes} {o : Option (Nat × Bytes × Bytes)} (hs : SeqOn g cs d o) : SeqOn g' cs' d o := by
  induction hs generalizing cs' with
  | done d => cases h; exact .done d
  | compose c cs d =>
    cases h with
    | cons h1 h2 =>
      rename_i c' _
      cases c' with
      | compose c' => exact .compose c' _ d
      | element _ _ _ => exact h1.elim
  | short min max c cs d k m r hr hk =>
    cases h with
    | cons h1 h2 =>
      rename_i c' _
      cases c' with
      | compose c' => exact h1.elim
      | element min' max' c' =>
        obtain ⟨rfl, rfl, h3⟩ := h1
        exact .short _ _ c' _ d k m r (repOn_same h3 hr) hk
  | fails min max c cs d k m r hr hk _ ih =>
    cases h with
    | cons h1 h2 =>
      rename_i c' _
      cases c' with
      | compose c' => exact h1.elim
      | element min' max' c' =>
        obtain ⟨rfl, rfl, h3⟩ := h1
        exact .fails _ _ c' _ d k m r (repOn_same h3 hr) hk (ih h2)
  | more min max c cs d k m r k' m' r' hr hk _ ih =>
    cases h with
    | cons h1 h2 =>
      rename_i c' _
      cases c' with
      | compose c' => exact h1.elim
      | element min' max' c' =>
        obtain ⟨rfl, rfl, h3⟩ := h1
        exact .more _ _ c' _ d k m r k' m' r' (repOn_same h3 hr) hk (ih h2)

/-- Alternatives in the same places. -/
def SameLines (g g' : Grammar) (ls ls' : List GLine) : Prop :=
  List.Forall₂ (fun l l' => List.Forall₂ (SameCont g g') l.containers l'.containers) ls ls'

theorem choiceOn_same {g g' : Grammar} {ls ls' : List GLine} (h : SameLines g g' ls ls') {d : Bytes}
    {o : Option (Bytes × Bytes)} (hs : ChoiceOn g ls d o) : ChoiceOn g' ls' d o := by
  induction hs generalizing ls' with
  | none d => cases h; exact .none d
  | here cs ls d k m r hs =>
    cases h with
    | cons h1 h2 =>
      rename_i l' _
      rcases l' with ⟨cs'⟩
      exact .here cs' _ d k m r (seqOn_same h1 hs)
  | later cs ls d o hs _ ih =>
    cases h with
    | cons h1 h2 =>
      rename_i l' _
      rcases l' with ⟨cs'⟩
      exact .later cs' _ d o (hs.imp (seqOn_same h1) (fun ⟨m, r, x⟩ => ⟨m, r, seqOn_same h1 x⟩)) (ih h2)

theorem sameCont_symm {g g' : Grammar} {c c' : Container} (h : SameCont g g' c c') : SameCont g' g c' c := by
  cases c <;> cases c'
  · exact ⟨h.1.symm, h.2.1.symm, fun d o => (h.2.2 d o).symm⟩
  · exact h
  · exact h
  · trivial

theorem forall2_flip {α β : Type} {R : α → β → Prop} {R' : β → α → Prop} (hR : ∀ a b, R a b → R' b a)
    {l : List α} {l' : List β} (h : List.Forall₂ R l l') : List.Forall₂ R' l' l := by
  induction h with
  | nil => exact .nil
  | cons h _ ih => exact .cons (hR _ _ h) ih

theorem sameLines_symm {g g' : Grammar} {ls ls' : List GLine} (h : SameLines g g' ls ls') :
    SameLines g' g ls' ls := by
  exact forall2_flip (fun _ _ hl => forall2_flip (fun _ _ hc => sameCont_symm hc) hl) h

/-- **C127 (the part that holds): parts can be replaced.** Of two grammars whose alternatives have parts in
the same places that, each on its own, read and refuse the same texts, one reads and refuses what the other
does. -/
theorem C127_replace_partial (t t' : Token) (hg : Interpreted (.mk t [])) (hg' : Interpreted (.mk t' []))
    (hx : TokOK Flags.noExternal t) (hx' : TokOK Flags.noExternal t') (hcl : Closed (.mk t []))
    (hcl' : Closed (.mk t' [])) (h : SameLines (.mk t []) (.mk t' []) t.lines t'.lines) (input : Bytes) :
    (∀ m r, Succeeds (.mk t []) input m r ↔ Succeeds (.mk t' []) input m r) ∧
    (Rejects (.mk t []) input ↔ Rejects (.mk t' []) input) := by
  have h1 := C127_parts_partial t hg hx hcl input
  have h2 := C127_parts_partial t' hg' hx' hcl' input
  refine ⟨fun m r => ?_, ?_⟩
  · rw [h1.1, h2.1]
    exact ⟨choiceOn_same h, choiceOn_same (sameLines_symm h)⟩
  · rw [h1.2, h2.2]
    exact ⟨choiceOn_same h, choiceOn_same (sameLines_symm h)⟩

/-- One of two bytes. -/
def eitherByte (a b : UInt8) : Token := .mk "W" [.mk [byteC a], .mk [byteC b]] []

theorem interpreted_either (a b : UInt8) : Interpreted (.mk (eitherByte a b) []) := by
  refine .inl ?_
  simp [eitherByte, RefGrammar, RefTok, RefLines, RefLine, RefConts, RefCont, RefContent, RefChans, byteC,
    sameNames, Container.name, Content.name, Container.min]

theorem either_reads (a b : UInt8) (d : Bytes) (o : Option (Bytes × Bytes)) :
    GrammarOn (.mk (eitherByte a b) []) d o ↔
      o = match d with
        | [] => none
        | c :: r => if c = a ∨ c = b then some ([c], r) else none := by
  have h := agreesR_reads (interpreted_agrees (interpreted_either a b) d)
  rw [interpreted_fix (interpreted_either a b)] at h
  unfold rootLap tokenOf at h
  rw [rootMode_plain] at h
  have hr : Mode.plain.reverse = false := rfl
  simp only [hr, Bool.false_eq_true, if_false, Grammar.root, eitherByte, Token.lines, recLines, firstOf,
    recLine_byte] at h ⊢
  cases d with
  | nil => exact h o
  | cons c r =>
    by_cases ha : c = a
    · subst ha
      simp [Reads, Ans.map, Shape.bytes, shapeElemsBytes, ShapeElem.bytes, shapesBytes, Mode.plain] at h
      simpa using h o
    · by_cases hb : c = b
      · subst hb
        simp [Reads, Ans.map, Shape.bytes, shapeElemsBytes, ShapeElem.bytes, shapesBytes, Mode.plain, ha] at h
        simpa using h o
      · simp only [ha, hb, if_false, or_self, Ans.map] at h ⊢
        exact h o

/-- Words over a token. -/
def wordsOf (w : Token) : Token :=
  .mk "S" [.mk [.element 1 none (.token w), byteC 46]] []

/-- Words of `a` or `b` are words of `b` or `a`. -/
example (input m r : Bytes) : Succeeds (.mk (wordsOf (eitherByte 97 98)) []) input m r ↔
    Succeeds (.mk (wordsOf (eitherByte 98 97)) []) input m r := by
  have hi : ∀ a b : UInt8, Interpreted (.mk (wordsOf (eitherByte a b)) []) := by
    intro a b
    refine .inl ?_
    simp [wordsOf, eitherByte, RefGrammar, RefTok, RefLines, RefLine, RefConts, RefCont, RefContent, RefChans, byteC,
      sameNames, Container.name, Content.name, Container.min, Token.name]
  have hx : ∀ a b : UInt8, TokOK Flags.noExternal (wordsOf (eitherByte a b)) := by
    intro a b
    simp [TokOK, wordsOf, eitherByte, Token.All, linesAll, GLine.All, containersAll, Container.All, Content.All, byteC,
      lineAllowed, GLine.containers, containerAllowed]
  have hc : ∀ a b : UInt8, Closed (.mk (wordsOf (eitherByte a b)) []) := by
    intro a b
    simp [Closed, wordsOf, eitherByte, Grammar.root, Token.lines, GLine.containers, byteC, contentFree, tokenFree,
      linesFree, lineFree, contsFree, contFree]
  refine (C127_replace_partial _ _ (hi _ _) (hi _ _) (hx _ _) (hx _ _) (hc _ _) (hc _ _) ?_ input).1 m r
  refine .cons (.cons ⟨rfl, rfl, fun d o => ?_⟩ (.cons ⟨rfl, rfl, fun d o => ?_⟩ .nil)) .nil
  · change GrammarOn _ d o ↔ GrammarOn _ d o
    rw [either_reads, either_reads]
    cases d with
    | nil => rfl
    | cons c r => simp only [or_comm]
  · cases o <;> rfl

/-- The claim of C127. -/
def PartsApart : Prop := ∀ t : Token, TokOK Flags.noExternal t → Closed (.mk t []) → ∀ input m r,
  Succeeds (.mk t []) input m r ↔ ChoiceOn (.mk t []) t.lines input (some (m, r))

/-- **C127 is false** for a token named like the one around it: `x: x b` with another `x: a` inside reads
nothing, although the inner one reads `a` on its own. -/
theorem C127_negation : Succeeds (.mk (.mk "x" [.mk [byteC 97]] []) []) [97, 98] [97] [98] ∧
    Parses (.mk (twoTokens "x" "x") []) [97, 98] .err ∧ ¬ PartsApart := by
  have h1 : Succeeds (.mk (.mk "x" [.mk [byteC 97]] []) []) [97, 98] [97] [98] :=
    succeeds_of_report (n := 4) (by decide +kernel)
  have h2 : Parses (.mk (twoTokens "x" "x") []) [97, 98] .err :=
    parses_of_failed (n := 4) (by decide +kernel)
  refine ⟨h1, h2, fun h => ?_⟩
  have h3 := (h (twoTokens "x" "x")
    (by simp [TokOK, twoTokens, Token.All, linesAll, GLine.All, containersAll, Container.All, Content.All, byteC,
      lineAllowed, GLine.containers, containerAllowed])
    (by simp [Closed, twoTokens, Grammar.root, Token.lines, GLine.containers, byteC, contentFree, tokenFree,
      linesFree, lineFree, contsFree, contFree]) [97, 98] [97, 98] []).mpr ?_
  · exact h3.not_rejects (.inl h2)
  · refine .here _ _ _ 1 [97, 98] [] ?_
    refine .more 1 (some 1) _ _ [97, 98] 1 [97] [98] 1 [98] [] ?_ (by decide) ?_
    · exact .step 0 _ [97] [98] 0 [] [98] (by simp) (by simp) h1 (.stop 1 _ (.inr (.inl rfl)))
    · refine .more 1 (some 1) _ _ [98] 1 [98] [] 0 [] [] ?_ (by decide) (.done _)
      exact .step 0 _ [98] [] 0 [] [] (by simp) (by simp) ⟨rfl, rfl⟩ (.stop 1 _ (.inl rfl))

end Rodkina.Props
