import Verif.AstRename2
import Verif.AstRecProps
import Verif.AstProps2

/-!
# Names are labels (C80), for all grammars with a reference interpreter
-/

namespace Rodkina.Props

open Rodkina.Ast
open Rodkina.Ast.Shipped (view)

/-- The grammars with a reference interpreter, with or without references by name. -/
def Interpreted (g : Grammar) : Prop := RefGrammar g ∨ RecGrammar g

mutual
theorem refTok_noRefs {path : List String} (t : Token) (h : RefTok path t) : tokenRefs t = [] := by
  rcases t with ⟨n, ls, ss⟩
  rw [RefTok] at h
  rw [tokenRefs]
  exact refLines_noRefs ls h.2
theorem refLines_noRefs {path : List String} (ls : List GLine) (h : RefLines path ls) : linesRefs ls = [] := by
  cases ls with
  | nil => rfl
  | cons g gs =>
    rw [RefLines] at h
    rw [linesRefs, refLine_noRefs g h.1, refLines_noRefs gs h.2]
    rfl
theorem refLine_noRefs {path : List String} (g : GLine) (h : RefLine path g) : lineRefs g = [] := by
  rcases g with ⟨cs⟩
  rw [RefLine] at h
  rw [lineRefs]
  exact refConts_noRefs cs h.2
theorem refConts_noRefs {path : List String} (cs : List Container) (h : RefConts path cs) : contsRefs cs = [] := by
  cases cs with
  | nil => rfl
  | cons c cs =>
    rw [RefConts] at h
    rw [contsRefs, refCont_noRefs c h.1, refConts_noRefs cs h.2]
    rfl
theorem refCont_noRefs {path : List String} (c : Container) (h : RefCont path c) : contRefs c = [] := by
  cases c with
  | element min max c =>
    rw [RefCont] at h
    rw [contRefs]
    exact refContent_noRefs c h.2
  | compose c => rfl
theorem refContent_noRefs {path : List String} (c : Content) (h : RefContent path c) : contentRefs c = [] := by
  cases c with
  | value n b => rfl
  | external n g => rfl
  | token t =>
    rw [RefContent] at h
    rw [contentRefs]
    exact refTok_noRefs t h
  | everything n ex esc => rfl
  | recursive n => rw [RefContent] at h; exact h.elim
end

/-- One interpreter for both classes. -/
theorem interpreted_agrees {g : Grammar} (h : Interpreted g) (input : Bytes) :
    AgreesR g input (recGrammar g [] input) := by
  rcases h with h | h
  · have := ref_execute g h input
    rcases g with ⟨t, chs⟩
    rw [RefGrammar] at h
    rw [refGrammar] at this
    rw [recGrammar, recToken_noRefs _ _ _ (refTok_noRefs t h.1)]
    exact this
  · exact rec_execute g h input

theorem agreesR_same {g g' : Grammar} {input : Bytes} {a b : Ans (Shape × Bytes)} (ha : AgreesR g input a)
    (hb : AgreesR g' input b) (h : a.map view = b.map view) (m r : Bytes) :
    (Succeeds g input m r ↔ Succeeds g' input m r) ∧ (Rejects g input ↔ Rejects g' input) ∧
    (Parses g input .panic ↔ Parses g' input .panic) := by
  rcases Ans.map_eq h with ⟨x, y, rfl, rfl, e⟩ | ⟨rfl, rfl⟩ | ⟨rfl, rfl⟩ | ⟨rfl, rfl⟩
  · simp only [view, Prod.mk.injEq] at e
    have h1 := ha.succeeds
    have h2 := hb.succeeds
    rw [e.1, e.2] at h1
    refine ⟨⟨fun h => ?_, fun h => ?_⟩, ⟨fun h => absurd h h1.not_rejects, fun h => absurd h h2.not_rejects⟩,
      ⟨fun h => ?_, fun h => ?_⟩⟩
    · obtain ⟨rfl, rfl⟩ := h.unique h1
      exact h2
    · obtain ⟨rfl, rfl⟩ := h.unique h2
      exact h1
    · obtain ⟨t, ht, _⟩ := h1
      exact absurd (h.unique ht) (by simp)
    · obtain ⟨t, ht, _⟩ := h2
      exact absurd (h.unique ht) (by simp)
  · have h1 := ha.rejects (.inl rfl)
    have h2 := hb.rejects (.inl rfl)
    obtain ⟨t, ht, _⟩ := ha
    obtain ⟨t', ht', _⟩ := hb
    exact ⟨⟨fun h => absurd h1 h.not_rejects, fun h => absurd h2 h.not_rejects⟩, ⟨fun _ => h2, fun _ => h1⟩,
      ⟨fun h => absurd (h.unique ht) (by simp), fun h => absurd (h.unique ht') (by simp)⟩⟩
  · have h1 := ha.rejects (.inr rfl)
    have h2 := hb.rejects (.inr rfl)
    exact ⟨⟨fun h => absurd h1 h.not_rejects, fun h => absurd h2 h.not_rejects⟩, ⟨fun _ => h2, fun _ => h1⟩,
      ⟨fun h => absurd (h.unique ha) (by simp), fun h => absurd (h.unique hb) (by simp)⟩⟩
  · have no : ∀ {g : Grammar}, Parses g input .panic → ¬ Succeeds g input m r ∧ ¬ Rejects g input := by
      intro g h
      refine ⟨?_, ?_⟩
      · rintro ⟨t, ht, _⟩; exact absurd (h.unique ht) (by simp)
      · rintro (ht | ⟨t, ht, _⟩)
        · exact absurd (h.unique ht) (by simp)
        · exact absurd (h.unique ht) (by simp)
    exact ⟨⟨fun h => absurd h (no ha).1, fun h => absurd h (no hb).1⟩, ⟨fun h => absurd h (no ha).2, fun h => absurd h (no hb).2⟩,
      ⟨fun _ => hb, fun _ => ha⟩⟩

/-- **C80 (the part that holds), for all grammars with a reference interpreter.** Renaming the tokens of a
grammar with `f` and those of its channels with `k` changes nothing about what is matched, left over,
refused or crashes, when the grammar is interpreted before and after: bytes, tokens, exceptions of any form
with escape tokens, external grammars, channels with conditions, references by name. -/
theorem C80_renaming_all_partial (f k : String → String) (t : Token) (chs : List Channel)
    (h : Interpreted (.mk t chs)) (h' : Interpreted (.mk (t.rename f) (chs.map (Channel.rename k))))
    (input m r : Bytes) :
    (Succeeds (.mk t chs) input m r ↔ Succeeds (.mk (t.rename f) (chs.map (Channel.rename k))) input m r) ∧
    (Rejects (.mk t chs) input ↔ Rejects (.mk (t.rename f) (chs.map (Channel.rename k))) input) ∧
    (Parses (.mk t chs) input .panic ↔
      Parses (.mk (t.rename f) (chs.map (Channel.rename k))) input .panic) := by
  refine agreesR_same (interpreted_agrees h input) (interpreted_agrees h' input) ?_ m r
  rw [recGrammar, recGrammar, refChannels_rename]
  by_cases hr : tokenRefs t = []
  · rw [recToken_noRefs _ _ t hr, recToken_noRefs _ _ (t.rename f) (by rw [tokenRefs_rename, hr]; rfl)]
    exact (refToken_rename f (SameMode.refl _) t [] input).symm
  · rcases h with h | ⟨_, toks, _, ht⟩
    · rw [RefGrammar] at h
      exact absurd (refTok_noRefs t h.1) hr
    rcases h' with h' | ⟨_, toks', _, ht'⟩
    · rw [RefGrammar] at h'
      have := refTok_noRefs _ h'.1
      rw [tokenRefs_rename] at this
      exact absurd (List.map_eq_nil_iff.mp this) hr
    exact (recToken_rename f (SameMode.refl _) (path := []) (by intro k hk; simp at hk) t ht ht' [] input).symm

/-- Nested text with its token renamed. -/
example (input m r : Bytes) : Succeeds (brackets 40 120 41) input m r ↔
    Succeeds (.mk ((brackets 40 120 41).root.rename (fun n => n ++ "1")) []) input m r := by
  refine (C80_renaming_all_partial (fun n => n ++ "1") id (brackets 40 120 41).root []
    (.inr (recGrammar_brackets _ _ _)) (.inr ?_) input m r).1
  refine ⟨trivial, [(brackets 40 120 41).root.rename (fun n => n ++ "1")], by simp, ?_⟩
  simp [brackets, Grammar.root, Token.rename, linesRename, GLine.rename, containersRename, Container.rename,
    Content.rename, LinTok, LinLines, LinLine, LinConts, LinCont, LinContent, byteC,
    tokenFree, linesFree, lineFree, contsFree, contFree, contentFree, oneOpen, guardedFrom,
    Container.isRecursive, Container.mustOccur, sameNames, Container.name, Content.name,
    Container.min]

end Rodkina.Props
