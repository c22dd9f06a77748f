import Verif.ComponentsLemmas
import Verif.BuildersProps
import Verif.AstPropsShipped
/-!
# C98, C99: the grammar components; C97 for the shipped grammar
-/

namespace Rodkina.Props

open Rodkina.Ast
open Rodkina.Ast.Build
open Rodkina.Ast.BuildSpec
open Rodkina.Ast.Comp

/-! ## C98: tokens made from a text match that text -/

theorem characters_word (values : List Char) :
    (GLine.mk (values.map (fun c => containerOf (characterOf c)))) =
      wordLine (values.map (fun c => (itoa (byteOf c), byteOf c, 1))) := by
  simp [wordLine, containerOf, characterOf]

theorem spelled_characters (values : List Char) :
    spelled ((values.map (fun c => (itoa (byteOf c), byteOf c, 1))).map (·.2)) = values.map byteOf := by
  induction values with
  | nil => rfl
  | cons c cs ih =>
    simp only [List.map_cons, spelled, ih]
    rfl

/-- What `AllCharacters` makes matches the low bytes of the characters, in order. -/
theorem allCharacters_matches (name : String) (values : List Char) (t : Token) (h : allCharacters name values = .ok t)
    (input : Bytes) :
    (∀ m r, Succeeds (.mk t []) input m r ↔ m = values.map byteOf ∧ input = m ++ r) ∧
    (Rejects (.mk t []) input ↔ ¬ values.map byteOf <+: input) := by
  rw [allCharacters_eq] at h
  split at h
  · cases h
  · rename_i hn
    injection h with h
    subst h
    rw [characters_word, ← spelled_characters values]
    refine fixed_text name _ _ ?_ ?_ ?_ input
    · cases values with
      | nil => exact absurd (Or.inr rfl) hn
      | cons c cs => exact ⟨_, List.mem_cons_self .., by simp⟩
    · intro e he
      simp only [List.mem_map] at he
      obtain ⟨c, _, rfl⟩ := he
      simp
    · refine Rodkina.Ast.Shipped.sameNames_of_min ?_
      intro c hc
      simp only [wordLine, GLine.containers, List.mem_map] at hc
      obtain ⟨e, he, rfl⟩ := hc
      obtain ⟨c, _, rfl⟩ := he
      simp [Container.min]

/-- **C98 (`AllCharacters`, the part that holds).** For a text of ASCII characters the token matches exactly the inputs that
start with the text, takes the text, and accepts its own suite. -/
theorem C98_all_characters_partial (name : String) (text : List Char) (ha : ∀ c ∈ text, c.toNat < 128) (t : Token)
    (h : allCharacters name text = .ok t) (input : Bytes) :
    (∀ m r, Succeeds (.mk t []) input m r ↔ m = textBytes text ∧ input = m ++ r) ∧
    (Rejects (.mk t []) input ↔ ¬ textBytes text <+: input) ∧
    ∀ s ∈ t.suites, s.isValid = true ∧ Succeeds (.mk t []) (composeCompose s.content) (textBytes text) [] := by
  have hm := allCharacters_matches name text t h
  rw [← textBytes_ascii ha] at hm
  refine ⟨(hm input).1, (hm input).2, ?_⟩
  intro s hs
  rw [allCharacters_eq] at h
  split at h
  · cases h
  · injection h with h
    subst h
    simp only [Token.suites, List.mem_singleton] at hs
    subst hs
    refine ⟨rfl, ?_⟩
    rw [composeCompose_of]
    exact ((hm _).1 _ _).mpr ⟨rfl, by simp⟩

example : ∃ t, allCharacters "arrow" ['-', '>'] = .ok t ∧ Succeeds (.mk t []) [45, 62, 32] [45, 62] [32] := by
  have h : ∃ t, allCharacters "arrow" ['-', '>'] = .ok t := ⟨_, by rw [allCharacters_eq, if_neg (by simp)]⟩
  obtain ⟨t, h⟩ := h
  refine ⟨t, h, ((C98_all_characters_partial _ _ (by decide) t h _).1 _ _).mpr ⟨by decide, by decide⟩⟩

/-- **C98 (`AllCharacters`, negation).** The token made from the text `é` does not match the text `é`, which is its own valid
suite; it matches the byte `0xE9`, which is no text. -/
theorem C98_all_characters_negation : ∃ t, allCharacters "e" ['é'] = .ok t ∧ Rejects (.mk t []) (textBytes ['é']) ∧
    (∃ s ∈ t.suites, s.isValid = true ∧ composeCompose s.content = textBytes ['é']) ∧ Succeeds (.mk t []) [233] [233] [] := by
  have h : allCharacters "e" ['é'] = .ok (.mk "e" [.mk (['é'].map (fun c => containerOf (characterOf c)))]
    [⟨true, composeOf (textBytes ['é'])⟩]) := by rw [allCharacters_eq, if_neg (by simp)]
  refine ⟨_, h, ?_, ?_, ?_⟩
  · exact (allCharacters_matches _ _ _ h _).2.mpr (by decide)
  · exact ⟨_, by simp [Token.suites]; rfl, rfl, composeCompose_of _⟩
  · exact ((allCharacters_matches _ _ _ h _).1 _ _).mpr ⟨by decide, by decide⟩

theorem anyCharacter_shipped (name : String) (values : List Char) (ss : List Suite) (d : Bytes) :
    pegToken id (.mk name (values.map (fun c => .mk [containerOf (characterOf c)])) ss) d =
      pegToken id (Shipped.anyCharacter name (values.map byteOf)) d := by
  have : (values.map (fun c => GLine.mk [containerOf (characterOf c)])) =
      (((values.map byteOf).map Shipped.fromValue).map (fun e => [e])).map GLine.mk := by
    simp [containerOf, characterOf, Shipped.fromValue, Shipped.once, itoa]
  rw [this]
  rfl

theorem anyCharacter_pegTok (name : String) (values : List Char) (ss : List Suite) :
    PegTok [] (.mk name (values.map (fun c => .mk [containerOf (characterOf c)])) ss) := by
  have h : PegTok [] (Shipped.anyCharacter name (values.map byteOf)) := by simp [Shipped.pegTok_anyCharacter]
  have : (values.map (fun c => GLine.mk [containerOf (characterOf c)])) =
      (((values.map byteOf).map Shipped.fromValue).map (fun e => [e])).map GLine.mk := by
    simp [containerOf, characterOf, Shipped.fromValue, Shipped.once, itoa]
  rw [this]
  simp only [Shipped.anyCharacter, Shipped.anyElement, Shipped.fromLines, PegTok] at h ⊢
  exact h

/-- What `AnyCharacter` makes matches the low byte of any of the characters. -/
theorem anyCharacter_matches (name : String) (values order : List Char) (t : Token) (h : anyCharacter name values order = .ok t)
    (input : Bytes) :
    (∀ m r, Succeeds (.mk t []) input m r ↔ (∃ c ∈ values, m = [byteOf c]) ∧ input = m ++ r) ∧
    (Rejects (.mk t []) input ↔ ∀ c ∈ values, ¬ [byteOf c] <+: input) := by
  rw [anyCharacter_eq] at h
  split at h
  · cases h
  · injection h with h
    subst h
    have ha := Shipped.Agrees.view (Shipped.agrees_plain (anyCharacter_pegTok name values (order.map (fun c => ⟨true, composeOf (textBytes [c])⟩))) input)
    rw [anyCharacter_shipped, Shipped.pegToken_anyCharacter (sk := id) (fun _ => Nat.le_refl _)] at ha
    cases input with
    | nil =>
      simp only [id_eq, Option.map_none] at ha
      refine ⟨fun m r => ⟨fun hs => absurd ha hs.not_rejects, ?_⟩, ⟨fun _ => by simp, fun _ => ha⟩⟩
      rintro ⟨⟨c, _, rfl⟩, h⟩
      cases h
    | cons b r =>
      simp only [id_eq] at ha
      by_cases hb : b ∈ values.map byteOf
      · rw [if_pos hb] at ha
        simp only [Option.map_some] at ha
        have hv : ∀ i : Nat, (Shipped.view (Shape.node name i [ShapeElem.mk (toString b.toNat) [Shape.byte b]], r)) = ([b], r) := by
          intro i; rfl
        rw [hv] at ha
        obtain ⟨c, hc, rfl⟩ := List.mem_map.mp hb
        refine ⟨fun m r' => ⟨fun hs => ?_, ?_⟩, ⟨fun hr => absurd hr ha.not_rejects, fun hr => absurd ⟨r, rfl⟩ (hr c hc)⟩⟩
        · obtain ⟨rfl, rfl⟩ := hs.unique ha
          exact ⟨⟨c, hc, rfl⟩, rfl⟩
        · rintro ⟨⟨c', _, rfl⟩, h⟩
          injection h with h1 h2
          rw [← h1]
          have h2 : r = r' := h2
          rw [← h2]
          exact ha
      · rw [if_neg hb] at ha
        simp only [Option.map_none] at ha
        refine ⟨fun m r => ⟨fun hs => absurd ha hs.not_rejects, ?_⟩, ⟨fun _ => ?_, fun _ => ha⟩⟩
        · rintro ⟨⟨c, hc, rfl⟩, h⟩
          injection h with h1 _
          exact absurd (h1 ▸ List.mem_map_of_mem hc) hb
        · rintro c hc ⟨s, hs⟩
          injection hs with h1 _
          exact hb (h1 ▸ List.mem_map_of_mem hc)

/-- **C98 (`AnyCharacter`, the part that holds).** For ASCII characters the token matches exactly the inputs that start with one
of them, takes that one, and accepts its own suites. -/
theorem C98_any_character_partial (name : String) (text order : List Char) (ha : ∀ c ∈ text, c.toNat < 128)
    (ho : ∀ c, c ∈ order ↔ c ∈ text) (t : Token) (h : anyCharacter name text order = .ok t) (input : Bytes) :
    (∀ m r, Succeeds (.mk t []) input m r ↔ (∃ c ∈ text, m = textBytes [c]) ∧ input = m ++ r) ∧
    (Rejects (.mk t []) input ↔ ∀ c ∈ text, ¬ textBytes [c] <+: input) ∧
    ∀ s ∈ t.suites, s.isValid = true ∧ ∃ m, Succeeds (.mk t []) (composeCompose s.content) m [] := by
  have hm := anyCharacter_matches name text order t h
  have hc : ∀ c ∈ text, textBytes [c] = [byteOf c] := fun c hc => textBytes_ascii (by simpa using ha c hc)
  have hex : ∀ m, (∃ c ∈ text, m = textBytes [c]) ↔ ∃ c ∈ text, m = [byteOf c] := by
    intro m
    constructor
    · rintro ⟨c, h, rfl⟩; exact ⟨c, h, hc c h⟩
    · rintro ⟨c, h, rfl⟩; exact ⟨c, h, (hc c h).symm⟩
  refine ⟨fun m r => by rw [hex]; exact (hm input).1 m r, ?_, ?_⟩
  · rw [(hm input).2]
    constructor
    · intro h c hct; rw [hc c hct]; exact h c hct
    · intro h c hct; rw [← hc c hct]; exact h c hct
  · intro s hs
    rw [anyCharacter_eq] at h
    split at h
    · cases h
    · injection h with h
      subst h
      simp only [Token.suites, List.mem_map] at hs
      obtain ⟨c, hco, rfl⟩ := hs
      refine ⟨rfl, textBytes [c], ?_⟩
      rw [composeCompose_of]
      exact ((hm _).1 _ _).mpr ⟨⟨c, (ho c).mp hco, hc c ((ho c).mp hco)⟩, by simp⟩

example : ∃ t, anyCharacter "ab" ['a', 'b', 'a'] ['b', 'a'] = .ok t ∧ Succeeds (.mk t []) [98, 97] [98] [97] := by
  have h : ∃ t, anyCharacter "ab" ['a', 'b', 'a'] ['b', 'a'] = .ok t := ⟨_, by rw [anyCharacter_eq, if_neg (by simp)]⟩
  obtain ⟨t, h⟩ := h
  exact ⟨t, h, ((C98_any_character_partial _ _ _ (by decide) (by simp [or_comm]) t h _).1 _ _).mpr
    ⟨⟨'b', by simp, by decide⟩, by decide⟩⟩

/-- **C98 (`AnyCharacter`, negation).** The token made from `é` and `a` does not match `é`. -/
theorem C98_any_character_negation : ∃ t, anyCharacter "ea" ['é', 'a'] ['é', 'a'] = .ok t ∧
    Rejects (.mk t []) (textBytes ['é']) ∧ ∃ s ∈ t.suites, s.isValid = true ∧ composeCompose s.content = textBytes ['é'] := by
  have h : anyCharacter "ea" ['é', 'a'] ['é', 'a'] = .ok (.mk "ea" (['é', 'a'].map (fun c => .mk [containerOf (characterOf c)]))
    (['é', 'a'].map (fun c => ⟨true, composeOf (textBytes [c])⟩))) := by rw [anyCharacter_eq, if_neg (by simp)]
  refine ⟨_, h, ?_, ?_⟩
  · exact (anyCharacter_matches _ _ _ _ h _).2.mpr (by decide)
  · exact ⟨⟨true, composeOf (textBytes ['é'])⟩, by simp [Token.suites], rfl, composeCompose_of _⟩

/-! ## C99: the components make what they are asked for, or panic because something is empty -/

/-- **C99.** Each component function returns exactly the part it is asked for, and panics exactly when a name, a list or a text it
is given is empty; it never returns an error. -/
theorem C99_components :
    (∀ min max, Comp.cardinality min max = .ok ⟨min, max⟩) ∧
    (∀ bs, Comp.compose bs = if bs = [] then .panic else .ok ⟨bytesName bs, bs.map (fun b => (b, 1))⟩) ∧
    (∀ l, Comp.suites l = if ∃ e ∈ l, e.1 = [] then .panic else .ok (if l = [] then none
      else some (l.map (fun e => ⟨e.2, bytesName (textBytes e.1), (textBytes e.1).map (fun b => (b, 1))⟩)))) ∧
    (∀ b, Comp.fromValue b = .ok ⟨⟨1, some 1⟩, .value (itoa b) b⟩) ∧
    (∀ t c, Comp.fromToken t c = .ok ⟨c, .token t⟩) ∧
    (∀ name x e, Comp.everything name x e = if name = "" then .panic else .ok ⟨name, x, e⟩) ∧
    (∀ e, Comp.fromEverything e = .ok ⟨⟨1, some 1⟩, .everything e.name e.exception e.escape⟩) ∧
    (∀ es, Comp.fromElements es =
      if es = [] then .panic else .ok (.mk (es.map (fun e => .element e.cardinality.min e.cardinality.max e.content)))) ∧
    (∀ ls, Comp.fromLines ls = if ls = [] then .panic else .ok ls) ∧
    (∀ name b s, Comp.fromBlock name b s = if name = "" then .panic else .ok (.mk name b (s.getD []))) ∧
    (∀ name es s, Comp.anyElement name es s = if name = "" ∨ es = [] then .panic
      else .ok (.mk name (es.map (fun e => .mk [.element e.cardinality.min e.cardinality.max e.content])) (s.getD []))) ∧
    (∀ t, Comp.channelFromToken t = .ok (.mk t none none)) ∧
    (∀ name b, Comp.channelFromValue name b = if name = "" then .panic
      else .ok (.mk (.mk name [.mk [.element 1 (some 1) (.value (itoa b) b)]] []) none none)) :=
  ⟨cardinality_eq, compose_eq, suites_eq, fromValue_eq, fromToken_eq, everything_eq, fromEverything_eq, fromElements_eq,
    fromLines_eq, fromBlock_eq, anyElement_eq, channelFromToken_eq, channelFromValue_eq⟩

/-- In particular the empty text cannot be a suite, valid or not. -/
theorem C99_no_empty_suite (l : List (List Char × Bool)) (v : Bool) (h : ([], v) ∈ l) : Comp.suites l = .panic := by
  rw [suites_eq, if_pos ⟨_, h, rfl⟩]

example : Comp.suites [(['a'], true), ([], false)] = .panic := C99_no_empty_suite _ false (by simp)
example : Comp.compose [] = .panic ∧ Comp.compose [97, 98] = .ok ⟨"ab", [(97, 1), (98, 1)]⟩ :=
  ⟨by rw [compose_eq, if_pos rfl], by rw [compose_eq, if_neg (by simp)]; rfl⟩

/-! ## C97: the shipped grammar -/

/-- A token of lines of containers. -/
theorem wf_fromLines {name : String} {lines : List (List Container)} (h1 : name ≠ "") (h2 : lines ≠ [])
    (h3 : ∀ l ∈ lines, l ≠ [] ∧ ∀ c ∈ l, ContainerWF c) : TokenWF (Shipped.fromLines name lines) := by
  refine .mk _ _ _ h1 (by simpa using h2) ?_ (by simp)
  intro l hl
  obtain ⟨cs, hcs, rfl⟩ := List.mem_map.mp hl
  exact .mk _ (h3 cs hcs).1 (h3 cs hcs).2

theorem wf_fromValue (b : UInt8) : ContainerWF (Shipped.fromValue b) := .element _ _ _ (.value _ _ (itoa_ne b))

theorem wf_fromToken {t : Token} (h : TokenWF t) (min : Nat) (max : Option Nat) : ContainerWF (Shipped.fromToken t min max) :=
  .element _ _ _ (.token _ h)

theorem wf_anyCharacter {name : String} {values : Bytes} (h1 : name ≠ "") (h2 : values ≠ []) :
    TokenWF (Shipped.anyCharacter name values) := by
  refine wf_fromLines h1 (by simpa using h2) ?_
  intro l hl
  simp only [List.mem_map] at hl
  obtain ⟨_, ⟨b, _, rfl⟩, rfl⟩ := hl
  refine ⟨by simp, ?_⟩
  intro c hc
  rw [List.mem_singleton] at hc
  subst hc
  exact wf_fromValue b

theorem wf_allCharacters {name : String} {values : Bytes} (h1 : name ≠ "") (h2 : values ≠ []) :
    TokenWF (Shipped.allCharacters name values) := by
  refine wf_fromLines h1 (by simp) ?_
  intro l hl
  rw [List.mem_singleton] at hl
  subst hl
  refine ⟨by simpa using h2, ?_⟩
  intro c hc
  obtain ⟨b, _, rfl⟩ := List.mem_map.mp hc
  exact wf_fromValue b

open Rodkina.Ast.Shipped in
/-- **C97 (the shipped grammar).** It is well-formed (its suites aside), so it can be built. -/
theorem C97_shipped_grammar_built : GrammarBuilt Shipped.grammar := by
  rw [C97_built_iff_wellformed_partial]
  have lower : TokenWF lowerCaseLetter := wf_anyCharacter (by simp) (by decide)
  have upper : TokenWF upperCaseLetter := wf_anyCharacter (by simp) (by decide)
  have afl : TokenWF aToFLower := wf_anyCharacter (by simp) (by decide)
  have afu : TokenWF aToFUpper := wf_anyCharacter (by simp) (by decide)
  have num : TokenWF anyNumber := wf_anyCharacter (by simp) (by decide)
  have byte : TokenWF anyByte := wf_anyCharacter (by simp) (by decide)
  have letter : TokenWF anyLetter := wf_fromLines (by simp) (by simp) (by simp [wf_fromToken, lower, upper])
  have hex : TokenWF anyHexChar := wf_fromLines (by simp) (by simp) (by simp [wf_fromToken, afl, afu, num])
  have var : TokenWF variableName := wf_fromLines (by simp) (by simp) (by simp [wf_fromToken, lower, letter])
  have sha : TokenWF sha512Hex := wf_fromLines (by simp) (by simp) (by simp [wf_fromToken, hex])
  have hroot : TokenWF root := wf_fromLines (by simp) (by simp) (by simp [wf_fromToken, wf_fromValue, var])
  have inside : TokenWF channelPreviousNextInside := wf_fromLines (by simp) (by simp) (by simp [wf_fromToken, wf_fromValue, var])
  have prevNext : TokenWF channelPreviousNext := wf_fromLines (by simp) (by simp) (by simp [wf_fromToken, wf_fromValue, inside])
  have chan : TokenWF Shipped.channel := wf_fromLines (by simp) (by simp) (by simp [wf_fromToken, wf_fromValue, var, prevNext])
  have valA : TokenWF valueAssignment := wf_fromLines (by simp) (by simp) (by simp [wf_fromToken, wf_fromValue, var, byte])
  have dse : TokenWF delimiterThenSuiteElement := wf_fromLines (by simp) (by simp) (by simp [wf_fromToken, wf_fromValue, var])
  have sb : TokenWF suiteBlock := wf_fromLines (by simp) (by simp) (by simp [wf_fromToken, wf_fromValue, var, dse])
  have sv : TokenWF suiteValid := wf_fromLines (by simp) (by simp) (by simp [wf_fromToken, wf_allCharacters, sb])
  have si : TokenWF suiteInvalid := wf_fromLines (by simp) (by simp) (by simp [wf_fromToken, wf_allCharacters, sb])
  have st : TokenWF Shipped.suite := wf_fromLines (by simp) (by simp) (by simp [wf_fromToken, wf_allCharacters, sv, si])
  have card : TokenWF Shipped.cardinality := wf_fromLines (by simp) (by simp) (by simp [wf_fromToken, wf_fromValue, num])
  have el : TokenWF Shipped.element := wf_fromLines (by simp) (by simp) (by simp [wf_fromToken, var, card])
  have ln : TokenWF Shipped.line := wf_fromLines (by simp) (by simp) (by simp [wf_fromToken, el])
  have dl : TokenWF delimiterThenLine := wf_fromLines (by simp) (by simp) (by simp [wf_fromToken, wf_fromValue, ln])
  have bl : TokenWF Shipped.block := wf_fromLines (by simp) (by simp) (by simp [wf_fromToken, ln, dl])
  have ca : TokenWF composeWithAmount := wf_fromLines (by simp) (by simp) (by simp [wf_fromToken, wf_fromValue, num])
  have co : TokenWF Shipped.compose := wf_fromLines (by simp) (by simp) (by simp [wf_fromToken, var, ca])
  have ewe : TokenWF everythingWithEscape := wf_fromLines (by simp) (by simp) (by simp [wf_fromToken, wf_fromValue, var])
  have ewo : TokenWF everythingWithoutEscape := wf_fromLines (by simp) (by simp) (by simp [wf_fromToken, wf_fromValue, var])
  have ev : TokenWF Shipped.everything := wf_fromLines (by simp) (by simp) (by simp [wf_fromToken, ewe, ewo])
  have asg : ∀ name body, name ≠ "" → TokenWF body → TokenWF (assignment name body) := fun name body h1 h2 =>
    wf_fromLines h1 (by simp) (by simp [wf_fromToken, wf_fromValue, var, st, h2])
  have ins : TokenWF instruction := wf_fromLines (by simp) (by simp) (by
    simp [wf_fromToken, valA, composeAssignment, everythingAssignment, tokenAssignment, externalTokenAssignment, asg, co, ev, bl, sha])
  have gt : TokenWF grammarToken := wf_fromLines (by simp) (by simp) (by simp [wf_fromToken, hroot, chan, ins])
  have eol : TokenWF endOfLine := wf_anyCharacter (values := [10, 13]) (by simp) (by simp)
  have com : TokenWF comment := wf_fromLines (by simp) (by simp) (by
    simp only [forall_eq, List.mem_cons, List.not_mem_nil, or_false, forall_eq_or_imp]
    refine ⟨by simp, wf_fromToken (wf_allCharacters (by simp) (by simp)) _ _, ?_⟩
    exact .element _ _ _ (.everything _ _ _ (by simp) eol (by simp)))
  have cv : ∀ name b, name ≠ "" → ChannelWF (Shipped.channelFromValue name b) := fun name b h =>
    .mk _ _ _ (wf_fromLines h (by simp) (by simp [wf_fromValue])) (by simp) (by simp)
  refine .mk _ _ gt ?_
  intro c hc
  simp only [Shipped.channels, List.mem_cons, List.not_mem_nil, or_false] at hc
  rcases hc with rfl | rfl | rfl | rfl | rfl
  · exact cv _ _ (by simp)
  · exact cv _ _ (by simp)
  · exact cv _ _ (by simp)
  · exact cv _ _ (by simp)
  · exact .mk _ _ _ com (by simp) (by simp)

end Rodkina.Props
