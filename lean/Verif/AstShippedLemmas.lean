import Verif.AstSkip
import Verif.AstShipped

/-!
# The shipped grammar is in the class of the reference interpreter
-/

namespace Rodkina.Ast.Shipped

open Rodkina.Ast

/-! ## Membership in the class -/

theorem sameNames_of_min {cs : List Container} (h : ∀ c ∈ cs, c.min ≤ 1) : sameNames cs := by
  intro c hc c' _ _
  exact Nat.le_trans (h c hc) (Nat.le_max_left _ _)

theorem pegConts_iff {path : List String} {cs : List Container} :
    PegConts path cs ↔ ∀ c ∈ cs, PegCont path c := by
  induction cs with
  | nil => simp [PegConts]
  | cons c cs ih => simp [PegConts, ih]

theorem pegLines_iff {path : List String} {gs : List GLine} :
    PegLines path gs ↔ ∀ g ∈ gs, PegLine path g := by
  induction gs with
  | nil => simp [PegLines]
  | cons c cs ih => simp [PegLines, ih]

theorem pegTok_fromLines {path : List String} {name : String} {lines : List (List Container)} :
    PegTok path (fromLines name lines) ↔
      name ∉ path ∧ ∀ l ∈ lines, sameNames l ∧ ∀ c ∈ l, PegCont (name :: path) c := by
  unfold fromLines PegTok
  rw [pegLines_iff]
  simp only [List.mem_map, forall_exists_index, and_imp, forall_apply_eq_imp_iff₂, PegLine,
    pegConts_iff]

theorem pegCont_value (path : List String) (b : UInt8) : PegCont path (fromValue b) := by
  simp [fromValue, once, PegCont, PegContent]

theorem pegCont_token {path : List String} {t : Token} {max : Option Nat} {min : Nat} :
    PegCont path (fromToken t min max) ↔ min < 2 ^ 63 ∧ PegTok path t := by
  unfold fromToken PegCont PegContent
  exact Iff.rfl

theorem min_value (b : UInt8) : (fromValue b).min = 1 := rfl
theorem min_token (t : Token) (m : Nat) (x : Option Nat) : (fromToken t m x).min = m := rfl
theorem min_everything (n : String) (t : Token) (m : Option Token) :
    (fromEverything n t m).min = 1 := rfl

theorem pegTok_anyCharacter {path : List String} {name : String} {cs : Bytes} :
    PegTok path (anyCharacter name cs) ↔ name ∉ path := by
  unfold anyCharacter anyElement
  rw [pegTok_fromLines]
  refine ⟨fun h => h.1, fun h => ⟨h, ?_⟩⟩
  intro l hl
  simp only [List.mem_map] at hl
  obtain ⟨c, ⟨b, _, rfl⟩, rfl⟩ := hl
  refine ⟨sameNames_of_min ?_, ?_⟩ <;> simp only [List.mem_singleton, forall_eq]
  · exact Nat.le_refl _
  · exact pegCont_value _ b

theorem pegTok_allCharacters {path : List String} {name : String} {cs : Bytes} :
    PegTok path (allCharacters name cs) ↔ name ∉ path := by
  unfold allCharacters
  rw [pegTok_fromLines]
  refine ⟨fun h => h.1, fun h => ⟨h, ?_⟩⟩
  intro l hl
  simp only [List.mem_singleton] at hl
  subst hl
  refine ⟨sameNames_of_min ?_, ?_⟩
  · intro c hc
    simp only [List.mem_map] at hc
    obtain ⟨b, _, rfl⟩ := hc
    exact Nat.le_refl _
  · intro c hc
    simp only [List.mem_map] at hc
    obtain ⟨b, _, rfl⟩ := hc
    exact pegCont_value _ b

theorem sameNames_singleton (c : Container) : sameNames [c] := by
  intro a ha b hb _
  simp only [List.mem_singleton] at ha hb
  subst ha; subst hb
  exact Nat.le_max_right _ _

theorem sameNames_true {cs : List Container} (h : ∀ c ∈ cs, c.min ≤ 1) : sameNames cs ↔ True :=
  iff_true_intro (sameNames_of_min h)

/-- All shipped tokens are in the class. -/
theorem pegTok_grammar : PegTok [] grammarToken := by
  simp only [grammarToken, root, channel, channelPreviousNext, channelPreviousNextInside,
    instruction, valueAssignment, composeAssignment, everythingAssignment, tokenAssignment,
    externalTokenAssignment, assignment, suite, suiteValid, suiteInvalid, suiteBlock,
    delimiterThenSuiteElement, compose, composeWithAmount, everything, everythingWithEscape,
    everythingWithoutEscape, block, delimiterThenLine, line, element, cardinality, sha512Hex,
    anyHexChar, variableName, anyLetter, lowerCaseLetter, upperCaseLetter, aToFLower, aToFUpper,
    anyNumber, anyByte, pegTok_fromLines, pegTok_anyCharacter, pegTok_allCharacters,
    pegCont_value, pegCont_token, List.mem_cons, List.not_mem_nil, or_false, forall_eq_or_imp,
    forall_eq, sameNames_singleton, sameNames_true, min_value, min_token, Nat.le_refl, Nat.zero_le,
    and_self, and_true, true_and, implies_true]
  simp

theorem pegTok_comment : PegTok [] comment := by
  unfold comment
  rw [pegTok_fromLines]
  refine ⟨by simp, ?_⟩
  simp only [List.mem_singleton, forall_eq, List.mem_cons, List.not_mem_nil, or_false,
    forall_eq_or_imp]
  refine ⟨sameNames_of_min (by simp [min_token, min_everything]), ?_, ?_⟩
  · rw [pegCont_token, pegTok_allCharacters]
    simp
  · unfold fromEverything once PegCont PegContent
    refine ⟨by omega, rfl, ?_, ?_⟩
    · simp [endOfLine, anyElement, fromLines, Token.name]
    · intro g hg c hc
      simp [endOfLine, anyElement, fromLines, Token.lines] at hg
      subst hg
      simp [GLine.containers] at hc
      subst hc
      simp [fromValue, once, Container.isBytes]

/-! ## No escapes, no external grammars -/

theorem tokOK_fromLines {F : Flags} {name : String} {lines : List (List Container)} :
    TokOK F (fromLines name lines) ↔
      ∀ l ∈ lines, ∀ c ∈ l, containerAllowed F c ∧ c.All (lineAllowed F) := by
  unfold TokOK
  rw [Token.All_iff]
  simp only [fromLines, Token.lines, List.mem_map, forall_exists_index, and_imp,
    forall_apply_eq_imp_iff₂, GLine.containers, lineAllowed]
  constructor
  · intro h l hl c hc
    exact ⟨(h l hl).1 c hc, (h l hl).2 c hc⟩
  · intro h l hl
    exact ⟨fun c hc => (h l hl c hc).1, fun c hc => (h l hl c hc).2⟩

theorem allowed_value {F : Flags} (b : UInt8) :
    containerAllowed F (fromValue b) ∧ (fromValue b).All (lineAllowed F) :=
  ⟨trivial, by simp [fromValue, once, Container.All, Content.All]⟩

theorem allowed_token {F : Flags} {t : Token} {min : Nat} {max : Option Nat} :
    (containerAllowed F (fromToken t min max) ∧ (fromToken t min max).All (lineAllowed F)) ↔
      TokOK F t := by
  simp [fromToken, containerAllowed, Container.All, Content.All, TokOK]

theorem tokOK_anyCharacter {F : Flags} (name : String) (cs : Bytes) :
    TokOK F (anyCharacter name cs) := by
  unfold anyCharacter anyElement
  rw [tokOK_fromLines]
  intro l hl c hc
  simp only [List.mem_map] at hl
  obtain ⟨c', ⟨b, _, rfl⟩, rfl⟩ := hl
  simp only [List.mem_singleton] at hc
  subst hc
  exact allowed_value b

theorem tokOK_allCharacters {F : Flags} (name : String) (cs : Bytes) :
    TokOK F (allCharacters name cs) := by
  unfold allCharacters
  rw [tokOK_fromLines]
  intro l hl c hc
  simp only [List.mem_singleton] at hl
  subst hl
  simp only [List.mem_map] at hc
  obtain ⟨b, _, rfl⟩ := hc
  exact allowed_value b

theorem tokOK_grammar {F : Flags} : TokOK F grammarToken := by
  simp only [grammarToken, root, channel, channelPreviousNext, channelPreviousNextInside,
    instruction, valueAssignment, composeAssignment, everythingAssignment, tokenAssignment,
    externalTokenAssignment, assignment, suite, suiteValid, suiteInvalid, suiteBlock,
    delimiterThenSuiteElement, compose, composeWithAmount, everything, everythingWithEscape,
    everythingWithoutEscape, block, delimiterThenLine, line, element, cardinality, sha512Hex,
    anyHexChar, variableName, anyLetter, lowerCaseLetter, upperCaseLetter, aToFLower, aToFUpper,
    anyNumber, anyByte, tokOK_fromLines, tokOK_anyCharacter, tokOK_allCharacters,
    allowed_value, allowed_token, List.mem_cons, List.not_mem_nil, or_false, forall_eq_or_imp,
    forall_eq, and_self]

theorem tokOK_comment {F : Flags} : TokOK F comment := by
  unfold comment
  rw [tokOK_fromLines]
  simp only [List.mem_singleton, forall_eq, List.mem_cons, List.not_mem_nil, or_false,
    forall_eq_or_imp, allowed_token]
  refine ⟨tokOK_allCharacters _ _, trivial, ?_⟩
  have : TokOK F endOfLine := tokOK_anyCharacter "endOfLineSpaces" [10, 13]
  simpa [fromEverything, once, Container.All, Content.All, TokOK] using this

theorem tokOK_value {F : Flags} (name : String) (b : UInt8) :
    TokOK F (fromLines name [[fromValue b]]) := tokOK_anyCharacter name [b]

theorem pegTok_value (name : String) (b : UInt8) : PegTok [] (fromLines name [[fromValue b]]) :=
  (pegTok_anyCharacter (cs := [b])).mpr (by simp)

theorem tokenD_value (name : String) (b : UInt8) : tokenD (fromLines name [[fromValue b]]) = 1 := rfl

theorem tokenD_comment : tokenD comment = 2 := rfl

/-- All shipped channels are in the class. -/
theorem pegChannels : ∀ c ∈ channels, PegChannel 2 c := by
  intro c hc
  simp only [channels, List.mem_cons, List.not_mem_nil, or_false] at hc
  rcases hc with rfl | rfl | rfl | rfl | rfl
  · exact ⟨rfl, rfl, pegTok_value _ _, tokOK_value _ _, by show tokenD (fromLines _ _) ≤ 2; rw [tokenD_value]; omega⟩
  · exact ⟨rfl, rfl, pegTok_value _ _, tokOK_value _ _, by show tokenD (fromLines _ _) ≤ 2; rw [tokenD_value]; omega⟩
  · exact ⟨rfl, rfl, pegTok_value _ _, tokOK_value _ _, by show tokenD (fromLines _ _) ≤ 2; rw [tokenD_value]; omega⟩
  · exact ⟨rfl, rfl, pegTok_value _ _, tokOK_value _ _, by show tokenD (fromLines _ _) ≤ 2; rw [tokenD_value]; omega⟩
  · exact ⟨rfl, rfl, pegTok_comment, tokOK_comment, Nat.le_of_eq tokenD_comment⟩

end Rodkina.Ast.Shipped
