import Verif.GrammarTextTokens

/-!
# C121: every part of a grammar file is written in exactly one way
-/

set_option linter.unusedSimpArgs false

namespace Rodkina.Props

open Rodkina.Ast Rodkina.GrammarText
open Rodkina.Ast.Shipped (significant skipBlanks)

/-- The tokens of the shipped grammar of grammar files, each with the texts it stands for. -/
def grammarParts : List (Token × Text) :=
  [(Shipped.variableName, name), (Shipped.sha512Hex, hash), (Shipped.root, root),
    (Shipped.channelPreviousNextInside, condition), (Shipped.channelPreviousNext, bracketed),
    (Shipped.channel, channel), (Shipped.valueAssignment, value),
    (Shipped.delimiterThenSuiteElement, further), (Shipped.suiteBlock, inputs),
    (Shipped.suiteValid, valid), (Shipped.suiteInvalid, invalid), (Shipped.suite, suite),
    (Shipped.cardinality, cardinality), (Shipped.element, element), (Shipped.line, line),
    (Shipped.delimiterThenLine, alternative), (Shipped.block, block),
    (Shipped.composeWithAmount, amount), (Shipped.compose, compose),
    (Shipped.everythingWithEscape, escaped), (Shipped.everythingWithoutEscape, unescaped),
    (Shipped.everything, everything), (Shipped.composeAssignment, assign compose),
    (Shipped.everythingAssignment, assign everything), (Shipped.tokenAssignment, assign block),
    (Shipped.externalTokenAssignment, assign hash), (Shipped.instruction, instruction),
    (Shipped.grammarToken, file)]

theorem grammarParts_takes : ∀ p ∈ grammarParts, TokTakes p.1 p.2 := by
  simp only [grammarParts, List.forall_mem_cons]
  exact ⟨tok_name, tok_hash, tok_root, tok_condition, tok_bracketed, tok_channel, tok_value, tok_further,
    tok_inputs, tok_valid, tok_invalid, tok_suite, tok_cardinality, tok_element, tok_line,
    tok_alternative, tok_block, tok_amount, tok_compose, tok_escaped, tok_unescaped, tok_everything,
    tok_composeAssignment, tok_everythingAssignment, tok_tokenAssignment, tok_externalTokenAssignment,
    tok_instruction, tok_file, by simp⟩

open Rodkina.Ast.Shipped in
theorem grammarParts_pegTok : ∀ p ∈ grammarParts, PegTok [] p.1 := by
  simp only [grammarParts, List.forall_mem_cons]
  refine ⟨?_, ?_, ?_, ?_, ?_, ?_, ?_, ?_, ?_, ?_, ?_, ?_, ?_, ?_, ?_, ?_, ?_, ?_, ?_, ?_, ?_, ?_, ?_,
    ?_, ?_, ?_, ?_, ?_, by simp⟩
  all_goals
    simp only [grammarToken, Shipped.root, Shipped.channel, channelPreviousNext, channelPreviousNextInside,
      Shipped.instruction, valueAssignment, composeAssignment, everythingAssignment, tokenAssignment,
      externalTokenAssignment, assignment, Shipped.suite, suiteValid, suiteInvalid, suiteBlock,
      delimiterThenSuiteElement, Shipped.compose, composeWithAmount, Shipped.everything,
      everythingWithEscape, everythingWithoutEscape, Shipped.block, delimiterThenLine, Shipped.line,
      Shipped.element, Shipped.cardinality, sha512Hex,
      anyHexChar, variableName, anyLetter, lowerCaseLetter, upperCaseLetter, aToFLower, aToFUpper,
      anyNumber, anyByte, pegTok_fromLines, pegTok_anyCharacter, pegTok_allCharacters,
      pegCont_value, pegCont_token, List.mem_cons, List.not_mem_nil, or_false, forall_eq_or_imp,
      forall_eq, sameNames_singleton, sameNames_true, min_value, min_token, Nat.le_refl, Nat.zero_le,
      and_self, and_true, true_and, implies_true]
    simp

open Rodkina.Ast.Shipped in
theorem grammarParts_plain : ∀ p ∈ grammarParts, Plain p.1 := by
  simp only [grammarParts, List.forall_mem_cons]
  refine ⟨?_, ?_, ?_, ?_, ?_, ?_, ?_, ?_, ?_, ?_, ?_, ?_, ?_, ?_, ?_, ?_, ?_, ?_, ?_, ?_, ?_, ?_, ?_,
    ?_, ?_, ?_, ?_, ?_, by simp⟩
  all_goals
    simp only [grammarToken, Shipped.root, Shipped.channel, channelPreviousNext, channelPreviousNextInside,
      Shipped.instruction, valueAssignment, composeAssignment, everythingAssignment, tokenAssignment,
      externalTokenAssignment, assignment, Shipped.suite, suiteValid, suiteInvalid, suiteBlock,
      delimiterThenSuiteElement, Shipped.compose, composeWithAmount, Shipped.everything,
      everythingWithEscape, everythingWithoutEscape, Shipped.block, delimiterThenLine, Shipped.line,
      Shipped.element, Shipped.cardinality, sha512Hex,
      anyHexChar, variableName, anyLetter, lowerCaseLetter, upperCaseLetter, aToFLower, aToFUpper,
      anyNumber, anyByte, plain_fromLines, List.forall_mem_cons, List.mem_cons, List.not_mem_nil,
      plain_value, plain_token, plain_anyCharacter, plain_allCharacters, or_false, forall_eq,
      forall_eq_or_imp, and_self, and_true, true_and, implies_true, false_imp_iff]

/-- **C121.** Every part of a grammar file takes the longest text of its form from the front of the
input, and fails exactly when the input starts with no such text. -/
theorem C121_longest_text (p : Token × Text) (hp : p ∈ grammarParts) (input : Bytes) :
    (∀ m r, Longest p.2 input m r → Succeeds (.mk p.1 []) input m r) ∧
      (StartsWithNone p.2 input → Rejects (.mk p.1 []) input) := by
  have h1 := grammarParts_takes p hp input
  have h2 := Shipped.Agrees.view (Shipped.agrees_plain (grammarParts_pegTok p hp) input)
  cases he : (pegToken id p.1 input).map Shipped.view with
  | none =>
    rw [he] at h1 h2
    exact ⟨fun m r hl => absurd hl.2.1 (h1 m r hl.1), fun _ => h2⟩
  | some x =>
    rw [he] at h1 h2
    refine ⟨fun m r hl => ?_, fun hn => absurd h1.2.1 (hn _ _ h1.1)⟩
    have l1 := hl.2.2 x.1 x.2 h1.1 h1.2.1
    have l2 := h1.2.2 m r hl.1 hl.2.1
    have := List.append_inj (hl.1.symm.trans h1.1) (by omega)
    rw [this.1, this.2]
    exact h2

/-- **C121**, with white space and comments: the same holds for the bytes that are neither. -/
theorem C121_longest_text_blanks (p : Token × Text) (hp : p ∈ grammarParts) (input : Bytes) :
    (∀ m r, Longest p.2 (significant input) m r →
      ∃ rest, Succeeds (.mk p.1 Shipped.channels) input m rest ∧ skipBlanks rest = rest ∧ significant rest = r) ∧
      (StartsWithNone p.2 (significant input) → Rejects (.mk p.1 Shipped.channels) input) := by
  have h1 := grammarParts_takes p hp (significant input)
  have h2 := Shipped.Agrees.view (Shipped.agrees_channels (grammarParts_pegTok p hp) input)
  have h3 := Shipped.pegToken_significant (grammarParts_plain p hp) input
  rw [← h3] at h1
  cases he : pegToken skipBlanks p.1 input with
  | none =>
    rw [he] at h1 h2
    exact ⟨fun m r hl => absurd hl.2.1 (h1 m r hl.1), fun _ => h2⟩
  | some x =>
    have hr := Shipped.pegToken_rest_skipped he
    rw [he] at h1 h2
    have h1' : Longest p.2 (significant input) x.1.bytes (significant x.2) := h1
    refine ⟨fun m r hl => ⟨x.2, ?_, hr, ?_⟩, fun hn => absurd h1'.2.1 (hn _ _ h1'.1)⟩
    · have l1 := hl.2.2 _ _ h1'.1 h1'.2.1
      have l2 := h1'.2.2 m r hl.1 hl.2.1
      have := List.append_inj (hl.1.symm.trans h1'.1) (by omega)
      rw [this.1]
      exact h2
    · have l1 := hl.2.2 _ _ h1'.1 h1'.2.1
      have l2 := h1'.2.2 m r hl.1 hl.2.1
      exact (List.append_inj (hl.1.symm.trans h1'.1) (by omega)).2.symm

/-- Either the input starts with no text of the form or there is a longest one. -/
theorem longest_or_none (L : Text) (d : Bytes) : StartsWithNone L d ∨ ∃ m r, Longest L d m r := by
  by_cases h : StartsWithNone L d
  · exact .inl h
  · right
    have h : ∃ n, n ≤ d.length ∧ d.take n ∈ L := by
      by_contra hc
      apply h
      intro m r hd hm
      exact hc ⟨m.length, by rw [hd]; simp, by rw [hd, List.take_left]; exact hm⟩
    classical
    let P : Nat → Prop := fun n => n ≤ d.length ∧ d.take n ∈ L
    obtain ⟨n, hn⟩ := h
    have hmax : ∃ n, P n ∧ ∀ k, P k → k ≤ n := by
      refine ⟨Nat.findGreatest P d.length, Nat.findGreatest_spec (P := P) hn.1 hn, fun k hk =>
        Nat.le_findGreatest hk.1 hk⟩
    obtain ⟨n, hn, hm⟩ := hmax
    refine ⟨d.take n, d.drop n, (List.take_append_drop n d).symm, hn.2, fun m r hd hm' => ?_⟩
    have := hm m.length ⟨by rw [hd]; simp, by rw [hd, List.take_left]; exact hm'⟩
    rw [List.length_take]
    have := hn.1
    omega

/-- **C121**, whole files: a text is parsed to the end exactly when its bytes that are neither white
space nor comments are those of a grammar file. -/
theorem C121_file (input : Bytes) :
    (∃ m, Succeeds Shipped.grammar input m []) ↔ significant input ∈ file := by
  have h := C121_longest_text_blanks (Shipped.grammarToken, file) (by simp [grammarParts]) input
  constructor
  · rintro ⟨m, hm⟩
    rcases longest_or_none file (significant input) with hn | ⟨m', r', hl⟩
    · exact absurd (h.2 hn) hm.not_rejects
    · obtain ⟨rest, h1, _, h3⟩ := h.1 m' r' hl
      have := (hm.unique h1).2
      subst this
      have : r' = [] := h3.symm
      subst this
      have := hl.1
      rw [List.append_nil] at this
      rw [this]
      exact hl.2.1
  · intro hf
    obtain ⟨rest, h1, h2, h3⟩ := h.1 (significant input) [] ⟨by simp, hf, fun m' r' hd _ => by
      have := congrArg List.length hd
      rw [List.length_append] at this
      omega⟩
    have := (Shipped.significant_nil_iff h2).mp h3
    subst this
    exact ⟨_, h1⟩

/-! ## The hypotheses are met -/

/-- `[1,]x`: the cardinality `[1,]` is taken, `x` is left. -/
example : Succeeds (.mk Shipped.cardinality []) [91, 49, 44, 93, 120] [91, 49, 44, 93] [120] := by
  have hm : [91, 49, 44, 93] ∈ cardinality := by
    refine (Language.mem_add _ _ _).mpr (.inr ?_)
    refine Language.mem_mul.mpr ⟨[91, 49, 44], ?_, [93], rfl, rfl⟩
    refine Language.mem_mul.mpr ⟨[91, 49, 44], ?_, [], nil_star, rfl⟩
    refine Language.mem_mul.mpr ⟨[91, 49], ?_, [44], rfl, rfl⟩
    refine Language.mem_mul.mpr ⟨[91], rfl, [49], ?_, rfl⟩
    exact Language.mem_mul.mpr ⟨[49], ⟨49, by decide, rfl⟩, [], nil_star, rfl⟩
  exact (C121_longest_text (Shipped.cardinality, cardinality) (by simp [grammarParts]) _).1 _ _
    ⟨rfl, hm, fun m' r' hd hm' => prefixFree_cardinality _ hm m' hm' [120] r' (by rw [← hd]; rfl)⟩

/-- ` [1 ,] x`: the same with white space. -/
example : ∃ rest, Succeeds (.mk Shipped.cardinality Shipped.channels) [32, 91, 49, 32, 44, 93, 32, 120] [91, 49, 44, 93] rest ∧
    significant rest = [120] := by
  have hm : [91, 49, 44, 93] ∈ cardinality := by
    refine (Language.mem_add _ _ _).mpr (.inr ?_)
    refine Language.mem_mul.mpr ⟨[91, 49, 44], ?_, [93], rfl, rfl⟩
    refine Language.mem_mul.mpr ⟨[91, 49, 44], ?_, [], nil_star, rfl⟩
    refine Language.mem_mul.mpr ⟨[91, 49], ?_, [44], rfl, rfl⟩
    refine Language.mem_mul.mpr ⟨[91], rfl, [49], ?_, rfl⟩
    exact Language.mem_mul.mpr ⟨[49], ⟨49, by decide, rfl⟩, [], nil_star, rfl⟩
  have hs : significant [32, 91, 49, 32, 44, 93, 32, 120] = [91, 49, 44, 93, 120] := by decide
  obtain ⟨rest, h1, _, h2⟩ := (C121_longest_text_blanks (Shipped.cardinality, cardinality) (by simp [grammarParts])
    [32, 91, 49, 32, 44, 93, 32, 120]).1 [91, 49, 44, 93] [120] (by
      rw [hs]
      exact ⟨rfl, hm, fun m' r' hd hm' => prefixFree_cardinality _ hm m' hm' [120] r' (by rw [← hd]; rfl)⟩)
  exact ⟨rest, h1, h2⟩

/-- `:x` is no channel condition in brackets. -/
example : Rejects (.mk Shipped.channelPreviousNext []) [58, 120] := by
  refine (C121_longest_text (Shipped.channelPreviousNext, bracketed) (by simp [grammarParts]) _).2 ?_
  intro m r hd hm
  unfold bracketed at hm
  rw [mul_assoc] at hm
  obtain ⟨a, ha, b, _, rfl⟩ := Language.mem_mul.mp hm
  rw [mem_byte] at ha
  subst ha
  simp at hd

/-- The file `@r; a:b` is parsed to the end. -/
example : ∃ m, Succeeds Shipped.grammar [64, 114, 59, 32, 97, 58, 98] m [] := by
  rw [C121_file]
  have hs : significant [64, 114, 59, 32, 97, 58, 98] = [64, 114, 59, 97, 58, 98] := by decide
  rw [hs]
  have hn : ∀ b, Shipped.isLower b = true → [b] ∈ name := fun b hb =>
    Language.mem_mul.mpr ⟨[b], ⟨b, hb, rfl⟩, [], nil_star, rfl⟩
  refine Language.mem_mul.mpr ⟨[64, 114, 59], ?_, [97, 58, 98], ?_, rfl⟩
  · refine Language.mem_mul.mpr ⟨[64, 114, 59], ?_, [], nil_star, rfl⟩
    refine Language.mem_mul.mpr ⟨[64, 114], ?_, [59], rfl, rfl⟩
    exact Language.mem_mul.mpr ⟨[64], rfl, [114], hn 114 (by decide), rfl⟩
  · refine Language.mem_mul.mpr ⟨[97, 58, 98], ?_, [], nil_star, rfl⟩
    rw [instruction_value]
    refine Language.mem_mul.mpr ⟨[97, 58], ?_, [98], ?_, rfl⟩
    · exact Language.mem_mul.mpr ⟨[97], hn 97 (by decide), [58], rfl, rfl⟩
    · exact Language.mem_mul.mpr ⟨[98], ⟨98, rfl, rfl⟩, [], nil_star, rfl⟩

end Rodkina.Props
