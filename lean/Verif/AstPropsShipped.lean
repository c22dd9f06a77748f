import Verif.AstShippedRun

/-!
# Properties of the shipped tokens and of the shipped grammar (C49-C51, C73-C77)
-/

namespace Rodkina.Props

open Rodkina.Ast
open Rodkina.Ast.Shipped

/-- The single-byte tokens of instances/grammars/tokens and their character classes. -/
def byteTokens : List (Token × (UInt8 → Bool)) :=
  [(anyNumber, isDigit), (lowerCaseLetter, isLower), (upperCaseLetter, isUpper),
    (aToFLower, isAfLower), (aToFUpper, isAfUpper), (anyLetter, isLetter), (anyHexChar, isHex),
    (anyByte, fun _ => true)]

theorem byteTokens_class : ∀ x ∈ byteTokens, PegTok [] x.1 ∧ Plain x.1 ∧ ∃ sh, IsClass x.1 x.2 sh := by
  have hp : ∀ n cs, PegTok [] (anyCharacter n cs) := fun n cs => by simp [pegTok_anyCharacter]
  intro x hx
  simp only [byteTokens, List.mem_cons, List.not_mem_nil, or_false] at hx
  rcases hx with rfl | rfl | rfl | rfl | rfl | rfl | rfl | rfl
  · exact ⟨hp _ _, plain_anyCharacter _ _, class_digit⟩
  · exact ⟨hp _ _, plain_anyCharacter _ _, class_lower⟩
  · exact ⟨hp _ _, plain_anyCharacter _ _, class_upper⟩
  · exact ⟨hp _ _, plain_anyCharacter _ _, class_afLower⟩
  · exact ⟨hp _ _, plain_anyCharacter _ _, class_afUpper⟩
  · refine ⟨pegTok_anyLetter, ?_, class_letter⟩
    simp [anyLetter, plain_fromLines, plain_token, lowerCaseLetter, upperCaseLetter,
      plain_anyCharacter]
  · refine ⟨pegTok_anyHexChar, ?_, class_hex⟩
    simp [anyHexChar, plain_fromLines, plain_token, aToFLower, aToFUpper, anyNumber,
      plain_anyCharacter]
  · exact ⟨hp _ _, plain_anyCharacter _ _, class_byte⟩

/-- **C49.** Without channels, each shipped single-byte token succeeds exactly when the first byte is
in its class, and then consumes exactly that byte. -/
theorem C49_character_classes (t : Token) (p : UInt8 → Bool) (h : (t, p) ∈ byteTokens)
    (input : Bytes) :
    match input with
    | [] => Rejects (.mk t []) []
    | b :: r => (p b = true → Succeeds (.mk t []) (b :: r) [b] r) ∧
        (p b = false → Rejects (.mk t []) (b :: r)) := by
  obtain ⟨h1, _, sh, h2⟩ := byteTokens_class _ h
  have ha := Agrees.view (agrees_plain h1 input)
  rw [h2.2] at ha
  cases input with
  | nil => exact ha
  | cons b r =>
    constructor
    · intro hp
      simp only [hp] at ha
      simpa [view, h2.1] using ha
    · intro hp
      simpa [hp] using ha

/-- **C49.** With the shipped channels the same holds of the first byte that is neither white space
nor part of a comment; the white space and comments after it are skipped too. -/
theorem C49_character_classes_with_channels (t : Token) (p : UInt8 → Bool) (h : (t, p) ∈ byteTokens)
    (input : Bytes) :
    match significant input with
    | [] => Rejects (.mk t channels) input
    | b :: r => (p b = true → ∃ rest, Succeeds (.mk t channels) input [b] rest ∧ significant rest = r)
        ∧ (p b = false → Rejects (.mk t channels) input) := by
  obtain ⟨h1, h3, sh, h2⟩ : PegTok [] t ∧ Plain t ∧ ∃ sh, IsClass t p sh := byteTokens_class _ h
  have ha := Agrees.view (agrees_channels h1 input)
  have hs := pegToken_significant h3 input
  rw [h2.2] at hs
  cases hsig : significant input with
  | nil =>
    rw [hsig] at hs
    simp only [Option.map_eq_none_iff] at hs
    rw [hs] at ha
    exact ha
  | cons b r =>
    rw [hsig] at hs
    simp only at hs ⊢
    constructor
    · intro hp
      rw [hp] at hs
      simp only [if_true, Option.map_eq_some_iff] at hs
      obtain ⟨x, hx, he⟩ := hs
      rw [hx] at ha
      simp only [Prod.mk.injEq] at he
      exact ⟨x.2, by simpa [view, he.1, h2.1] using ha, he.2⟩
    · intro hp
      rw [hp] at hs
      simp only [Bool.false_eq_true, if_false, Option.map_eq_none_iff] at hs
      rw [hs] at ha
      exact ha

/-- `7 x` starts with a digit. -/
example : Succeeds (.mk anyNumber []) [55, 32, 120] [55] [32, 120] :=
  (C49_character_classes anyNumber isDigit (by simp [byteTokens]) [55, 32, 120]).1 rfl
/-- `x7` does not. -/
example : Rejects (.mk anyNumber []) [120, 55] :=
  (C49_character_classes anyNumber isDigit (by simp [byteTokens]) [120, 55]).2 rfl

/-- **C50.** Without channels, a variable name is found exactly when the input starts with a
lower-case letter, and it is the longest run of letters. -/
theorem C50_variable_names (input : Bytes) :
    match input with
    | [] => Rejects (.mk variableName []) []
    | b :: r => (isLower b = true → Succeeds (.mk variableName []) (b :: r)
          (b :: r.takeWhile isLetter) (r.dropWhile isLetter)) ∧
        (isLower b = false → Rejects (.mk variableName []) (b :: r)) := by
  have ha := Agrees.view (agrees_plain pegTok_variableName input)
  rw [variableName_view] at ha
  cases input with
  | nil => exact ha
  | cons b r =>
    constructor
    · intro h
      simpa [h] using ha
    · intro h
      simpa [h] using ha

theorem plain_variableName : Plain variableName := by
  simp [variableName, anyLetter, plain_fromLines, plain_token, lowerCaseLetter, upperCaseLetter,
    plain_anyCharacter]

/-- **C50.** With the shipped channels the same holds of the significant bytes: white space and
comments inside a name are ignored. -/
theorem C50_variable_names_with_channels (input : Bytes) :
    match significant input with
    | [] => Rejects (.mk variableName channels) input
    | b :: r => (isLower b = true → ∃ rest, Succeeds (.mk variableName channels) input
          (b :: r.takeWhile isLetter) rest ∧ significant rest = r.dropWhile isLetter) ∧
        (isLower b = false → Rejects (.mk variableName channels) input) := by
  have ha := Agrees.view (agrees_channels pegTok_variableName input)
  have hs := pegToken_significant plain_variableName input
  have hv := variableName_view (significant input)
  rw [← hs] at hv
  cases hsig : significant input with
  | nil =>
    rw [hsig] at hv
    simp only [Option.map_eq_none_iff] at hv
    rw [hv] at ha
    exact ha
  | cons b r =>
    rw [hsig] at hv
    simp only at hv ⊢
    constructor
    · intro hp
      rw [hp] at hv
      simp only [if_true, Option.map_map, Option.map_eq_some_iff, Function.comp_apply] at hv
      obtain ⟨x, hx, he⟩ := hv
      rw [hx] at ha
      simp only [view, Prod.mk.injEq] at he
      exact ⟨x.2, by simpa [view, he.1] using ha, he.2⟩
    · intro hp
      rw [hp] at hv
      simp only [Bool.false_eq_true, if_false, Option.map_eq_none_iff] at hv
      rw [hv] at ha
      exact ha

/-- `aB2`: the name is `aB`. -/
example : Succeeds (.mk variableName []) [97, 66, 50] [97, 66] [50] :=
  (C50_variable_names [97, 66, 50]).1 rfl
/-- `Ab` is not a name. -/
example : Rejects (.mk variableName []) [65, 98] := (C50_variable_names [65, 98]).2 rfl

/-- **C74.** A hash is exactly 128 hexadecimal digits; nothing more is consumed. -/
theorem C74_hash_token (input : Bytes) :
    (128 ≤ input.length ∧ (∀ b ∈ input.take 128, isHex b = true) →
      Succeeds (.mk sha512Hex []) input (input.take 128) (input.drop 128)) ∧
    (¬ (128 ≤ input.length ∧ ∀ b ∈ input.take 128, isHex b = true) →
      Rejects (.mk sha512Hex []) input) := by
  have ha := Agrees.view (agrees_plain pegTok_sha512Hex input)
  rw [sha512Hex_view] at ha
  constructor
  · intro h
    have : 128 ≤ input.length ∧ (input.take 128).all isHex = true :=
      ⟨h.1, List.all_eq_true.mpr h.2⟩
    simpa [this] using ha
  · intro h
    have : ¬ (128 ≤ input.length ∧ (input.take 128).all isHex = true) :=
      fun hh => h ⟨hh.1, List.all_eq_true.mp hh.2⟩
    simpa only [if_neg this] using ha

/-- 130 zeros: 128 of them are taken. -/
example : Succeeds (.mk sha512Hex []) (List.replicate 130 48) (List.replicate 128 48) [48, 48] := by
  have := (C74_hash_token (List.replicate 130 48)).1 ⟨by simp, by
    intro b hb
    have := List.mem_of_mem_take hb
    rw [(List.mem_replicate.mp this).2]
    rfl⟩
  simpa using this

/-! ## Value assignments -/

/-- **C51 (what holds instead).** Whenever a value assignment is parsed, nothing remains: it takes
every byte up to the end of the input. -/
theorem C51_value_assignment_takes_everything_partial (chs : List Channel)
    (hc : chs = [] ∨ chs = Shipped.channels) (input : Bytes) (t : Tree)
    (h : Parses (.mk valueAssignment chs) input (.ok t)) (hs : t.isSuccessful = true) :
    t.remaining = [] := by
  have hplain : Plain valueAssignment := by
    simp [valueAssignment, variableName, anyLetter, anyByte, plain_fromLines, plain_token,
      lowerCaseLetter, upperCaseLetter, plain_anyCharacter, plain_value]
  rcases hc with rfl | rfl
  · obtain ⟨x, hp, _, hu⟩ := Agrees.ok (agrees_plain pegTok_valueAssignment input) h hs
    rw [hu]
    exact valueAssignment_rest hp
  · obtain ⟨x, hp, _, hu⟩ := Agrees.ok (agrees_channels pegTok_valueAssignment input) h hs
    have hsig := pegToken_significant hplain input
    rw [hp] at hsig
    rw [hu]
    exact (significant_nil_iff (pegToken_rest_skipped hp)).mp (valueAssignment_rest hsig.symm)

/-- The claim of C51: what follows the first semicolon is left for the next statement. -/
def StopsAtTerminator : Prop :=
  ∀ (before after : Bytes) (t : Tree), 59 ∉ before →
    Parses (.mk valueAssignment []) (before ++ 59 :: after) (.ok t) → t.isSuccessful = true →
    t.remaining = after

/-- Every lower-case name, colon and non-empty text is a value assignment, and it is taken whole. -/
theorem C51_accepted (n v : Bytes) (hn : n ≠ []) (hl : ∀ b ∈ n, isLower b = true) (hv : v ≠ []) :
    Succeeds (.mk valueAssignment []) (n ++ 58 :: v) (n ++ 58 :: v) [] := by
  have hn := variableName_lower (n := n) (rest := 58 :: v) hn hl
    (by intro c s h; simp only [List.cons.injEq] at h; rw [← h.1]; decide)
  have hva := valueAssignment_view (n ++ 58 :: v)
  have ha := Agrees.view (agrees_plain pegTok_valueAssignment (n ++ 58 :: v))
  rw [hva, hn] at ha
  cases v with
  | nil => exact absurd rfl hv
  | cons b s => simpa using ha

theorem valueAssignment_sample :
    Succeeds (.mk valueAssignment []) [97, 58, 98, 59, 99, 58, 100, 59] [97, 58, 98, 59, 99, 58, 100, 59]
      [] :=
  C51_accepted [97] [98, 59, 99, 58, 100, 59] (by simp) (by simp [isLower]) (by simp)

/-- **C51 is false.** `a:b;c:d;` is one assignment and nothing remains. -/
theorem C51_negation : ¬ StopsAtTerminator := by
  intro h
  obtain ⟨t, h1, h2, _, h4⟩ := valueAssignment_sample
  have he : ([97, 58, 98, 59, 99, 58, 100, 59] : Bytes) = [97, 58, 98] ++ 59 :: [99, 58, 100, 59] := by
    simp
  rw [he] at h1
  have := h [97, 58, 98] [99, 58, 100, 59] t (by simp) h1 h2
  rw [h4] at this
  simp at this

/-- The hypotheses of the theorem above are met by `a:b;c:d;`. -/
example : ∃ t, Parses (.mk valueAssignment []) [97, 58, 98, 59, 99, 58, 100, 59] (.ok t) ∧
    t.isSuccessful = true := by
  obtain ⟨t, h1, h2, _⟩ := valueAssignment_sample
  exact ⟨t, h1, h2⟩

/-! ## Grammar files -/

/-- **C75 (what holds instead).** Every successfully parsed grammar file is, in shape, a root,
channels and exactly one instruction, and that instruction is a value assignment which takes
everything to the end of the file: compose, everything, token and external assignments are never
recognised. -/
theorem C75_grammar_file_has_one_instruction_partial (input : Bytes) (t : Tree)
    (h : Parses grammar input (.ok t)) (hs : t.isSuccessful = true) :
    t.remaining = [] ∧ ∃ pre v, t.shape = .node "grammar" 0
      (pre ++ [.mk "instruction" [.node "instruction" 0 [.mk "valueAssignment" [v]]]]) ∧
      ∀ e ∈ pre, elemName e = "root" ∨ elemName e = "channel" := by
  obtain ⟨x, hp, hsh, hu⟩ := Agrees.ok (agrees_channels pegTok_grammar input) h hs
  have hsig := pegToken_significant plain_grammar input
  rw [hp] at hsig
  have hg := grammarToken_shape hsig.symm
  refine ⟨?_, ?_⟩
  · rw [hu]
    exact (significant_nil_iff (pegToken_rest_skipped hp)).mp hg.1
  · rw [hsh]
    exact hg.2

/-- Which alternatives the instructions of a parsed grammar file chose. -/
def instructionAlternatives : Shape → List Nat
  | .node _ _ es => es.flatMap (fun e => match e with
      | .mk "instruction" cs => cs.map (fun c => match c with
          | .node _ i _ => i
          | .byte _ => 0)
      | .mk _ _ => [])
  | .byte _ => []

/-- The claim of C75: some grammar file has two instructions, and every kind of instruction is
recognised in some file. -/
def InstructionsUsable : Prop :=
  (∃ input t, Parses grammar input (.ok t) ∧ t.isSuccessful = true ∧
    2 ≤ (instructionAlternatives t.shape).length) ∧
  ∀ i < 5, ∃ input t, Parses grammar input (.ok t) ∧ t.isSuccessful = true ∧
    i ∈ instructionAlternatives t.shape

/-- **C75 is false**, in both parts. -/
theorem C75_negation : ¬ InstructionsUsable ∧
    ∀ input t, Parses grammar input (.ok t) → t.isSuccessful = true →
      instructionAlternatives t.shape = [0] := by
  have key : ∀ input t, Parses grammar input (.ok t) → t.isSuccessful = true →
      instructionAlternatives t.shape = [0] := by
    intro input t h hs
    obtain ⟨_, pre, v, hsh, hpre⟩ := C75_grammar_file_has_one_instruction_partial input t h hs
    rw [hsh]
    simp only [instructionAlternatives, List.flatMap_append, List.flatMap_cons, List.flatMap_nil,
      List.map_cons, List.map_nil]
    have : pre.flatMap (fun e => match e with
      | .mk "instruction" cs => cs.map (fun c => match c with
          | .node _ i _ => i
          | .byte _ => 0)
      | .mk _ _ => []) = [] := by
      rw [List.flatMap_eq_nil_iff]
      intro e he
      rcases e with ⟨n, cs⟩
      have := hpre _ he
      simp only [elemName] at this
      rcases this with rfl | rfl <;> rfl
    simpa using this
  refine ⟨?_, key⟩
  rintro ⟨⟨input, t, h, hs, hl⟩, _⟩
  rw [key input t h hs] at hl
  simp at hl

/-- Every text of this form is a grammar file (white space and comments aside): a root, then a name, a
colon and at least one byte. -/
theorem C75_accepted_files (r n v : Bytes) (hr : r ≠ []) (hn : n ≠ []) (hv : v ≠ [])
    (hrl : ∀ b ∈ r, isLower b = true) (hnl : ∀ b ∈ n, isLower b = true) (input : Bytes)
    (hi : significant input = 64 :: r ++ 59 :: n ++ 58 :: v) :
    ∃ t, Parses grammar input (.ok t) ∧ t.isSuccessful = true := by
  have ha := agrees_channels pegTok_grammar input
  have hsig := pegToken_significant plain_grammar input
  rw [hi] at hsig
  have hg := grammarToken_accepts r n v hr hn hv hrl hnl
  cases hp : pegToken skipBlanks grammarToken input with
  | none =>
    rw [hp] at hsig
    rw [← hsig] at hg
    simp at hg
  | some x =>
    rw [hp] at ha
    obtain ⟨t, h1, h2, _⟩ := ha
    exact ⟨t, h1, h2⟩

example : ∃ t, Parses grammar [64, 97, 59, 32, 98, 58, 99] (.ok t) ∧ t.remaining = [] := by
  obtain ⟨t, h1, h2⟩ := C75_accepted_files [97] [98] [99] (by simp) (by simp) (by simp) (by simp [isLower])
    (by simp [isLower]) [64, 97, 59, 32, 98, 58, 99] (by decide)
  exact ⟨t, h1, (C75_grammar_file_has_one_instruction_partial _ t h1 h2).1⟩

/-- `@a; b:c` with a blank is such a file. -/
example : ∃ t, Parses grammar [64, 97, 59, 32, 98, 58, 99] (.ok t) ∧ t.isSuccessful = true :=
  C75_accepted_files [97] [98] [99] (by simp) (by simp) (by simp) (by simp [isLower])
    (by simp [isLower]) _ (by decide)

/-! ## White space and comments -/

/-- **C73.** Let a grammar be built from bytes and tokens whose names differ along every nesting path,
with unconditional channels of the same kind.  Then two inputs that agree after all channel bytes are
removed are both rejected, or both accepted with the same shape, and what remains agrees too. -/
theorem C73_channel_bytes_do_not_matter (g : Grammar) (N : Nat)
    (hg : PegTok [] g.root) (hp : Plain g.root) (hc : ∀ c ∈ g.channels, PegChannel N c)
    (x y : Bytes) (hxy : strip (skipAll g.channels) x = strip (skipAll g.channels) y) :
    (Rejects g x ∧ Rejects g y) ∨
    ∃ t u, Parses g x (.ok t) ∧ Parses g y (.ok u) ∧ t.isSuccessful = true ∧ u.isSuccessful = true ∧
      t.shape = u.shape ∧
      strip (skipAll g.channels) t.remaining = strip (skipAll g.channels) u.remaining := by
  have hx := peg_execute (fun m hm => skipIs_channels hc hm) hg x
  have hy := peg_execute (fun m hm => skipIs_channels hc hm) hg y
  have h1 := pegToken_strip g.channels hp x
  have h2 := pegToken_strip g.channels hp y
  rw [hxy, ← h2] at h1
  cases hpx : pegToken (skipAll g.channels) g.root x with
  | none =>
    rw [hpx] at h1 hx
    cases hpy : pegToken (skipAll g.channels) g.root y with
    | none =>
      rw [hpy] at hy
      exact Or.inl ⟨hx, hy⟩
    | some b => rw [hpy] at h1; simp at h1
  | some a =>
    rw [hpx] at h1 hx
    cases hpy : pegToken (skipAll g.channels) g.root y with
    | none => rw [hpy] at h1; simp at h1
    | some b =>
      rw [hpy] at h1 hy
      simp only [Option.map_some, Option.some.injEq, Prod.mk.injEq] at h1
      obtain ⟨t, t1, t2, t3, t4⟩ := hx
      obtain ⟨u, u1, u2, u3, u4⟩ := hy
      exact Or.inr ⟨t, u, t1, u1, t2, u2, by rw [t3, u3, h1.1], by rw [t4, u4, h1.2]⟩

/-- **C73** for the shipped grammar: white space and comments in a grammar file change nothing. -/
theorem C73_shipped (x y : Bytes) (hxy : significant x = significant y) :
    (Rejects grammar x ∧ Rejects grammar y) ∨
    ∃ t u, Parses grammar x (.ok t) ∧ Parses grammar y (.ok u) ∧ t.isSuccessful = true ∧
      u.isSuccessful = true ∧ t.shape = u.shape := by
  rcases C73_channel_bytes_do_not_matter grammar 2 pegTok_grammar plain_grammar pegChannels x y
    (by rw [show grammar.channels = Shipped.channels from rfl, strip_channels, hxy]) with h | h
  · exact Or.inl h
  · obtain ⟨t, u, h1, h2, h3, h4, h5, _⟩ := h
    exact Or.inr ⟨t, u, h1, h2, h3, h4, h5⟩

/-- `@a;b:c` and `@ a ;// x` newline `b:c` have the same significant bytes. -/
example : significant [64, 97, 59, 98, 58, 99] =
    significant [64, 32, 97, 32, 59, 47, 47, 32, 120, 10, 98, 58, 99] := by decide

/-- A token that is the single byte `b`. -/
def oneByte (b : UInt8) : Token := fromLines "oneByte" [[fromValue b]]

/-- **C76.** Parsing one byte with the shipped channels: white space and comments (`//`, at least one
more byte, up to the next new line) are skipped before and after it, and nothing else is. -/
theorem C76_channels_skip_exactly_blanks (b : UInt8) (input : Bytes) :
    match skipBlanks input with
    | [] => Rejects (.mk (oneByte b) Shipped.channels) input
    | c :: r => (b = c → Succeeds (.mk (oneByte b) Shipped.channels) input [b] (skipBlanks r)) ∧
        (b ≠ c → Rejects (.mk (oneByte b) Shipped.channels) input) := by
  have ha := Agrees.view (agrees_channels (pegTok_value "oneByte" b) input)
  have hp : pegToken skipBlanks (oneByte b) input = match skipBlanks input with
      | [] => none
      | c :: r => if b = c then
          some (.node "oneByte" 0 [.mk (toString b.toNat) [.byte b]], skipBlanks r) else none := by
    unfold oneByte fromLines
    simp only [List.map_cons, List.map_nil, pegToken, pegLines, pegLine]
    rw [pegSeq_value shrinks_skipBlanks]
    unfold byteMatch
    cases skipBlanks input with
    | nil => rfl
    | cons c r =>
      by_cases h : b = c
      · subst h; simp [pegSeq]
      · simp [h]
  unfold oneByte at hp
  rw [hp] at ha
  cases hs : skipBlanks input with
  | nil => rw [hs] at ha; exact ha
  | cons c r =>
    rw [hs] at ha
    simp only at ha ⊢
    constructor
    · intro h
      rw [if_pos h] at ha
      simpa [oneByte, view, Shape.bytes, shapeElemsBytes, ShapeElem.bytes, shapesBytes] using ha
    · intro h
      rw [if_neg h] at ha
      exact ha

/-- A blank, the comment `// x` and a new line in front of `a`, a tabulator behind it. -/
example : Succeeds (.mk (oneByte 97) Shipped.channels) [32, 47, 47, 120, 10, 97, 9] [97] [] := by
  have h := C76_channels_skip_exactly_blanks 97 [32, 47, 47, 120, 10, 97, 9]
  rw [show skipBlanks [32, 47, 47, 120, 10, 97, 9] = [97, 9] by decide] at h
  have h2 := h.1 rfl
  rwa [show skipBlanks [9] = [] by decide] at h2

/-- The claim of C77: a comment ends with its line, at a new line or a carriage return, and may be
empty; so a byte on the next line is found. -/
def CommentsEndWithTheLine : Prop :=
  ∀ (text : Bytes) (b eol : UInt8), (∀ c ∈ text, c ≠ 10 ∧ c ≠ 13) → (eol = 10 ∨ eol = 13) →
    isBlank b = false → b ≠ 47 →
    Succeeds (.mk (oneByte b) Shipped.channels) (47 :: 47 :: text ++ [eol, b]) [b] []

theorem skipB_text (text r : Bytes) (h : ∀ c ∈ text, c ≠ 10) :
    skipB true (text ++ 10 :: r) = skipB false r := by
  induction text with
  | nil => simp [skipB]
  | cons c s ih =>
    rw [List.cons_append, skipB, if_neg (h c (by simp))]
    exact ih (fun c hc => h c (by simp [hc]))

/-- **C77 (the part that holds).** A comment with at least one byte of text ends at a new line. -/
theorem C77_comment_ends_at_new_line_partial (text : Bytes) (b : UInt8) (ht : text ≠ [])
    (h : ∀ c ∈ text, c ≠ 10) (hb : isBlank b = false) (hs : b ≠ 47) :
    Succeeds (.mk (oneByte b) Shipped.channels) (47 :: 47 :: text ++ [10, b]) [b] [] := by
  have hk : skipBlanks (47 :: 47 :: text ++ [10, b]) = [b] := by
    unfold skipBlanks
    cases text with
    | nil => exact absurd rfl ht
    | cons c s =>
      have hc := h c (by simp)
      simp only [List.cons_append]
      rw [skipB, if_neg (by simp [isBlank]), if_pos (by simp [opensComment, hc]), skipB,
        if_neg (by simp)]
      have := skipB_text (c :: s) [b] h
      rw [List.cons_append] at this
      rw [this, skipB, if_neg (by simp [hb]), if_neg (by simp [hs])]
  have := C76_channels_skip_exactly_blanks b (47 :: 47 :: text ++ [10, b])
  rw [hk] at this
  exact this.1 rfl

/-- **C77 is false.** After `//x` and a carriage return the next line is still skipped; and an empty
comment is not skipped at all. -/
theorem C77_negation :
    Rejects (.mk (oneByte 97) Shipped.channels) [47, 47, 120, 13, 97] ∧
    Rejects (.mk (oneByte 97) Shipped.channels) [47, 47, 10, 97] ∧ ¬ CommentsEndWithTheLine := by
  have h1 : Rejects (.mk (oneByte 97) Shipped.channels) [47, 47, 120, 13, 97] := by
    have := C76_channels_skip_exactly_blanks 97 [47, 47, 120, 13, 97]
    have hs : skipBlanks [47, 47, 120, 13, 97] = [] := by decide
    rw [hs] at this
    exact this
  have h2 : Rejects (.mk (oneByte 97) Shipped.channels) [47, 47, 10, 97] := by
    have := C76_channels_skip_exactly_blanks 97 [47, 47, 10, 97]
    have hs : skipBlanks [47, 47, 10, 97] = [47, 47, 10, 97] := by decide
    rw [hs] at this
    exact this.2 (by decide)
  refine ⟨h1, h2, fun h => ?_⟩
  exact (h [120] 97 13 (by decide) (by decide) (by decide) (by decide)).not_rejects h1

/-- `//x`, new line, `a`: the `a` is found. -/
example : Succeeds (.mk (oneByte 97) Shipped.channels) [47, 47, 120, 10, 97] [97] [] :=
  C77_comment_ends_at_new_line_partial [120] 97 (by simp) (by decide) (by decide) (by decide)

end Rodkina.Props
