import Verif.AstShippedTok

/-!
# From the reference interpreter back to the parser, for the shipped tokens
-/

namespace Rodkina.Ast

/-- Parsing returns a tree with a successful block, these bytes (without channels) and this rest. -/
def Succeeds (g : Grammar) (input matched rest : Bytes) : Prop :=
  ∃ t, Parses g input (.ok t) ∧ t.isSuccessful = true ∧ t.bytes false = matched ∧ t.remaining = rest

/-- Parsing returns an error, or a tree without a successful block. -/
def Rejects (g : Grammar) (input : Bytes) : Prop :=
  Parses g input .err ∨ ∃ t, Parses g input (.ok t) ∧ t.isSuccessful = false

theorem Succeeds.not_rejects {g : Grammar} {i m r : Bytes} (h : Succeeds g i m r) : ¬ Rejects g i := by
  obtain ⟨t, h1, h2, _⟩ := h
  rintro (h | ⟨u, h3, h4⟩)
  · exact absurd (h1.unique h) (by simp)
  · have := h1.unique h3
    injection this with this
    subst this
    rw [h2] at h4
    exact absurd h4 (by simp)

theorem Succeeds.unique {g : Grammar} {i m r m' r' : Bytes} (h : Succeeds g i m r)
    (h' : Succeeds g i m' r') : m = m' ∧ r = r' := by
  obtain ⟨t, h1, _, h2, h3⟩ := h
  obtain ⟨u, h4, _, h5, h6⟩ := h'
  have := h1.unique h4
  injection this with this
  subst this
  exact ⟨h2.symm.trans h5, h3.symm.trans h6⟩

namespace Shipped

theorem plain_fromLines {name : String} {lines : List (List Container)} :
    Plain (fromLines name lines) ↔ ∀ cs ∈ lines, ∀ c ∈ cs, PlainCont c := by
  have hc : ∀ cs, PlainConts cs ↔ ∀ c ∈ cs, PlainCont c := by
    intro cs
    induction cs with
    | nil => simp [PlainConts]
    | cons c cs ih => simp [PlainConts, ih]
  unfold fromLines
  rw [Plain]
  induction lines with
  | nil => simp [PlainLines]
  | cons l ls ih => simp [PlainLines, PlainLine, ih, hc]

theorem plain_value (b : UInt8) : PlainCont (fromValue b) := by
  simp [fromValue, once, PlainCont, PlainContent]

theorem plain_token {t : Token} {min : Nat} {max : Option Nat} :
    PlainCont (fromToken t min max) ↔ Plain t := by
  simp [fromToken, PlainCont, PlainContent]

theorem plain_anyCharacter (name : String) (cs : Bytes) : Plain (anyCharacter name cs) := by
  unfold anyCharacter anyElement
  rw [plain_fromLines]
  intro l hl c hc
  simp only [List.mem_map] at hl
  obtain ⟨e, ⟨b, _, rfl⟩, rfl⟩ := hl
  simp only [List.mem_singleton] at hc
  subst hc
  exact plain_value b

theorem plain_allCharacters (name : String) (cs : Bytes) : Plain (allCharacters name cs) := by
  unfold allCharacters
  rw [plain_fromLines]
  intro l hl c hc
  simp only [List.mem_singleton] at hl
  subst hl
  simp only [List.mem_map] at hc
  obtain ⟨b, _, rfl⟩ := hc
  exact plain_value b

theorem plain_grammar : Plain grammarToken := by
  simp only [grammarToken, root, channel, channelPreviousNext, channelPreviousNextInside, instruction,
    valueAssignment, composeAssignment, everythingAssignment, tokenAssignment,
    externalTokenAssignment, assignment, compose, composeWithAmount, everything,
    everythingWithEscape, everythingWithoutEscape, block, delimiterThenLine, line, element,
    cardinality, suite, suiteValid, suiteInvalid, suiteBlock, delimiterThenSuiteElement, sha512Hex,
    variableName, anyHexChar, anyLetter, lowerCaseLetter, upperCaseLetter, aToFLower, aToFUpper,
    anyNumber, anyByte, plain_fromLines, List.forall_mem_cons, List.mem_cons, List.not_mem_nil,
    plain_value, plain_token, plain_anyCharacter, plain_allCharacters, or_false, forall_eq,
    forall_eq_or_imp, and_true, true_and, false_imp_iff, implies_true]

/-- Parsing without channels. -/
theorem agrees_plain {t : Token} (ht : PegTok [] t) (input : Bytes) :
    Agrees (.mk t []) input (pegToken id t input) :=
  peg_execute (g := .mk t []) (sk := id) (N := 0) (fun m _ => skipIs_nil (token m)) ht input

/-- Parsing with the shipped channels. -/
theorem agrees_channels {t : Token} (ht : PegTok [] t) (input : Bytes) :
    Agrees (.mk t channels) input (pegToken skipBlanks t input) := by
  rw [← skipAll_channels]
  exact peg_execute (g := .mk t channels) (N := 2) (fun m hm => skipIs_channels pegChannels hm) ht input

theorem Agrees.view {g : Grammar} {input : Bytes} {r : Option (Shape × Bytes)}
    (h : Agrees g input r) :
    match r.map view with
    | some x => Succeeds g input x.1 x.2
    | none => Rejects g input := by
  cases r with
  | none => exact h
  | some x =>
    obtain ⟨t, h1, h2, h3, h4⟩ := h
    exact ⟨t, h1, h2, by rw [Tree.bytes_shape, h3]; rfl, h4⟩

theorem Agrees.ok {g : Grammar} {input : Bytes} {r : Option (Shape × Bytes)} (h : Agrees g input r)
    {t : Tree} (ht : Parses g input (.ok t)) (hs : t.isSuccessful = true) :
    ∃ x, r = some x ∧ t.shape = x.1 ∧ t.remaining = x.2 := by
  cases r with
  | none =>
    rcases h with h | ⟨u, h, hu⟩
    · exact absurd (ht.unique h) (by simp)
    · have := ht.unique h
      injection this with this
      subst this
      rw [hs] at hu
      exact absurd hu (by simp)
  | some x =>
    obtain ⟨u, h, _, h1, h2⟩ := h
    have := ht.unique h
    injection this with this
    subst this
    exact ⟨x, rfl, h1, h2⟩

/-- The rest left by a token starts with no channel byte. -/
theorem pegToken_rest_skipped {t : Token} {d : Bytes} {x : Shape × Bytes}
    (h : pegToken skipBlanks t d = some x) : skipBlanks x.2 = x.2 := by
  rcases t with ⟨name, ls, _⟩
  rw [pegToken] at h
  cases hl : pegLines skipBlanks 0 ls d with
  | none => rw [hl] at h; simp at h
  | some y =>
    rw [hl, Option.map_some, Option.some.injEq] at h
    subst h
    simp only
    rw [← skipAll_channels, skipAll_idem]

/-- With the shipped channels a token finds on an input what it finds on its significant bytes. -/
theorem pegToken_significant {t : Token} (ht : Plain t) (d : Bytes) :
    (pegToken skipBlanks t d).map (fun x => (x.1, significant x.2)) =
      pegToken id t (significant d) := by
  have := pegToken_strip channels ht d
  rw [strip_channels, skipAll_channels] at this
  exact this

theorem significant_nil_iff {d : Bytes} (h : skipBlanks d = d) : significant d = [] ↔ d = [] := by
  rw [← strip_channels, strip_eq (skipAll_shrinks channels), skipAll_channels, h]
  cases d <;> simp

theorem variableName_lower {n rest : Bytes} (hn : n ≠ []) (hl : ∀ b ∈ n, isLower b = true)
    (hr : ∀ b r, rest = b :: r → isLetter b = false) :
    (pegToken id variableName (n ++ rest)).map view = some (n, rest) := by
  rw [variableName_view]
  cases n with
  | nil => exact absurd rfl hn
  | cons b r =>
    have hb := hl b (by simp)
    have hle : ∀ c ∈ r, isLetter c = true := by
      intro c hc
      have := hl c (by simp [hc])
      simp [isLetter, this]
    have hrest : rest.takeWhile isLetter = [] ∧ rest.dropWhile isLetter = rest := by
      cases rest with
      | nil => simp
      | cons c s => simp [hr c s rfl]
    simp only [List.cons_append, hb, if_true]
    rw [List.takeWhile_append_of_pos hle, List.dropWhile_append_of_pos hle, hrest.1, hrest.2]
    simp

theorem grammarToken_accepts (r n v : Bytes) (hr : r ≠ []) (hn : n ≠ []) (hv : v ≠ [])
    (hrl : ∀ b ∈ r, isLower b = true) (hnl : ∀ b ∈ n, isLower b = true) :
    (pegToken id grammarToken (64 :: r ++ 59 :: n ++ 58 :: v)).isSome = true := by
  have hname1 : (pegToken id variableName (r ++ 59 :: n ++ 58 :: v)).map view =
      some (r, 59 :: n ++ 58 :: v) := by
    rw [List.append_assoc]
    exact variableName_lower hr hrl (by intro b s h; simp at h; rw [← h.1]; rfl)
  have hname2 : (pegToken id variableName (n ++ 58 :: v)).map view = some (n, 58 :: v) :=
    variableName_lower hn hnl (by intro b s h; simp at h; rw [← h.1]; rfl)
  have hval : ∃ x, pegToken id valueAssignment (n ++ 58 :: v) = some x := by
    have h := valueAssignment_view (n ++ 58 :: v)
    rw [hname2] at h
    cases v with
    | nil => exact absurd rfl hv
    | cons b s =>
      simp only [Option.map_eq_some_iff] at h
      obtain ⟨x, hx, _⟩ := h
      exact ⟨x, hx⟩
  have hch : greedy (pegToken id channel) 0 none (n ++ 58 :: v) = some ([], n ++ 58 :: v) := by
    cases n with
    | nil => exact absurd rfl hn
    | cons b s =>
      have hb : (45 : UInt8) ≠ b := by
        intro h
        have := hnl b (by simp)
        rw [← h] at this
        exact absurd this (by decide)
      have hnone : pegToken id channel (b :: (s ++ 58 :: v)) = none := by
        unfold channel fromLines
        simp only [List.map_cons, List.map_nil]
        rw [pegToken, pegLines, pegLines, pegLine, pegSeq_value shrinks_id]
        simp [byteMatch, hb]
      simp only [List.cons_append]
      unfold greedy
      rw [List.length_cons, repeatMatch, if_neg (by simp), hnone]
      simp
  have hroot : ∃ x, pegToken id root (64 :: r ++ 59 :: n ++ 58 :: v) = some x ∧ x.2 = n ++ 58 :: v := by
    unfold root fromLines
    simp only [List.map_cons, List.map_nil]
    rw [pegToken, pegLines, pegLines, pegLine, pegSeq_value shrinks_id]
    simp only [List.cons_append, byteMatch, id, if_true, Option.bind_some]
    rw [pegSeq_token]
    rw [List.cons_append] at hname1
    simp only [Option.map_eq_some_iff] at hname1
    obtain ⟨x, hx, he⟩ := hname1
    simp only [view, Prod.mk.injEq] at he
    have hx' : pegToken id variableName (r ++ 59 :: (n ++ 58 :: v)) = some x := by
      rw [← hx]; simp
    simp only [List.append_assoc, List.cons_append] at *
    rw [hx']
    simp only [Option.bind_some]
    rw [pegSeq_value shrinks_id, he.2]
    simp [byteMatch, pegSeq]
  obtain ⟨x, hx, hx2⟩ := hroot
  obtain ⟨w, hw⟩ := hval
  unfold grammarToken fromLines
  simp only [List.map_cons, List.map_nil]
  rw [pegToken, pegLines, pegLines, pegLine, pegSeq_token, hx]
  simp only [Option.bind_some]
  rw [pegSeq_many, hx2, hch]
  simp only [Option.bind_some]
  rw [pegSeq_many, greedy_instruction, instruction_eq, hw]
  simp [pegSeq]

theorem pegTok_variableName : PegTok [] variableName := by
  have h : ∀ c : Container, sameNames [c] := sameNames_singleton
  simp [variableName, anyLetter, lowerCaseLetter, upperCaseLetter, pegTok_fromLines, pegCont_token,
    pegTok_anyCharacter, h]
  exact sameNames_of_min (by simp [min_token])

theorem pegTok_anyLetter : PegTok [] anyLetter := by
  have h : ∀ c : Container, sameNames [c] := sameNames_singleton
  simp [anyLetter, lowerCaseLetter, upperCaseLetter, pegTok_fromLines, pegCont_token,
    pegTok_anyCharacter, h]

theorem pegTok_anyHexChar : PegTok [] anyHexChar := by
  have h : ∀ c : Container, sameNames [c] := sameNames_singleton
  simp [anyHexChar, aToFLower, aToFUpper, anyNumber, pegTok_fromLines, pegCont_token,
    pegTok_anyCharacter, h]

theorem pegTok_sha512Hex : PegTok [] sha512Hex := by
  have h : ∀ c : Container, sameNames [c] := sameNames_singleton
  simp [sha512Hex, anyHexChar, aToFLower, aToFUpper, anyNumber, pegTok_fromLines, pegCont_token,
    pegTok_anyCharacter, h]

theorem pegTok_valueAssignment : PegTok [] valueAssignment := by
  have h : ∀ c : Container, sameNames [c] := sameNames_singleton
  have hn : PegTok ["valueAssignment"] variableName := by
    simp [variableName, anyLetter, lowerCaseLetter, upperCaseLetter, pegTok_fromLines, pegCont_token,
      pegTok_anyCharacter, h]
    exact sameNames_of_min (by simp [min_token])
  simp [valueAssignment, anyByte, pegTok_fromLines, pegCont_token, pegTok_anyCharacter, pegCont_value,
    hn]
  exact sameNames_of_min (by simp [min_token, min_value])

end Shipped

end Rodkina.Ast
