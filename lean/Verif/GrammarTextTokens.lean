import Verif.GrammarTextLemmas

/-!
# The shipped tokens, one by one, take the longest text of their form
-/

namespace Rodkina.GrammarText

open Rodkina.Ast
open Rodkina.Ast.Shipped (view fromLines fromToken fromValue anyCharacter allCharacters IsClass
  isLower isUpper isLetter isDigit isHex)
open scoped Computability

/-! ## Classes of bytes -/

theorem tok_class {t : Token} {p : UInt8 → Bool} (h : ∃ sh, IsClass t p sh) :
    TokTakes t (oneOf p) := by
  obtain ⟨sh, h1, h2⟩ := h
  intro d
  rw [h2]
  cases d with
  | nil =>
    rintro m r hd ⟨b, _, rfl⟩
    simp at hd
  | cons b r =>
    simp only
    cases hp : p b with
    | true =>
      simp only [if_true, Option.map_some, view, h1]
      refine ⟨rfl, ⟨b, hp, rfl⟩, ?_⟩
      rintro m r hd ⟨c, _, rfl⟩
      simp
    | false =>
      simp only [Bool.false_eq_true, if_false, Option.map_none]
      rintro m r hd ⟨c, hc, rfl⟩
      simp at hd
      rw [← hd.1, hp] at hc
      exact absurd hc (by simp)

theorem munch_length {L : Text} (n : Nat) (h : ∀ w ∈ L, w.length = n) : Munch L :=
  munch_of_sep (sep_length n h)

theorem munch_oneOf {p : UInt8 → Bool} : Munch (oneOf p) :=
  munch_length 1 (by rintro w ⟨b, _, rfl⟩; rfl)

theorem tok_word (n : String) (w : Bytes) (hw : w ≠ []) : TokTakes (allCharacters n w) (word w) := by
  have hs : ∀ w : Bytes, SeqTakes (w.map fromValue) (word w) := by
    intro w
    induction w with
    | nil =>
      have : word [] = 1 := rfl
      rw [List.map_nil, this]; exact seq_nil
    | cons b w ih =>
      have : word (b :: w) = byte b * word w := by
        ext v
        simp [Language.mem_mul, mem_word, mem_byte, eq_comm]
      rw [List.map_cons, this]
      exact seq_value ih
  have := tok_of_lines (n := n) (lines := [w.map fromValue])
    (lines_cons (hs w) (by rw [mem_word]; exact fun e => hw e.symm) lines_nil before_zero)
  rwa [add_zero] at this

/-- One alternative. -/
theorem tok_one {n : String} {cs : List Container} {L : Text} (h : SeqTakes cs L) (hn : [] ∉ L) :
    TokTakes (fromLines n [cs]) L := by
  have := tok_of_lines (n := n) (lines := [cs]) (lines_cons h hn lines_nil before_zero)
  rwa [add_zero] at this

theorem lines_one {cs : List Container} {L : Text} (h : SeqTakes cs L) (hn : [] ∉ L) :
    LinesTakes [.mk cs] L := by
  have := lines_cons h hn lines_nil before_zero
  rwa [add_zero] at this

/-! ## Names and numbers -/

/-- Bytes that cannot be part of a name. -/
def mark (b : UInt8) : Bool := !isLetter b

theorem lower_letter {b : UInt8} (h : isLower b = true) : isLetter b = true := by
  simp [isLetter, h]

theorem name_avoids : Avoids name mark :=
  (avoids_oneOf fun b hb => by simp [mark, lower_letter hb]).mul
    (avoids_oneOf fun b hb => by simp [mark, hb]).star

theorem name_opens : Opens name isLower := (opens_oneOf fun _ h => h).mulOf nil_oneOf
theorem nil_name : [] ∉ name := nil_mul nil_oneOf

/-- Names end where something starts that is not a letter. -/
theorem sep_name {M : Text} (h : Opens M mark) : Sep name M := sep_of name_avoids h

theorem tok_name : TokTakes Shipped.variableName name := by
  have := seq_token (tok_class Shipped.class_lower)
    (seq_many (many_star (tok_class Shipped.class_letter) nil_oneOf munch_oneOf) seq_nil
      (by intro u _ v hv hv0; rw [Language.mem_one] at hv; exact absurd hv hv0))
    (sep_length 1 (by rintro w ⟨b, _, rfl⟩; rfl))
  rw [mul_one] at this
  exact tok_one this nil_name

theorem sep_one {L : Text} : Sep L 1 := by
  intro u _ v hv hv0
  rw [Language.mem_one] at hv
  exact absurd hv hv0

theorem many_number : ManyTakes Shipped.anyNumber 1 none number :=
  many_some1 (tok_class Shipped.class_digit) nil_oneOf munch_oneOf

theorem many_digits : ManyTakes Shipped.anyNumber 0 none (oneOf isDigit)∗ :=
  many_star (tok_class Shipped.class_digit) nil_oneOf munch_oneOf

/-- Bytes that are no digits. -/
def noDigit (b : UInt8) : Bool := !isDigit b

theorem digits_avoid : Avoids (oneOf isDigit)∗ noDigit :=
  (avoids_oneOf fun b hb => by simp [noDigit, hb]).star

theorem number_avoids : Avoids number noDigit :=
  (avoids_oneOf fun b hb => by simp [noDigit, hb]).some1

theorem nil_number : [] ∉ number := nil_some1 nil_oneOf

/-! ## The parts of a file -/

theorem tok_root : TokTakes Shipped.root root := by
  have := seq_value (b := 64) (seq_token tok_name (seq_value (b := 59) seq_nil)
    (sep_name ((opens_byte (by decide)).mulOf nil_byte)))
  rw [mul_one, ← mul_assoc] at this
  exact tok_one this (nil_mul_right nil_byte)

theorem tok_condition : TokTakes Shipped.channelPreviousNextInside condition := by
  have h1 := seq_token tok_name (seq_value (b := 58) (seq_token tok_name seq_nil sep_one))
    (sep_name ((opens_byte (by decide)).mulOf nil_byte))
  have h2 := seq_value (b := 58) (seq_token tok_name seq_nil sep_one)
  have h3 := seq_token tok_name seq_nil sep_one
  rw [mul_one] at h1 h2 h3
  rw [← mul_assoc] at h1
  have h := lines_cons h1 (nil_mul (nil_mul nil_name))
    (lines_cons h2 (nil_mul nil_byte) (lines_one h3 nil_name)
      (before_opens (opens_byte (A := fun b => b == 58) (by decide) |>.mulOf nil_byte) (nil_mul nil_byte)
        name_opens (by intro b hb; simp at hb; subst hb; decide)))
    ?_
  · rw [← add_assoc] at h
    exact tok_of_lines h
  · refine Before.add ?_ ?_
    · exact before_opens (name_opens.mulOf nil_name |>.mulOf (nil_mul nil_name))
        (nil_mul (nil_mul nil_name)) ((opens_byte (A := fun b => b == 58) (by decide)).mulOf nil_byte)
        (by intro b hb; simp; rintro rfl; exact absurd hb (by decide))
    · intro u hu v hv r s he
      obtain ⟨a', ha', c, hc, rfl⟩ := Language.mem_mul.mp hu
      obtain ⟨a, ha, b, hb, rfl⟩ := Language.mem_mul.mp ha'
      rw [mem_byte] at hb; subst hb
      have := sep_name (M := byte 58) (opens_byte (by decide)) a ha [58] (mem_byte.mpr rfl) (by simp)
        (c ++ r) v s (by rw [← he]; simp) hv
      simp; omega

theorem tok_bracketed : TokTakes Shipped.channelPreviousNext bracketed := by
  have hc : Avoids condition (fun b => b == 93) := by
    have hn : Avoids name (fun b => b == 93) := fun w hw b hb => by
      have := name_avoids w hw b hb
      simp only [beq_eq_false_iff_ne, ne_eq]
      rintro rfl
      exact absurd this (by decide)
    have hb : Avoids (byte 58) (fun b => b == 93) := avoids_byte (by decide)
    exact (((hn.mul hb).mul hn).add (hb.mul hn)).add hn
  have := seq_value (b := 91) (seq_token tok_condition (seq_value (b := 93) seq_nil)
    (sep_of hc ((opens_byte (by decide)).mulOf nil_byte)))
  rw [mul_one, ← mul_assoc] at this
  exact tok_one this (nil_mul_right nil_byte)

/-- No text of the set contains this byte. -/
def Without (L : Text) (b : UInt8) : Prop := Avoids L (fun c => c == b)

theorem without_byte {b c : UInt8} (h : c ≠ b) : Without (byte c) b := avoids_byte (by simp [h])
theorem without_name {b : UInt8} (h : isLetter b = false) : Without name b := fun w hw c hc => by
  have := name_avoids w hw c hc
  simp only [beq_eq_false_iff_ne, ne_eq]
  rintro rfl
  simp [mark, h] at this
theorem without_number {b : UInt8} (h : isDigit b = false) : Without number b := fun w hw c hc => by
  have := number_avoids w hw c hc
  simp only [beq_eq_false_iff_ne, ne_eq]
  rintro rfl
  simp [noDigit, h] at this
theorem without_digits {b : UInt8} (h : isDigit b = false) : Without (oneOf isDigit)∗ b :=
  fun w hw c hc => by
  have := digits_avoid w hw c hc
  simp only [beq_eq_false_iff_ne, ne_eq]
  rintro rfl
  simp [noDigit, h] at this

/-- The set ends where this byte stands. -/
theorem sep_without {L M : Text} {b : UInt8} (h : Without L b) : Sep L (byte b * M) :=
  sep_of h ((opens_byte (by simp)).mulOf nil_byte)

theorem sep_without_star {L M : Text} {b : UInt8} (h : Without L b) : Sep L (byte b * M)∗ :=
  sep_of h ((opens_byte (by simp)).mulOf nil_byte).star

theorem without_condition {b : UInt8} (h : isLetter b = false) (h' : b ≠ 58) : Without condition b :=
  (((without_name h).mul (without_byte h'.symm)).mul (without_name h)
    |>.add ((without_byte h'.symm).mul (without_name h))).add (without_name h)

theorem without_bracketed {b : UInt8} (h : isLetter b = false) (h1 : b ≠ 58) (h2 : b ≠ 91)
    (h3 : b ≠ 93) : Without bracketed b :=
  ((without_byte h2.symm).mul (without_condition h h1)).mul (without_byte h3.symm)

theorem tok_channel : TokTakes Shipped.channel channel := by
  have := seq_value (b := 45) (seq_token tok_name (seq_many (many_opt tok_bracketed)
    (seq_value (b := 59) seq_nil)
      (sep_without (without_bracketed (by decide) (by decide) (by decide) (by decide)).optional))
    (sep_name (Opens.mul (((opens_byte (by decide)).mulOf nil_byte).mulOf (nil_mul nil_byte)).optional
      ((opens_byte (by decide)).mulOf nil_byte))))
  rw [mul_one] at this
  simp only [← mul_assoc] at this
  exact tok_one this (nil_mul_right nil_byte)

theorem tok_value : TokTakes Shipped.valueAssignment value := by
  have := seq_token tok_name (seq_value (b := 58) (seq_many (many_some1 (tok_class Shipped.class_byte)
    nil_oneOf munch_oneOf) seq_nil sep_one)) (sep_without (without_name (by decide)))
  rw [mul_one] at this
  simp only [← mul_assoc] at this
  exact tok_one this (nil_mul (nil_mul nil_name))

theorem tok_further : TokTakes Shipped.delimiterThenSuiteElement further := by
  have := seq_value (b := 38) (seq_token tok_name seq_nil sep_one)
  rw [mul_one] at this
  exact tok_one this (nil_mul nil_byte)

/-- A byte that starts every text and does not occur again separates the texts. -/
theorem munch_byte {L : Text} {b : UInt8} (h : Without L b) : Munch (byte b * L) := by
  refine munch_of_sep ?_
  intro u hu v hv hv0 s u' r he hu'
  obtain ⟨b1, hb1, a, ha, rfl⟩ := Language.mem_mul.mp hu
  obtain ⟨b2, hb2, a', ha', rfl⟩ := Language.mem_mul.mp hu'
  rw [mem_byte] at hb1 hb2
  subst hb1; subst hb2
  have := sep_without_star (M := L) h a ha v hv hv0 s a' r (by simpa using he) ha'
  simpa using this

theorem without_further {b : UInt8} (h : isLetter b = false) (h' : b ≠ 38) : Without further b :=
  (without_byte h'.symm).mul (without_name h)

theorem tok_inputs : TokTakes Shipped.suiteBlock inputs := by
  have := seq_value (b := 58) (seq_token tok_name (seq_many
    (many_star tok_further (nil_mul nil_byte) (munch_byte (without_name (by decide))))
    (seq_value (b := 59) seq_nil) (sep_without (without_further (by decide) (by decide)).star))
    (sep_name (Opens.mul ((opens_byte (by decide)).mulOf nil_byte).star
      ((opens_byte (by decide)).mulOf nil_byte))))
  rw [mul_one] at this
  simp only [← mul_assoc] at this
  exact tok_one this (nil_mul_right nil_byte)

theorem nil_word {b : UInt8} {w : Bytes} : [] ∉ word (b :: w) := by rw [mem_word]; simp

theorem tok_valid : TokTakes Shipped.suiteValid valid := by
  have := seq_token (tok_word "validConst" [118, 97, 108, 105, 100] (by simp))
    (seq_token tok_inputs seq_nil sep_one) sep_word
  rw [mul_one] at this
  exact tok_one this (nil_mul nil_word)

theorem tok_invalid : TokTakes Shipped.suiteInvalid invalid := by
  have := seq_token (tok_word "invalidConst" [105, 110, 118, 97, 108, 105, 100] (by simp))
    (seq_token tok_inputs seq_nil sep_one) sep_word
  rw [mul_one] at this
  exact tok_one this (nil_mul nil_word)

theorem opens_valid : Opens valid (fun b => b == 118) :=
  (opens_word (by decide)).mulOf nil_word
theorem opens_invalid : Opens invalid (fun b => b == 105) :=
  (opens_word (by decide)).mulOf nil_word

/-- No text of the set is the beginning of another one. -/
def PrefixFree (L : Text) : Prop := ∀ u ∈ L, ∀ v ∈ L, ∀ r s, u ++ r = v ++ s → v.length ≤ u.length

theorem PrefixFree.sep {L M : Text} (h : PrefixFree L) : Sep L M := by
  intro u hu v _ _ s u' r he hu'
  exact h u hu u' hu' (v ++ s) r (by rw [← List.append_assoc, he])

theorem PrefixFree.munch {L : Text} (h : PrefixFree L) : Munch L := munch_of_sep h.sep

/-- The last byte occurs nowhere else. -/
theorem prefixFree_end {L : Text} {b : UInt8} (h : Without L b) : PrefixFree (L * byte b) := by
  intro u hu v hv r s he
  obtain ⟨a, ha, c, hc, rfl⟩ := Language.mem_mul.mp hu
  obtain ⟨a', ha', c', hc', rfl⟩ := Language.mem_mul.mp hv
  rw [mem_byte] at hc hc'
  subst hc; subst hc'
  have := sep_without (M := 1) h a ha [b] (by rw [mul_one, mem_byte]) (by simp) r a' ([b] ++ s)
    (by simpa using he) ha'
  simp; omega

theorem prefixFree_word {L : Text} {w : Bytes} (h : PrefixFree L) : PrefixFree (word w * L) := by
  intro u hu v hv r s he
  obtain ⟨a, ha, c, hc, rfl⟩ := Language.mem_mul.mp hu
  obtain ⟨a', ha', c', hc', rfl⟩ := Language.mem_mul.mp hv
  rw [mem_word] at ha ha'
  subst ha; subst ha'
  have := h c hc c' hc' r s (by simpa using he)
  simp; omega

theorem prefixFree_inputs : PrefixFree inputs :=
  prefixFree_end (((without_byte (by decide)).mul (without_name (by decide))).mul
    (without_further (by decide) (by decide)).star)
theorem prefixFree_valid : PrefixFree valid := prefixFree_word prefixFree_inputs
theorem prefixFree_invalid : PrefixFree invalid := prefixFree_word prefixFree_inputs

theorem tok_suite : TokTakes Shipped.suite suite := by
  have h1 := seq_token (tok_word "suitePrefixConst" [45, 45, 45] (by simp))
    (seq_token tok_valid (seq_many (many_opt tok_invalid) seq_nil sep_one) prefixFree_valid.sep)
    sep_word
  have hs : Sep (optional valid) invalid := by
    intro u hu v hv hv0 s u' r he hu'
    rcases (Language.mem_add _ _ _).mp hu' with hu' | hu'
    · rw [Language.mem_one] at hu'; simp [hu']
    · rcases (Language.mem_add _ _ _).mp hu with hu | hu
      · rw [Language.mem_one] at hu
        subst hu
        cases v with
        | nil => exact absurd rfl hv0
        | cons b v =>
          cases u' with
          | nil => simp
          | cons c u' =>
            have h1 := opens_invalid _ hv b v rfl
            have h2 := opens_valid _ hu' c u' rfl
            simp at he h1 h2
            rw [← he.1, h1] at h2
            exact absurd h2 (by decide)
      · exact prefixFree_valid u hu u' hu' (v ++ s) r (by rw [← List.append_assoc, he])
  have h2 := seq_token (tok_word "suitePrefixConst" [45, 45, 45] (by simp))
    (seq_many (many_opt tok_valid) (seq_token tok_invalid seq_nil sep_one) (by rwa [mul_one]))
    sep_word
  rw [mul_one] at h1 h2
  have h := lines_cons_general h1 (nil_mul nil_word) (lines_one h2 (nil_mul nil_word)) ?_
  · rw [← mul_add] at h
    exact tok_of_lines h
  · intro d u r hl v s hd hv
    obtain ⟨a', ha', c', hc', rfl⟩ := Language.mem_mul.mp hv
    obtain ⟨x, hx, y, hy, rfl⟩ := Language.mem_mul.mp hc'
    rcases (Language.mem_add _ _ _).mp hx with hx | hx
    · -- without valid inputs the first alternative cannot have matched
      rw [Language.mem_one] at hx
      subst hx
      exfalso
      obtain ⟨a, ha, c, hc, rfl⟩ := Language.mem_mul.mp hl.2.1
      obtain ⟨z, hz, _, _, rfl⟩ := Language.mem_mul.mp hc
      rw [mem_word] at ha ha'
      subst ha; subst ha'
      have he := hl.1
      rw [hd] at he
      cases y with
      | nil => exact absurd hy (nil_mul nil_word)
      | cons b y =>
        cases z with
        | nil => exact absurd hz (nil_mul nil_word)
        | cons b' z =>
          have h1 := opens_invalid _ hy b y rfl
          have h2 := opens_valid _ hz b' z rfl
          simp at he h1 h2
          rw [h1, h2] at he
          exact absurd he.1 (by decide)
    · exact hl.2.2 _ s hd (Language.mem_mul.mpr ⟨a', ha', _, Language.mem_mul.mpr
        ⟨x, hx, y, (Language.mem_add _ _ _).mpr (.inr hy), rfl⟩, rfl⟩)

/-! ## Lines, blocks and the other bodies -/

theorem tok_cardinality : TokTakes Shipped.cardinality cardinality := by
  have h1 := seq_value (b := 63) seq_nil
  have h2 := seq_value (b := 43) seq_nil
  have h3 := seq_value (b := 42) seq_nil
  have h4 := seq_value (b := 91) (seq_many many_number (seq_value (b := 93) seq_nil)
    (sep_without (without_number (by decide))))
  have h5 := seq_value (b := 91) (seq_many many_number (seq_value (b := 44) (seq_many many_digits
    (seq_value (b := 93) seq_nil) (sep_without (without_digits (by decide)))))
    (sep_without (without_number (by decide))))
  rw [mul_one] at h1 h2 h3 h4 h5
  simp only [← mul_assoc] at h4 h5
  have o : ∀ b : UInt8, Opens (byte b) (fun c => c == b) := fun b => opens_byte (by simp)
  have o4 : Opens (byte 91 * number * byte 93) (fun c => c == 91) :=
    ((o 91).mulOf nil_byte).mulOf (nil_mul nil_byte)
  have o5 : Opens (byte 91 * number * byte 44 * (oneOf isDigit)∗ * byte 93) (fun c => c == 91) :=
    ((((o 91).mulOf nil_byte).mulOf (nil_mul nil_byte)).mulOf (nil_mul (nil_mul nil_byte))).mulOf
      (nil_mul (nil_mul (nil_mul nil_byte)))
  have b45 : Before (byte 91 * number * byte 93)
      (byte 91 * number * byte 44 * (oneOf isDigit)∗ * byte 93) := by
    intro u hu v hv r s he
    exfalso
    rw [mul_assoc] at hu
    simp only [mul_assoc] at hv
    obtain ⟨x, hx, u1, hu1, rfl⟩ := Language.mem_mul.mp hu
    obtain ⟨y, hy, v1, hv1, rfl⟩ := Language.mem_mul.mp hv
    rw [mem_byte] at hx hy
    subst hx; subst hy
    obtain ⟨n, hn, c, hc, rfl⟩ := Language.mem_mul.mp hu1
    obtain ⟨m, hm, v2, hv2, rfl⟩ := Language.mem_mul.mp hv1
    obtain ⟨y, hy, v, hv3, rfl⟩ := Language.mem_mul.mp hv2
    rw [mem_byte] at hc hy
    subst hc; subst hy
    have he : n ++ [93] ++ r = m ++ [44] ++ (v ++ s) := by simpa using he
    have a1 := sep_without (M := 1) (b := 93) (without_number (by decide)) n hn [93]
      (by rw [mul_one, mem_byte]) (by simp) r m ([44] ++ (v ++ s)) (by simpa using he) hm
    have a2 := sep_without (M := 1) (b := 44) (without_number (by decide)) m hm [44]
      (by rw [mul_one, mem_byte]) (by simp) (v ++ s) n ([93] ++ r) (by simpa using he.symm) hn
    rw [List.append_assoc, List.append_assoc] at he
    have := (List.append_inj he (by omega)).2
    simp at this
  have h45 := lines_cons h4 (nil_mul (nil_mul nil_byte))
    (lines_one h5 (nil_mul (nil_mul (nil_mul (nil_mul nil_byte))))) b45
  have h345 := lines_cons h3 nil_byte h45 (before_opens (o 42) nil_byte (o4.add o5)
    (by intro b hb; simp at hb; subst hb; decide))
  have h2345 := lines_cons h2 nil_byte h345 (Before.add
    (before_opens (o 43) nil_byte (o 42) (by intro b hb; simp at hb; subst hb; decide))
    (before_opens (o 43) nil_byte (o4.add o5) (by intro b hb; simp at hb; subst hb; decide)))
  have h := lines_cons h1 nil_byte h2345 (Before.add
    (before_opens (o 63) nil_byte (o 43) (by intro b hb; simp at hb; subst hb; decide)) (Before.add
    (before_opens (o 63) nil_byte (o 42) (by intro b hb; simp at hb; subst hb; decide))
    (before_opens (o 63) nil_byte (o4.add o5) (by intro b hb; simp at hb; subst hb; decide))))
  simp only [← add_assoc] at h
  exact tok_of_lines h

/-- Bytes that start a cardinality. -/
def opensCardinality (b : UInt8) : Bool := b == 63 || b == 43 || b == 42 || b == 91

theorem nil_cardinality : [] ∉ cardinality :=
  nil_add (nil_add (nil_add (nil_add nil_byte nil_byte) nil_byte) (nil_mul (nil_mul nil_byte)))
    (nil_mul (nil_mul (nil_mul (nil_mul nil_byte))))

theorem opens_cardinality : Opens cardinality opensCardinality :=
  ((((opens_byte (by decide)).add (opens_byte (by decide))).add (opens_byte (by decide))).add
    (((opens_byte (by decide)).mulOf nil_byte).mulOf (nil_mul nil_byte))).add
    (((((opens_byte (by decide)).mulOf nil_byte).mulOf (nil_mul nil_byte)).mulOf
      (nil_mul (nil_mul nil_byte))).mulOf (nil_mul (nil_mul (nil_mul nil_byte))))

theorem prefixFree_add {L M : Text} {A B : UInt8 → Bool} (h : PrefixFree L) (h' : PrefixFree M)
    (ho : Opens L A) (hn : [] ∉ L) (ho' : Opens M B) (hn' : [] ∉ M)
    (hd : ∀ b, A b = true → B b = false) : PrefixFree (L + M) := by
  intro u hu v hv r s he
  rcases (Language.mem_add _ _ _).mp hu with hu | hu <;>
    rcases (Language.mem_add _ _ _).mp hv with hv | hv
  · exact h u hu v hv r s he
  · exact before_opens ho hn ho' hd u hu v hv r s he
  · refine before_opens ho' hn' ho ?_ u hu v hv r s he
    intro b hb
    by_contra hc
    rw [hd b (by simpa using hc)] at hb
    exact absurd hb (by simp)
  · exact h' u hu v hv r s he

theorem prefixFree_byte {b : UInt8} : PrefixFree (byte b) := by
  intro u hu v hv r s _
  rw [mem_byte] at hu hv
  subst hu; subst hv
  exact Nat.le_refl _

theorem prefixFree_cardinality : PrefixFree cardinality := by
  have o : ∀ b : UInt8, Opens (byte b) (fun c => c == b) := fun b => opens_byte (by simp)
  have hb : byte 91 * number * byte 93 + byte 91 * number * byte 44 * (oneOf isDigit)∗ * byte 93 =
      byte 91 * (number + number * byte 44 * (oneOf isDigit)∗) * byte 93 := by
    simp only [mul_add, add_mul, mul_assoc]
  unfold cardinality
  rw [add_assoc, hb]
  have w : Without (byte 91 * (number + number * byte 44 * (oneOf isDigit)∗)) 93 :=
    (without_byte (by decide)).mul ((without_number (by decide)).add
      (((without_number (by decide)).mul (without_byte (by decide))).mul (without_digits (by decide))))
  have o2 : Opens (byte 63 + byte 43) (fun c => c == 63 || c == 43) :=
    (opens_byte (by decide)).add (opens_byte (by decide))
  have o3 : Opens (byte 63 + byte 43 + byte 42) (fun c => c == 63 || c == 43 || c == 42) :=
    ((opens_byte (by decide)).add (opens_byte (by decide))).add (opens_byte (by decide))
  refine prefixFree_add (prefixFree_add (prefixFree_add prefixFree_byte prefixFree_byte (o 63) nil_byte
    (o 43) nil_byte ?_) prefixFree_byte o2 (nil_add nil_byte nil_byte) (o 42) nil_byte ?_)
    (prefixFree_end w) o3 (nil_add (nil_add nil_byte nil_byte) nil_byte)
    (((o 91).mulOf nil_byte).mulOf (nil_mul nil_byte)) (nil_mul (nil_mul nil_byte)) ?_
  · intro b hb; simp at hb; subst hb; decide
  · intro b hb; simp at hb; rcases hb with rfl | rfl <;> decide
  · intro b hb; simp at hb; rcases hb with (rfl | rfl) | rfl <;> decide

theorem mark_cardinality {b : UInt8} (h : opensCardinality b = true) : mark b = true := by
  simp only [opensCardinality, Bool.or_eq_true, beq_iff_eq] at h
  rcases h with ((rfl | rfl) | rfl) | rfl <;> decide

theorem opens_mark {L : Text} (h : Opens L opensCardinality) : Opens L mark :=
  fun w hw b r he => mark_cardinality (h w hw b r he)

theorem tok_element : TokTakes Shipped.element element := by
  have := seq_token tok_name (seq_many (many_star tok_cardinality nil_cardinality
    prefixFree_cardinality.munch) seq_nil sep_one)
    (sep_name (by rw [mul_one]; exact opens_mark opens_cardinality.star))
  rw [mul_one] at this
  exact tok_one this (nil_mul nil_name)

theorem nil_element : [] ∉ element := nil_mul nil_name
theorem opens_element : Opens element isLower := name_opens.mulOf nil_name

/-- Cardinalities are never followed by the middle of another one. -/
theorem star_longer {L M : Text} (h : PrefixFree L) (hn : [] ∉ L) {A : UInt8 → Bool} (ho : Opens L A)
    (hm : Opens M (fun b => !A b)) : Sep L∗ M := by
  intro u hu v hv hv0 s u' r he hu'
  obtain ⟨us, rfl, hus⟩ := Language.mem_kstar.mp hu
  clear hu
  induction us generalizing u' with
  | nil =>
    rcases star_split hu' with rfl | ⟨x, y, rfl, hx, _⟩
    · simp
    · cases v with
      | nil => exact absurd rfl hv0
      | cons b v =>
        cases x with
        | nil => exact absurd hx hn
        | cons c x =>
          have h1 := hm _ hv b v rfl
          have h2 := ho _ hx c x rfl
          simp at he
          rw [he.1] at h1
          simp [h2] at h1
  | cons x us ih =>
    rcases star_split hu' with rfl | ⟨y, z, rfl, hy, hz⟩
    · simp
    · have hx := hus x (by simp)
      have a1 := h x hx y hy (us.flatten ++ v ++ s) (z ++ r) (by simpa using he)
      have a2 := h y hy x hx (z ++ r) (us.flatten ++ v ++ s) (by simpa using he.symm)
      have he' : x ++ (us.flatten ++ v ++ s) = y ++ (z ++ r) := by simpa using he
      obtain ⟨e1, e2⟩ := List.append_inj he' (by omega)
      have := ih z hz (fun w hw => hus w (by simp [hw])) e2
      rw [List.flatten_cons, List.length_append, List.length_append]
      omega

theorem name_append {a b : Bytes} (ha : a ∈ name) (hb : b ∈ name) : a ++ b ∈ name := by
  obtain ⟨x, hx, u, hu, rfl⟩ := Language.mem_mul.mp ha
  obtain ⟨y, hy, v, hv, rfl⟩ := Language.mem_mul.mp hb
  refine Language.mem_mul.mpr ⟨x, hx, u ++ (y ++ v), ?_, by simp⟩
  have hyv : y ++ v ∈ (oneOf isLetter)∗ := by
    obtain ⟨c, hc, rfl⟩ := hy
    exact mem_star_cons ⟨c, lower_letter hc, rfl⟩ hv
  obtain ⟨us, rfl, hus⟩ := Language.mem_kstar.mp hu
  obtain ⟨vs, hvs, hvs'⟩ := Language.mem_kstar.mp hyv
  exact Language.mem_kstar.mpr ⟨us ++ vs, by rw [List.flatten_append, hvs], fun z hz => by
    rcases List.mem_append.mp hz with hz | hz
    · exact hus z hz
    · exact hvs' z hz⟩

theorem not_lower_opens {b : UInt8} (h : isLower b = true) : (!opensCardinality b) = true := by
  cases hc : opensCardinality b with
  | false => rfl
  | true =>
    have := mark_cardinality hc
    simp [mark, lower_letter h] at this

/-- Two names in a row are one name, so the longest element may be several elements; nothing is
lost. -/
theorem munch_element : Munch element := by
  intro d u' r' hl u hu w hw s hd
  obtain ⟨ws, rfl, hws⟩ := Language.mem_kstar.mp hw
  clear hw
  induction ws generalizing u with
  | nil =>
    left
    simpa using hl.2.2 u s (by simpa using hd) hu
  | cons x ws ih =>
    have hx := hws x (by simp)
    have hws' : ∀ y ∈ ws, y ∈ element := fun y hy => hws y (by simp [hy])
    obtain ⟨n, hn, k, hk, rfl⟩ := Language.mem_mul.mp hu
    by_cases hk0 : k = []
    · subst hk0
      obtain ⟨n2, hn2, k2, hk2, rfl⟩ := Language.mem_mul.mp hx
      have := ih ((n ++ n2) ++ k2) (Language.mem_mul.mpr ⟨_, name_append hn hn2, _, hk2, rfl⟩)
        hws' (by simpa using hd)
      simpa using this
    · right
      obtain ⟨n', hn', k', hk', rfl⟩ := Language.mem_mul.mp hl.2.1
      have hlen := hl.2.2 (n ++ k) ((x :: ws).flatten ++ s) (by rw [hd, List.append_assoc]) hu
      have he : n ++ k ++ ((x :: ws).flatten ++ s) = n' ++ k' ++ r' := by
        rw [← hl.1, hd, ← List.append_assoc]
      have hm : Opens cardinality∗ mark := opens_mark opens_cardinality.star
      have a1 := sep_name hm n hn k hk hk0 ((x :: ws).flatten ++ s) n' (k' ++ r') (by simpa using he) hn'
      have a2 : n.length ≤ n'.length := by
        by_cases hk0' : k' = []
        · subst hk0'
          simp only [List.length_append, List.length_nil, Nat.add_zero] at hlen
          omega
        · exact sep_name hm n' hn' k' hk' hk0' r' n (k ++ ((x :: ws).flatten ++ s))
            (by simpa using he.symm) hn
      rw [List.append_assoc, List.append_assoc] at he
      obtain ⟨e1, e2⟩ := List.append_inj he (by omega)
      subst e1
      have hx0 : x ≠ [] := fun e => nil_element (e ▸ hx)
      have ho : Opens element (fun b => !opensCardinality b) :=
        fun w hw b r he => not_lower_opens (opens_element w hw b r he)
      have a3 := star_longer prefixFree_cardinality nil_cardinality opens_cardinality ho k hk x hx hx0
        (ws.flatten ++ s) k' r' (by rw [← e2]; simp) hk'
      simp only [List.length_append] at hlen
      have := (List.append_inj e2 (by omega)).1
      subst this
      exact ⟨_, Language.mem_kstar.mpr ⟨x :: ws, rfl, hws⟩, rfl⟩

theorem tok_line : TokTakes Shipped.line line := by
  have := seq_many (many_some1 tok_element nil_element munch_element) seq_nil sep_one
  rw [mul_one] at this
  exact tok_one this (nil_some1 nil_element)

theorem tok_alternative : TokTakes Shipped.delimiterThenLine alternative := by
  have := seq_value (b := 124) (seq_token tok_line seq_nil sep_one)
  rw [mul_one] at this
  exact tok_one this (nil_mul nil_byte)

theorem without_cardinality {b : UInt8} (h : isDigit b = false)
    (h' : b ∉ [63, 43, 42, 91, 93, 44]) : Without cardinality b := by
  simp only [List.mem_cons, List.not_mem_nil, or_false, not_or] at h'
  obtain ⟨h1, h2, h3, h4, h5, h6⟩ := h'
  have b4 := without_byte (Ne.symm h4)
  have b5 := without_byte (Ne.symm h5)
  exact (((without_byte (Ne.symm h1)).add (without_byte (Ne.symm h2))).add
    (without_byte (Ne.symm h3)) |>.add ((b4.mul (without_number h)).mul b5)).add
    ((((b4.mul (without_number h)).mul (without_byte (Ne.symm h6))).mul (without_digits h)).mul b5)

theorem without_line {b : UInt8} (hl : isLetter b = false) (h : isDigit b = false)
    (h' : b ∉ [63, 43, 42, 91, 93, 44]) : Without line b :=
  Avoids.some1 ((without_name hl).mul (without_cardinality h h').star)

theorem tok_block : TokTakes Shipped.block block := by
  have w : Without line 124 := without_line (by decide) (by decide) (by decide)
  have := seq_token tok_line (seq_many (many_star tok_alternative (nil_mul nil_byte) (munch_byte w))
    seq_nil sep_one) (by rw [mul_one]; exact sep_without_star w)
  rw [mul_one] at this
  exact tok_one this (nil_mul (nil_some1 nil_element))

theorem tok_amount : TokTakes Shipped.composeWithAmount amount := by
  have := seq_value (b := 124) (seq_many many_number seq_nil sep_one)
  rw [mul_one] at this
  exact tok_one this (nil_mul nil_byte)

theorem tok_compose : TokTakes Shipped.compose compose := by
  have := seq_token tok_name (seq_many (many_star tok_amount (nil_mul nil_byte)
    (munch_byte (without_number (by decide)))) seq_nil sep_one)
    (by rw [mul_one]; exact sep_without_star (without_name (by decide)))
  rw [mul_one] at this
  exact tok_one this (nil_mul nil_name)

theorem tok_escaped : TokTakes Shipped.everythingWithEscape escaped := by
  have := seq_value (b := 35) (seq_token tok_name (seq_value (b := 33)
    (seq_token tok_name seq_nil sep_one)) (sep_without (without_name (by decide))))
  rw [mul_one] at this
  simp only [← mul_assoc] at this
  exact tok_one this (nil_mul (nil_mul (nil_mul nil_byte)))

theorem tok_unescaped : TokTakes Shipped.everythingWithoutEscape unescaped := by
  have := seq_value (b := 35) (seq_token tok_name seq_nil sep_one)
  rw [mul_one] at this
  exact tok_one this (nil_mul nil_byte)

theorem tok_everything : TokTakes Shipped.everything everything := by
  have h1 := seq_token tok_escaped seq_nil sep_one
  have h2 := seq_token tok_unescaped seq_nil sep_one
  rw [mul_one] at h1 h2
  refine tok_of_lines (lines_cons h1 (nil_mul (nil_mul (nil_mul nil_byte)))
    (lines_one h2 (nil_mul nil_byte)) ?_)
  intro u hu v hv r s he
  unfold escaped at hu
  simp only [mul_assoc] at hu
  obtain ⟨x, hx, u1, hu1, rfl⟩ := Language.mem_mul.mp hu
  obtain ⟨n, hn, u2, hu2, rfl⟩ := Language.mem_mul.mp hu1
  obtain ⟨y, hy, n2, hn2, rfl⟩ := Language.mem_mul.mp hu2
  obtain ⟨z, hz, m, hm, rfl⟩ := Language.mem_mul.mp hv
  rw [mem_byte] at hx hy hz
  subst hx; subst hy; subst hz
  have := sep_without (M := 1) (b := 33) (without_name (by decide)) n hn [33]
    (by rw [mul_one, mem_byte]) (by simp) (n2 ++ r) m s (by simpa using he) hm
  simp
  omega

theorem tok_hash : TokTakes Shipped.sha512Hex hash := by
  intro d
  rw [Shipped.sha512Hex_view]
  split
  · rename_i h
    have h2 : ∀ b ∈ d.take 128, isHex b = true := by simpa [List.all_eq_true] using h.2
    refine ⟨(List.take_append_drop 128 d).symm, ⟨by simp; omega, h2⟩, fun m r _ hm => ?_⟩
    rw [(mem_hash.mp hm).1]
    simp; omega
  · rename_i h
    intro m r hd hm
    obtain ⟨h1, h2⟩ := mem_hash.mp hm
    apply h
    subst hd
    refine ⟨by simp; omega, ?_⟩
    rw [← h1, List.take_left, List.all_eq_true]
    exact h2

theorem opens_suite : Opens suite (fun b => b == 45) := (opens_word (by decide)).mulOf nil_word

/-! ## Assignments and the whole file -/

theorem sep_mono {L L' M : Text} (h : ∀ w ∈ L, w ∈ L') (hs : Sep L' M) : Sep L M :=
  fun u hu v hv hv0 s u' r he hu' => hs u (h u hu) v hv hv0 s u' r he (h u' hu')

theorem sep_after_word {w : Bytes} {L M : Text} (h : Sep L M) : Sep (word w * L) M := by
  intro u hu v hv hv0 s u' r he hu'
  obtain ⟨x, hx, a, ha, rfl⟩ := Language.mem_mul.mp hu
  obtain ⟨y, hy, a', ha', rfl⟩ := Language.mem_mul.mp hu'
  rw [mem_word] at hx hy
  subst hx; subst hy
  have := h a ha v hv hv0 s a' r (by simpa using he) ha'
  simp
  omega

theorem sep_suite {M : Text} : Sep suite (byte 59 * M) := by
  refine sep_after_word (sep_mono (L' := (valid + invalid)∗) ?_ ?_)
  · have hv : ∀ w ∈ valid, w ∈ valid + invalid := fun w h => (Language.mem_add _ _ _).mpr (.inl h)
    have hi : ∀ w ∈ invalid, w ∈ valid + invalid := fun w h => (Language.mem_add _ _ _).mpr (.inr h)
    have one : ∀ w, w ∈ valid + invalid → w ∈ (valid + invalid)∗ := fun w h => by
      simpa using mem_star_cons h nil_star
    have opt : ∀ L : Text, (∀ w ∈ L, w ∈ valid + invalid) → ∀ w ∈ optional L, w ∈ (valid + invalid)∗ := by
      intro L hL w hw
      rcases (Language.mem_add _ _ _).mp hw with hw | hw
      · rw [Language.mem_one] at hw; subst hw; exact nil_star
      · exact one w (hL w hw)
    intro w hw
    rcases (Language.mem_add _ _ _).mp hw with hw | hw
    · obtain ⟨a, ha, b, hb, rfl⟩ := Language.mem_mul.mp hw
      exact mem_star_cons (hv a ha) (opt _ hi b hb)
    · obtain ⟨a, ha, b, hb, rfl⟩ := Language.mem_mul.mp hw
      rcases (Language.mem_add _ _ _).mp ha with ha | ha
      · rw [Language.mem_one] at ha; subst ha; exact one _ (hi b hb)
      · exact mem_star_cons (hv a ha) (one b (hi b hb))
  · refine star_longer (A := fun b => b == 118 || b == 105) (prefixFree_add prefixFree_valid
      prefixFree_invalid opens_valid (nil_mul nil_word) opens_invalid (nil_mul nil_word) ?_)
      (nil_add (nil_mul nil_word) (nil_mul nil_word)) ?_ ((opens_byte (by decide)).mulOf nil_byte)
    · intro b hb; simp at hb; subst hb; decide
    · intro w hw b r he
      rcases (Language.mem_add _ _ _).mp hw with hw | hw
      · have := opens_valid w hw b r he; simp at this; simp [this]
      · have := opens_invalid w hw b r he; simp at this; simp [this]

theorem tok_assign {n : String} {body : Token} {L : Text} (h : TokTakes body L) (hb : Without L 45) :
    TokTakes (Shipped.assignment n body) (assign L) := by
  have := seq_token tok_name (seq_value (b := 58) (seq_token h (seq_token tok_suite
    (seq_value (b := 59) seq_nil) sep_suite) (sep_of hb (opens_suite.mulOf (nil_mul nil_word)))))
    (sep_without (without_name (by decide)))
  rw [mul_one] at this
  simp only [← mul_assoc] at this
  exact tok_one this (nil_mul (nil_mul (nil_mul (nil_mul nil_name))))

theorem without_compose : Without compose 45 :=
  (without_name (by decide)).mul ((without_byte (by decide)).mul (without_number (by decide))).star

theorem without_everything : Without everything 45 :=
  have n : Without name 45 := without_name (by decide)
  ((((without_byte (by decide)).mul n).mul (without_byte (by decide))).mul n).add
    ((without_byte (by decide)).mul n)

theorem without_block : Without block 45 :=
  have l : Without line 45 := without_line (by decide) (by decide) (by decide)
  l.mul ((without_byte (by decide)).mul l).star

theorem without_hash : Without hash 45 := by
  intro w hw b hb
  have := (mem_hash.mp hw).2 b hb
  simp only [beq_eq_false_iff_ne, ne_eq]
  rintro rfl
  exact absurd this (by decide)

theorem tok_composeAssignment : TokTakes Shipped.composeAssignment (assign compose) :=
  tok_assign tok_compose without_compose
theorem tok_everythingAssignment : TokTakes Shipped.everythingAssignment (assign everything) :=
  tok_assign tok_everything without_everything
theorem tok_tokenAssignment : TokTakes Shipped.tokenAssignment (assign block) :=
  tok_assign tok_block without_block
theorem tok_externalTokenAssignment : TokTakes Shipped.externalTokenAssignment (assign hash) :=
  tok_assign tok_hash without_hash

theorem any_star (w : Bytes) : w ∈ (oneOf fun _ => true)∗ := by
  induction w with
  | nil => exact nil_star
  | cons b w ih => exact mem_star_cons (u := [b]) ⟨b, rfl, rfl⟩ ih

/-- What a value takes: all that is left. -/
theorem longest_value {d m r : Bytes} (h : Longest value d m r) : r = [] := by
  obtain ⟨h1, h2, h3⟩ := h
  obtain ⟨a, ha, b, hb, rfl⟩ := Language.mem_mul.mp h2
  obtain ⟨x, hx, y, hy, rfl⟩ := Language.mem_mul.mp hb
  have := h3 d [] (by simp) (by
    rw [h1, List.append_assoc, List.append_assoc]
    exact Language.mem_mul.mpr ⟨a, ha, _, Language.mem_mul.mpr ⟨x, hx, y ++ r, any_star _, rfl⟩, rfl⟩)
  have hl := congrArg List.length h1
  rw [List.length_append] at hl
  exact List.length_eq_zero_iff.mp (by omega)

/-- Every assignment has the form of a value as well. -/
theorem assign_value {L : Text} {w : Bytes} (h : w ∈ assign L) : w ∈ value := by
  unfold assign at h
  rw [mul_assoc, mul_assoc] at h
  obtain ⟨a, ha, b, hb, rfl⟩ := Language.mem_mul.mp h
  rw [← mul_assoc] at hb
  obtain ⟨x, hx, y, hy, rfl⟩ := Language.mem_mul.mp hb
  rw [mem_byte] at hy
  subst hy
  refine Language.mem_mul.mpr ⟨a, ha, _, ?_, rfl⟩
  exact some1_of_star (any_star _) (by simp)

/-- Two assignments at the front of one input are the same text. -/
theorem before_assign {L M : Text} (hL : Without L 45) (hM : Without M 45) :
    Before (assign L) (assign M) := by
  intro u hu v hv r s he
  have n : Without name 45 := without_name (by decide)
  have c : Without (byte 58) 45 := without_byte (by decide)
  have hX : ∀ X : Text, Without X 45 → ∀ w ∈ assign X, ∃ a b,
      w = a ++ b ++ [59] ∧ a ∈ name * byte 58 * (L + M) + name * byte 58 * X ∧ b ∈ suite := by
    intro X _ w hw
    obtain ⟨y, hy, z, hz, rfl⟩ := Language.mem_mul.mp hw
    obtain ⟨a, ha, b, hb, rfl⟩ := Language.mem_mul.mp hy
    rw [mem_byte] at hz
    subst hz
    exact ⟨a, b, rfl, (Language.mem_add _ _ _).mpr (.inr ha), hb⟩
  obtain ⟨a, b, rfl, ha, hb⟩ := hX L hL u hu
  obtain ⟨a', b', rfl, ha', hb'⟩ := hX M hM v hv
  have hcat : ∀ X : Text, Without X 45 → Without (name * byte 58 * X) 45 := fun X h => (n.mul c).mul h
  have hall : Without (name * byte 58 * (L + M)) 45 := hcat _ (hL.add hM)
  have in_all : ∀ X : Text, (∀ w ∈ X, w ∈ L + M) → ∀ w ∈ name * byte 58 * (L + M) + name * byte 58 * X,
      w ∈ name * byte 58 * (L + M) := by
    intro X hX w hw
    rcases (Language.mem_add _ _ _).mp hw with hw | hw
    · exact hw
    · obtain ⟨p, hp, q, hq, rfl⟩ := Language.mem_mul.mp hw
      exact Language.mem_mul.mpr ⟨p, hp, q, hX q hq, rfl⟩
  have ha := in_all L (fun w h => (Language.mem_add _ _ _).mpr (.inl h)) a ha
  have ha' := in_all M (fun w h => (Language.mem_add _ _ _).mpr (.inr h)) a' ha'
  have nb : b ≠ [] := fun e => nil_mul nil_word (e ▸ hb)
  have nb' : b' ≠ [] := fun e => nil_mul nil_word (e ▸ hb')
  have l1 := sep_of hall opens_suite a ha b hb nb ([59] ++ r) a' (b' ++ [59] ++ s)
    (by simpa using he) ha'
  have l2 := sep_of hall opens_suite a' ha' b' hb' nb' ([59] ++ s) a (b ++ [59] ++ r)
    (by simpa using he.symm) ha
  have he' : a ++ (b ++ [59] ++ r) = a' ++ (b' ++ [59] ++ s) := by simpa using he
  obtain ⟨_, e2⟩ := List.append_inj he' (by omega)
  have l3 := sep_suite (M := 1) b hb [59] (by rw [mul_one, mem_byte]) (by simp) r b' ([59] ++ s)
    (by simpa using e2) hb'
  simp
  omega

theorem nil_assign {L : Text} : [] ∉ assign L := nil_mul_right nil_byte

theorem tok_instruction : TokTakes Shipped.instruction instruction := by
  have h1 := seq_token tok_value seq_nil sep_one
  have h2 := seq_token tok_composeAssignment seq_nil sep_one
  have h3 := seq_token tok_everythingAssignment seq_nil sep_one
  have h4 := seq_token tok_tokenAssignment seq_nil sep_one
  have h5 := seq_token tok_externalTokenAssignment seq_nil sep_one
  rw [mul_one] at h1 h2 h3 h4 h5
  have l5 := lines_one h5 nil_assign
  have l4 := lines_cons h4 nil_assign l5 (before_assign without_block without_hash)
  have l3 := lines_cons h3 nil_assign l4 ((before_assign without_everything without_block).add
    (before_assign without_everything without_hash))
  have l2 := lines_cons h2 nil_assign l3 ((before_assign without_compose without_everything).add
    ((before_assign without_compose without_block).add (before_assign without_compose without_hash)))
  have l1 := lines_cons_general h1 (nil_mul (nil_mul nil_name)) l2 (by
    intro d u r hl v s hd _
    have := longest_value hl
    have e1 := congrArg List.length hl.1
    have e2 := congrArg List.length hd
    simp [this] at e1 e2
    omega)
  simp only [← add_assoc] at l1
  exact tok_of_lines l1

theorem opens_channel : Opens channel (fun b => b == 45) :=
  (((opens_byte (by decide)).mulOf nil_byte).mulOf (nil_mul nil_byte)).mulOf
    (nil_mul (nil_mul nil_byte))

theorem nil_channel : [] ∉ channel := nil_mul (nil_mul (nil_mul nil_byte))

theorem prefixFree_root : PrefixFree root :=
  prefixFree_end ((without_byte (by decide)).mul (without_name (by decide)))

theorem prefixFree_channel : PrefixFree channel :=
  prefixFree_end (((without_byte (by decide)).mul (without_name (by decide))).mul
    (without_bracketed (by decide) (by decide) (by decide) (by decide)).optional)

theorem opens_instruction : Opens instruction isLower := by
  have h : ∀ L, Opens (assign L) isLower := fun L =>
    (((name_opens.mulOf nil_name).mulOf (nil_mul nil_name)).mulOf (nil_mul (nil_mul nil_name))).mulOf
      (nil_mul (nil_mul (nil_mul nil_name)))
  exact (((((name_opens.mulOf nil_name).mulOf (nil_mul nil_name)).add (h _)).add (h _)).add (h _)).add
    (h _)

theorem nil_instruction : [] ∉ instruction :=
  nil_add (nil_add (nil_add (nil_add (nil_mul (nil_mul nil_name)) nil_assign) nil_assign) nil_assign)
    nil_assign

theorem instruction_value : instruction = value := by
  ext w
  simp only [instruction, Language.mem_add]
  constructor
  · rintro ((((h | h) | h) | h) | h)
    · exact h
    all_goals exact assign_value h
  · exact fun h => .inl (.inl (.inl (.inl h)))

theorem munch_instruction : Munch instruction := by
  intro d u' r' hl u hu w hw s hd
  rw [instruction_value] at hl
  have := longest_value hl
  left
  have e1 := congrArg List.length hl.1
  have e2 := congrArg List.length hd
  simp [this] at e1 e2
  simp
  omega

theorem tok_file : TokTakes Shipped.grammarToken file := by
  have hi : Opens (some1 instruction) (fun b => !(b == 45)) := by
    intro w hw b r he
    have := (opens_instruction.mulOf (M := instruction∗) nil_instruction) w hw b r he
    simp only [Bool.not_eq_true', beq_eq_false_iff_ne, ne_eq]
    rintro rfl
    exact absurd this (by decide)
  have := seq_token tok_root (seq_many (many_star tok_channel nil_channel prefixFree_channel.munch)
    (seq_many (many_some1 tok_instruction nil_instruction munch_instruction) seq_nil sep_one)
    (star_longer prefixFree_channel nil_channel opens_channel (by rwa [mul_one])))
    prefixFree_root.sep
  rw [mul_one] at this
  simp only [← mul_assoc] at this
  exact tok_one this (nil_mul (nil_mul (nil_mul (nil_mul nil_byte))))

end Rodkina.GrammarText
