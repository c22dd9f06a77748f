import Verif.HashLemmas
/-!
# Properties C01, C02: hashes
-/

namespace Rodkina.Props

open Rodkina

/-- C01: every result of hashing is 64 bytes long; a 64-byte input is its own hash, any other input is hashed with
SHA-512; hence hashing the bytes of a hash changes nothing. -/
theorem C01_hash_from_bytes (S : Sha) (b : Bytes) :
    (Hash.fromBytes S b).length = 64 ∧
    (b.length = 64 → Hash.fromBytes S b = b) ∧
    (b.length ≠ 64 → Hash.fromBytes S b = S.f b) ∧
    Hash.fromBytes S (Hash.fromBytes S b) = Hash.fromBytes S b :=
  ⟨Hash.fromBytes_length S b, Hash.fromBytes_of_len, Hash.fromBytes_of_ne,
    Hash.fromBytes_of_len (Hash.fromBytes_length S b)⟩

/-- C01 (several parts): hashing a list of byte strings is hashing their concatenation, whatever the split. -/
theorem C01_hash_from_multi_bytes (S : Sha) (l : List Bytes) :
    Hash.fromMultiBytes S l = Hash.fromBytes S l.flatten :=
  Hash.fromMultiBytes_eq S l

/-- A toy 64-byte digest used only to show that hypotheses are satisfiable. -/
def toySha : Sha := ⟨fun b => List.replicate 64 (UInt8.ofNat b.length), by simp⟩

-- both branches of C01 are inhabited
example : (List.replicate 64 (7 : UInt8)).length = 64 ∧ ([1, 2, 3] : Bytes).length ≠ 64 := by decide
example : Hash.fromBytes toySha [1, 2, 3] = List.replicate 64 3 := by decide

/-- C02: parsing the printed form of a hash gives the hash back. -/
theorem C02_hash_string_round_trip (S : Sha) (h : Bytes) (hl : h.length = 64) :
    Hash.fromString S (Hash.toString h) = .ok h := by
  unfold Hash.fromString
  rw [Hash.hexDecode_toString]
  simp [Hash.fromBytes_of_len hl]

example (S : Sha) : Hash.fromString S (Hash.toString (List.replicate 64 171)) = .ok (List.replicate 64 171) :=
  C02_hash_string_round_trip S _ (by rw [List.length_replicate])

/-- C02: two hashes print identically exactly when `Compare` holds, and `Compare` is equality of bytes. -/
theorem C02_string_iff_compare (a b : Bytes) :
    (Hash.toString a = Hash.toString b ↔ Hash.compare a b = true) ∧
    (Hash.compare a b = true ↔ a = b) := by
  have h : Hash.compare a b = true ↔ a = b := by simp [Hash.compare]
  refine ⟨⟨fun e => h.mpr (Hash.toString_inj e), fun e => by rw [h.mp e]⟩, h⟩

example : (List.replicate 64 (255 : UInt8)).length = 64 := by decide
example : Hash.toString [0, 171, 255] = "00abff".toList := by decide

/-! ## C125: texts of hashes -/

/-- The hexadecimal digits. -/
def hexDigits : List Char :=
  ['0', '1', '2', '3', '4', '5', '6', '7', '8', '9', 'a', 'b', 'c', 'd', 'e', 'f',
    'A', 'B', 'C', 'D', 'E', 'F']

/-- A digit in lower case. -/
def lowerDigit (c : Char) : Char :=
  match c with
  | 'A' => 'a' | 'B' => 'b' | 'C' => 'c' | 'D' => 'd' | 'E' => 'e' | 'F' => 'f'
  | c => c

theorem hexValue_digit : ∀ c ∈ hexDigits,
    ∃ v, Hash.hexValue c = some v ∧ v < 16 ∧ Hash.hexDigit v = lowerDigit c := by
  have key : ∀ c ∈ hexDigits, (match Hash.hexValue c with
      | some v => decide (v < 16 ∧ Hash.hexDigit v = lowerDigit c)
      | none => false) = true := by decide
  intro c hc
  have := key c hc
  cases hv : Hash.hexValue c with
  | none => rw [hv] at this; simp at this
  | some v =>
    rw [hv] at this
    exact ⟨v, rfl, by simpa using this⟩

theorem hexValue_only {c : Char} {v : Nat} (h : Hash.hexValue c = some v) : c ∈ hexDigits := by
  have hc : c = Char.ofNat c.toNat := (Char.ofNat_toNat c).symm
  have hr : (48 ≤ c.toNat ∧ c.toNat ≤ 57) ∨ (97 ≤ c.toNat ∧ c.toNat ≤ 102) ∨
      (65 ≤ c.toNat ∧ c.toNat ≤ 70) := by
    unfold Hash.hexValue at h
    split at h
    · next g => exact .inl g
    · split at h
      · next g => exact .inr (.inl g)
      · split at h
        · next g => exact .inr (.inr g)
        · simp at h
  have key : ∀ n, n < 128 → ((48 ≤ n ∧ n ≤ 57) ∨ (97 ≤ n ∧ n ≤ 102) ∨ (65 ≤ n ∧ n ≤ 70)) →
      Char.ofNat n ∈ hexDigits := by decide
  rw [hc]
  exact key _ (by omega) hr

theorem hexDecode_iff (s : List Char) :
    Hash.hexDecode s ≠ .panic ∧
    ((∃ b, Hash.hexDecode s = .ok b) ↔ s.length % 2 = 0 ∧ ∀ c ∈ s, c ∈ hexDigits) ∧
    ∀ b, Hash.hexDecode s = .ok b → s.length = 2 * b.length ∧ Hash.toString b = s.map lowerDigit := by
  match s with
  | [] =>
    refine ⟨by simp [Hash.hexDecode], by simp [Hash.hexDecode], ?_⟩
    intro b hb
    simp only [Hash.hexDecode, Res.ok.injEq] at hb
    subst hb
    exact ⟨rfl, rfl⟩
  | [c] => simp [Hash.hexDecode]
  | a :: b :: rest =>
    obtain ⟨h1, h2, h3⟩ := hexDecode_iff rest
    by_cases ha : a ∈ hexDigits
    · obtain ⟨va, ha1, ha2, ha3⟩ := hexValue_digit a ha
      by_cases hb : b ∈ hexDigits
      · obtain ⟨vb, hb1, hb2, hb3⟩ := hexValue_digit b hb
        simp only [Hash.hexDecode, ha1, hb1]
        cases hd : Hash.hexDecode rest with
        | panic => exact absurd hd h1
        | err =>
          refine ⟨by simp, ?_, by simp⟩
          simp only [reduceCtorEq, exists_false, false_iff]
          rintro ⟨hl, hm⟩
          have : ∃ b, Hash.hexDecode rest = .ok b := h2.mpr
            ⟨by simp only [List.length_cons] at hl; omega, fun c hc => hm c (by simp [hc])⟩
          rw [hd] at this
          simp at this
        | ok bs =>
          refine ⟨by simp, ?_, ?_⟩
          · simp only [Res.ok.injEq, exists_eq', true_iff]
            obtain ⟨hl, hm⟩ := h2.mp ⟨bs, hd⟩
            refine ⟨by simp only [List.length_cons]; omega, ?_⟩
            intro c hc
            rcases List.mem_cons.mp hc with rfl | hc
            · exact ha
            · rcases List.mem_cons.mp hc with rfl | hc
              · exact hb
              · exact hm c hc
          · intro x hx
            simp only [Res.ok.injEq] at hx
            subst hx
            obtain ⟨g1, g2⟩ := h3 bs hd
            refine ⟨by simp only [List.length_cons]; omega, ?_⟩
            have hn : (UInt8.ofNat (16 * va + vb)).toNat = 16 * va + vb := by
              simp only [UInt8.toNat_ofNat']
              omega
            have e1 : (16 * va + vb) / 16 = va := by omega
            have e2 : (16 * va + vb) % 16 = vb := by omega
            rw [Hash.toString] at g2 ⊢
            simp only [List.flatMap_cons, hn, e1, e2, ha3, hb3, g2, List.map_cons, List.cons_append,
              List.nil_append]
      · have : Hash.hexValue b = none := by
          cases hv : Hash.hexValue b with
          | none => rfl
          | some v => exact absurd (hexValue_only hv) hb
        simp only [Hash.hexDecode, ha1, this]
        refine ⟨by simp, ?_, by simp⟩
        simp only [reduceCtorEq, exists_false, false_iff]
        rintro ⟨_, hm⟩
        exact hb (hm b (by simp))
    · have : Hash.hexValue a = none := by
        cases hv : Hash.hexValue a with
        | none => rfl
        | some v => exact absurd (hexValue_only hv) ha
      simp only [Hash.hexDecode, this]
      refine ⟨by simp, ?_, by simp⟩
      simp only [reduceCtorEq, exists_false, false_iff]
      rintro ⟨_, hm⟩
      exact ha (hm a (by simp))

/-- C125 (the part that holds): a text is read exactly when it is an even number of hexadecimal digits
in upper or lower case, anything else is an error and nothing panics; a text of 128 digits gives the hash
whose printed form is the text in lower case. -/
theorem C125_hash_texts_partial (S : Sha) (s : List Char) :
    ((∃ h, Hash.fromString S s = .ok h) ↔ s.length % 2 = 0 ∧ ∀ c ∈ s, c ∈ hexDigits) ∧
    Hash.fromString S s ≠ .panic ∧
    (s.length = 128 → ∀ h, Hash.fromString S s = .ok h → Hash.toString h = s.map lowerDigit) := by
  obtain ⟨h1, h2, h3⟩ := hexDecode_iff s
  unfold Hash.fromString
  cases hd : Hash.hexDecode s with
  | panic => exact absurd hd h1
  | err =>
    rw [hd] at h2
    refine ⟨?_, by simp, by simp⟩
    rw [← h2]
    simp
  | ok b =>
    rw [hd] at h2
    refine ⟨?_, by simp, ?_⟩
    · rw [← h2]
      simp
    · intro hl h hh
      obtain ⟨g1, g2⟩ := h3 b hd
      simp only [Res.bind_ok, Res.pure_eq, Res.ok.injEq] at hh
      rw [Hash.fromBytes_of_len (by omega)] at hh
      rw [← hh, g2]

/-- 128 digits in both cases. -/
example : ∃ h, Hash.fromString toySha (List.replicate 64 'a' ++ List.replicate 64 'F') = .ok h ∧
    Hash.toString h = List.replicate 64 'a' ++ List.replicate 64 'f' := by
  obtain ⟨h1, _, h3⟩ := C125_hash_texts_partial toySha (List.replicate 64 'a' ++ List.replicate 64 'F')
  have hl : (List.replicate 64 'a' ++ List.replicate 64 'F').length = 128 := by
    rw [List.length_append, List.length_replicate, List.length_replicate]
  obtain ⟨h, hh⟩ := h1.mpr ⟨by rw [hl], fun c hc => by
    rcases List.mem_append.mp hc with hc | hc <;> rw [List.eq_of_mem_replicate hc] <;> decide⟩
  refine ⟨h, hh, ?_⟩
  rw [h3 hl h hh, List.map_append, List.map_replicate, List.map_replicate]
  rfl

/-- The claim of C125: only the printed forms of hashes are read. -/
def OnlyPrintedForms (S : Sha) : Prop :=
  ∀ s h, Hash.fromString S s = .ok h → Hash.toString h = s.map lowerDigit

/-- C125 is false: shorter texts are read, as the SHA-512 of the bytes they stand for; the empty text too. -/
theorem C125_negation (S : Sha) : Hash.fromString S [] = .ok (S.f []) ∧
    Hash.fromString S ['0', '0'] = .ok (S.f [0]) ∧ ¬ OnlyPrintedForms S := by
  have h : Hash.fromString S [] = .ok (S.f []) := by
    simp [Hash.fromString, Hash.hexDecode, Hash.fromBytes, Hash.size]
  refine ⟨h, ?_, fun hc => ?_⟩
  · have : Hash.hexDecode ['0', '0'] = .ok [0] := by decide
    simp [Hash.fromString, this, Hash.fromBytes, Hash.size]
  · have := congrArg List.length (hc [] _ h)
    have hl := S.len []
    cases hx : S.f [] with
    | nil => rw [hx] at hl; simp at hl
    | cons b r => rw [hx] at this; simp [Hash.toString] at this

end Rodkina.Props
