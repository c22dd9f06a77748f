import Verif.AstShippedSem

/-!
# The shipped tokens, one by one

Evaluated without channels; `AstStrip` carries the results over to inputs with channel bytes.
-/

namespace Rodkina.Ast.Shipped

open Rodkina.Ast

/-- Matched bytes and rest. -/
def view (x : Shape × Bytes) : Bytes × Bytes := (x.1.bytes, x.2)

/-- The token stands for one byte of a class. -/
def IsClass (t : Token) (p : UInt8 → Bool) (sh : UInt8 → Shape) : Prop :=
  (∀ b, (sh b).bytes = [b]) ∧
    ∀ d, pegToken id t d = match d with
      | [] => none
      | b :: r => if p b then some (sh b, r) else none

theorem class_anyCharacter (name : String) {cs : Bytes} {p : UInt8 → Bool}
    (h : ∀ b, b ∈ cs ↔ p b = true) :
    IsClass (anyCharacter name cs) p
      (fun b => .node name (cs.idxOf b) [.mk (toString b.toNat) [.byte b]]) := by
  refine ⟨fun b => by simp [Shape.bytes, shapeElemsBytes, ShapeElem.bytes, shapesBytes], fun d => ?_⟩
  rw [pegToken_anyCharacter shrinks_id]
  cases d with
  | nil => rfl
  | cons b r => simp only [id, h]

theorem class_lower : ∃ sh, IsClass lowerCaseLetter isLower sh :=
  ⟨_, class_anyCharacter _ (fun b => by rw [mem_lower]; simp [isLower]; omega)⟩
theorem class_upper : ∃ sh, IsClass upperCaseLetter isUpper sh :=
  ⟨_, class_anyCharacter _ (fun b => by rw [mem_upper]; simp [isUpper]; omega)⟩
theorem class_afLower : ∃ sh, IsClass aToFLower isAfLower sh :=
  ⟨_, class_anyCharacter _ (fun b => by rw [mem_afLower]; simp [isAfLower]; omega)⟩
theorem class_afUpper : ∃ sh, IsClass aToFUpper isAfUpper sh :=
  ⟨_, class_anyCharacter _ (fun b => by rw [mem_afUpper]; simp [isAfUpper]; omega)⟩
theorem class_digit : ∃ sh, IsClass anyNumber isDigit sh :=
  ⟨_, class_anyCharacter _ (fun b => by rw [mem_digit]; simp [isDigit]; omega)⟩
theorem class_byte : ∃ sh, IsClass anyByte (fun _ => true) sh :=
  ⟨_, class_anyCharacter _ (fun b => by simp [mem_all])⟩

/-- A line with one token that occurs once. -/
theorem pegLine_token (t : Token) (d : Bytes) :
    pegLine id (.mk [fromToken t 1 (some 1)]) d =
      (pegToken id t d).map (fun x => ([.mk t.name [x.1]], x.2)) := by
  rw [pegLine, pegSeq_token]
  cases pegToken id t d with
  | none => rfl
  | some x => simp [pegSeq]

/-- The first of two. -/
theorem class_two {t u : Token} {p q : UInt8 → Bool} {f g : UInt8 → Shape} (name : String)
    (ht : IsClass t p f) (hu : IsClass u q g) :
    IsClass (fromLines name [[fromToken t 1 (some 1)], [fromToken u 1 (some 1)]])
      (fun b => p b || q b)
      (fun b => if p b then .node name 0 [.mk t.name [f b]] else .node name 1 [.mk u.name [g b]]) := by
  refine ⟨fun b => ?_, fun d => ?_⟩
  · simp only
    split <;> simp [Shape.bytes, shapeElemsBytes, ShapeElem.bytes, shapesBytes, ht.1, hu.1]
  · simp only [fromLines, List.map_cons, List.map_nil, pegToken, pegLines, pegLine_token, ht.2, hu.2]
    cases d with
    | nil => rfl
    | cons b r => cases hp : p b <;> cases hq : q b <;> simp [hp, hq]

/-- The first of three. -/
theorem class_three {t u v : Token} {p q o : UInt8 → Bool} {f g e : UInt8 → Shape} (name : String)
    (ht : IsClass t p f) (hu : IsClass u q g) (hv : IsClass v o e) :
    IsClass (fromLines name [[fromToken t 1 (some 1)], [fromToken u 1 (some 1)],
        [fromToken v 1 (some 1)]])
      (fun b => p b || q b || o b)
      (fun b => if p b then .node name 0 [.mk t.name [f b]]
        else if q b then .node name 1 [.mk u.name [g b]] else .node name 2 [.mk v.name [e b]]) := by
  refine ⟨fun b => ?_, fun d => ?_⟩
  · simp only
    split
    · simp [Shape.bytes, shapeElemsBytes, ShapeElem.bytes, shapesBytes, ht.1]
    · split <;> simp [Shape.bytes, shapeElemsBytes, ShapeElem.bytes, shapesBytes, hu.1, hv.1]
  · simp only [fromLines, List.map_cons, List.map_nil, pegToken, pegLines, pegLine_token, ht.2, hu.2,
      hv.2]
    cases d with
    | nil => rfl
    | cons b r => cases hp : p b <;> cases hq : q b <;> cases ho : o b <;> simp [hp, hq, ho]

theorem class_letter : ∃ sh, IsClass anyLetter isLetter sh := by
  obtain ⟨f, hf⟩ := class_upper
  obtain ⟨g, hg⟩ := class_lower
  exact ⟨_, class_two "anyLetter" hf hg⟩

theorem class_hex : ∃ sh, IsClass anyHexChar isHex sh := by
  obtain ⟨f, hf⟩ := class_afLower
  obtain ⟨g, hg⟩ := class_afUpper
  obtain ⟨e, he⟩ := class_digit
  exact ⟨_, class_three "anyHexChar" hf hg he⟩

/-! ## Repetitions of a class -/

/-- Bytes of the class from the front, at most `m` of them. -/
def upTo : Option Nat → Bytes → Bytes
  | none, d => d
  | some m, d => d.take m

theorem repeatMatch_class {t : Token} {p : UInt8 → Bool} {sh : UInt8 → Shape} (h : IsClass t p sh)
    (max : Option Nat) (k n : Nat) (d : Bytes) (hk : d.length ≤ k)
    (hn : ∀ m, max = some m → n ≤ m) :
    repeatMatch (pegToken id t) max k n d =
      (((upTo (max.map (· - n)) d).takeWhile p).map sh,
        d.drop ((upTo (max.map (· - n)) d).takeWhile p).length) := by
  induction k generalizing n d with
  | zero =>
    have : d = [] := List.length_eq_zero_iff.mp (by omega)
    subst this
    cases max <;> simp [repeatMatch, upTo]
  | succ k ih =>
    rw [repeatMatch]
    cases d with
    | nil => cases max <;> simp [upTo]
    | cons b r =>
      by_cases hm : max = some n
      · rw [if_pos (Or.inr hm)]
        subst hm
        simp [upTo]
      · rw [if_neg (by simp [hm]), h.2]
        simp only
        have hup : upTo (max.map (· - n)) (b :: r) = b :: upTo (max.map (· - (n + 1))) r := by
          cases max with
          | none => rfl
          | some m =>
            have := hn m rfl
            have hne : m ≠ n := fun e => hm (by rw [e])
            simp only [Option.map_some, upTo]
            obtain ⟨j, hj⟩ : ∃ j, m - n = j + 1 := ⟨m - n - 1, by omega⟩
            have hj' : m - (n + 1) = j := by omega
            rw [hj, hj', List.take_succ_cons]
        rw [hup]
        cases hp : p b with
        | false => simp [hp]
        | true =>
          simp only [if_true, List.takeWhile_cons, hp, List.map_cons, List.length_cons,
            List.drop_succ_cons]
          simp only [List.length_cons] at hk
          rw [ih (n + 1) r (by omega) (fun m hm' => by
            have := hn m hm'
            have hne : m ≠ n := fun e => hm (by rw [hm', e])
            omega)]

theorem drop_takeWhile (p : UInt8 → Bool) (d : Bytes) :
    d.drop (d.takeWhile p).length = d.dropWhile p := by
  induction d with
  | nil => rfl
  | cons b r ih => cases h : p b <;> simp [h, ih]

theorem greedy_class {t : Token} {p : UInt8 → Bool} {sh : UInt8 → Shape} (h : IsClass t p sh)
    (min : Nat) (d : Bytes) :
    greedy (pegToken id t) min none d =
      if (d.takeWhile p).length < min then none
      else some ((d.takeWhile p).map sh, d.dropWhile p) := by
  have := repeatMatch_class h none d.length 0 d (Nat.le_refl _) (by simp)
  unfold greedy
  rw [this]
  simp only [upTo, Option.map_none, List.length_map, drop_takeWhile]

theorem shapesBytes_class {t : Token} {p : UInt8 → Bool} {sh : UInt8 → Shape} (h : IsClass t p sh)
    (d : Bytes) : shapesBytes (d.map sh) = d := by
  induction d with
  | nil => simp [shapesBytes]
  | cons b r ih => simp [shapesBytes, h.1, ih]

theorem shapeElemsBytes_cons (n : String) (cs : List Shape) (es : List ShapeElem) :
    shapeElemsBytes (consElem n cs es) = shapesBytes cs ++ shapeElemsBytes es := by
  unfold consElem
  cases cs with
  | nil => simp [shapesBytes]
  | cons c cs => simp [shapeElemsBytes, ShapeElem.bytes]

/-! ## Names and hashes -/

theorem variableName_view (d : Bytes) :
    (pegToken id variableName d).map view =
      match d with
      | [] => none
      | b :: r => if isLower b then some (b :: r.takeWhile isLetter, r.dropWhile isLetter)
          else none := by
  obtain ⟨f, hf⟩ := class_lower
  obtain ⟨g, hg⟩ := class_letter
  unfold variableName fromLines
  simp only [List.map_cons, List.map_nil, pegToken, pegLines, pegLine]
  rw [pegSeq_token, hf.2]
  cases d with
  | nil => rfl
  | cons b r =>
    simp only
    cases hb : isLower b with
    | false => simp
    | true =>
      simp only [if_true, Option.bind_some]
      rw [pegSeq_many, greedy_class hg]
      simp [pegSeq, view, Shape.bytes, shapeElemsBytes, ShapeElem.bytes, shapesBytes, hf.1,
        shapeElemsBytes_cons, shapesBytes_class hg]

/-- First 128 bytes. -/
theorem sha512Hex_view (d : Bytes) :
    (pegToken id sha512Hex d).map view =
      if 128 ≤ d.length ∧ (d.take 128).all isHex = true then some (d.take 128, d.drop 128)
      else none := by
  obtain ⟨f, hf⟩ := class_hex
  unfold sha512Hex fromLines
  simp only [List.map_cons, List.map_nil, pegToken, pegLines, pegLine]
  rw [pegSeq_many]
  have hr := repeatMatch_class hf (some 128) d.length 0 d (Nat.le_refl _) (by simp)
  simp only [Option.map_some, Nat.sub_zero, upTo] at hr
  unfold greedy
  rw [hr]
  simp only [List.length_map]
  have hle : ((d.take 128).takeWhile isHex).length ≤ (d.take 128).length :=
    (List.takeWhile_sublist _).length_le
  by_cases h : 128 ≤ d.length ∧ (d.take 128).all isHex = true
  · have hlen : (d.take 128).length = 128 := by rw [List.length_take]; omega
    have htw : (d.take 128).takeWhile isHex = d.take 128 := by
      rw [List.takeWhile_eq_self_iff]
      exact List.all_eq_true.mp h.2
    have hne : d.take 128 ≠ [] := by
      intro h0
      rw [h0] at hlen
      simp at hlen
    rw [if_pos h, htw, hlen, if_neg (by omega)]
    have hce : consElem anyHexChar.name ((d.take 128).map f) [] ≠ [] := by
      unfold consElem
      cases hd : d.take 128 with
      | nil => exact absurd hd hne
      | cons a as => simp
    simp only [Option.bind_some, pegSeq, Option.map_some]
    rw [if_neg (by simpa [List.isEmpty_iff] using hce)]
    simp only [Option.map_some, Option.orElse_some, view, Shape.bytes, shapeElemsBytes_cons,
      shapesBytes_class hf, shapeElemsBytes, List.append_nil, id]
  · rw [if_neg h]
    have hlt : ((d.take 128).takeWhile isHex).length < 128 := by
      by_contra hge
      apply h
      have hl : (d.take 128).length ≤ 128 := by rw [List.length_take]; omega
      have he : ((d.take 128).takeWhile isHex).length = (d.take 128).length := by omega
      have hself : (d.take 128).takeWhile isHex = d.take 128 :=
        (List.takeWhile_sublist _).eq_of_length he
      refine ⟨?_, ?_⟩
      · have : (d.take 128).length = 128 := by omega
        rw [List.length_take] at this
        omega
      · rw [List.all_eq_true]
        exact List.takeWhile_eq_self_iff.mp hself
    rw [if_pos hlt]
    rfl

/-! ## Value assignments take everything -/

/-- A name, a colon and at least one byte: everything is taken. -/
theorem valueAssignment_view (d : Bytes) :
    (pegToken id valueAssignment d).map view =
      match (pegToken id variableName d).map view with
      | some (n, 58 :: b :: r) => some (n ++ 58 :: b :: r, [])
      | _ => none := by
  obtain ⟨f, hf⟩ := class_byte
  unfold valueAssignment fromLines
  simp only [List.map_cons, List.map_nil]
  rw [pegToken, pegLines, pegLines, pegLine, pegSeq_token]
  cases hv : pegToken id variableName d with
  | none => simp
  | some x =>
    simp only [Option.bind_some, Option.map_some, view]
    rw [pegSeq_value shrinks_id]
    cases hx : x.2 with
    | nil => simp [byteMatch]
    | cons c r =>
      simp only [byteMatch, id]
      by_cases hc : (58 : UInt8) = c
      · subst hc
        simp only [if_true, Option.bind_some]
        rw [pegSeq_many, greedy_class hf]
        cases r with
        | nil => simp
        | cons b r =>
          have ht : ∀ d : Bytes, d.takeWhile (fun _ => true) = d := by
            intro d; induction d with
            | nil => rfl
            | cons a as ih => simp [ih]
          have hd : ∀ d : Bytes, d.dropWhile (fun _ => true) = [] := by
            intro d; induction d with
            | nil => rfl
            | cons a as ih => simp [ih]
          rw [ht, hd]
          simp [pegSeq, view, Shape.bytes, shapeElemsBytes, ShapeElem.bytes, shapesBytes,
            shapeElemsBytes_cons, shapesBytes_class hf, hf.1]
      · have : (match (some (x.1.bytes, c :: r) : Option (Bytes × Bytes)) with
            | some (n, 58 :: b :: r) => some (n ++ 58 :: b :: r, ([] : Bytes))
            | _ => none) = none := by
          split
          · rename_i h; simp at h; exact absurd h.2.1.symm hc
          · rfl
        rw [this]
        simp [hc]

/-- Whatever another assignment matches, a value assignment matches too. -/
theorem assignment_value {name : String} {body : Token} {d : Bytes} {x : Shape × Bytes}
    (h : pegToken id (assignment name body) d = some x) :
    (pegToken id valueAssignment d).isSome = true := by
  unfold assignment fromLines at h
  simp only [List.map_cons, List.map_nil] at h
  rw [pegToken, pegLines, pegLines, pegLine, pegSeq_token] at h
  have hv := valueAssignment_view d
  cases hn : pegToken id variableName d with
  | none => rw [hn] at h; simp at h
  | some y =>
    rw [hn] at h hv
    simp only [Option.bind_some] at h
    rw [pegSeq_value shrinks_id] at h
    simp only [Option.map_some, view] at hv
    cases hy : y.2 with
    | nil => rw [hy] at h; simp [byteMatch] at h
    | cons c r =>
      rw [hy] at h hv
      simp only [byteMatch, id] at h
      by_cases hc : (58 : UInt8) = c
      · subst hc
        simp only [if_true, Option.bind_some] at h
        rw [pegSeq_token] at h
        cases r with
        | nil => rw [pegToken_nil] at h; simp at h
        | cons b r =>
          simp only at hv
          cases hva : pegToken id valueAssignment d with
          | none => rw [hva] at hv; simp at hv
          | some z => rfl
      · simp [hc] at h

/-- An instruction is always a value assignment. -/
theorem instruction_eq (d : Bytes) :
    pegToken id instruction d = (pegToken id valueAssignment d).map
      (fun x => (.node "instruction" 0 [.mk "valueAssignment" [x.1]], x.2)) := by
  unfold instruction fromLines
  simp only [List.map_cons, List.map_nil]
  rw [pegToken]
  simp only [pegLines, pegLine_token]
  cases hv : pegToken id valueAssignment d with
  | some x => simp; rfl
  | none =>
    have hnone : ∀ (n : String) (b : Token), pegToken id (assignment n b) d = none := by
      intro n b
      cases h : pegToken id (assignment n b) d with
      | none => rfl
      | some x =>
        have := assignment_value h
        rw [hv] at this
        simp at this
    simp [composeAssignment, everythingAssignment, tokenAssignment, externalTokenAssignment, hnone]

theorem valueAssignment_rest {d : Bytes} {x : Shape × Bytes}
    (h : pegToken id valueAssignment d = some x) : x.2 = [] := by
  have hv := valueAssignment_view d
  rw [h, Option.map_some] at hv
  split at hv
  · have := congrArg (fun o => o.map Prod.snd) hv
    simpa [view] using this
  · simp at hv

theorem repeat_instruction (k n : Nat) :
    repeatMatch (pegToken id instruction) none k n [] = ([], []) := by
  cases k <;> simp [repeatMatch]

/-- One or more instructions: always exactly one. -/
theorem greedy_instruction (d : Bytes) :
    greedy (pegToken id instruction) 1 none d =
      (pegToken id instruction d).map (fun x => ([x.1], x.2)) := by
  cases d with
  | nil => rw [greedy_nil, pegToken_nil]; rfl
  | cons b r =>
    unfold greedy
    have : repeatMatch (pegToken id instruction) none (b :: r).length 0 (b :: r) =
        match pegToken id instruction (b :: r) with
        | none => ([], b :: r)
        | some x => ([x.1], x.2) := by
      rw [List.length_cons, repeatMatch, if_neg (by simp)]
      cases h : pegToken id instruction (b :: r) with
      | none => rfl
      | some x =>
        have hx : x.2 = [] := by
          rw [instruction_eq] at h
          cases hv : pegToken id valueAssignment (b :: r) with
          | none => rw [hv] at h; simp at h
          | some y =>
            rw [hv, Option.map_some, Option.some.injEq] at h
            have := valueAssignment_rest hv
            rw [← h]
            exact this
        simp only
        rw [hx, repeat_instruction]
    rw [this]
    cases pegToken id instruction (b :: r) with
    | none => simp
    | some x => simp

/-- Name of an element of a shape. -/
def elemName : ShapeElem → String
  | .mk n _ => n

/-- A grammar file: its shape has exactly one instruction, a value assignment that takes the rest. -/
theorem grammarToken_shape {d : Bytes} {x : Shape × Bytes} (h : pegToken id grammarToken d = some x) :
    x.2 = [] ∧ ∃ pre v, x.1 = .node "grammar" 0
      (pre ++ [.mk "instruction" [.node "instruction" 0 [.mk "valueAssignment" [v]]]]) ∧
      ∀ e ∈ pre, elemName e = "root" ∨ elemName e = "channel" := by
  unfold grammarToken fromLines at h
  simp only [List.map_cons, List.map_nil] at h
  rw [pegToken, pegLines, pegLines, pegLine, pegSeq_token] at h
  cases hr : pegToken id root d with
  | none => rw [hr] at h; simp at h
  | some y =>
    rw [hr] at h
    simp only [Option.bind_some] at h
    rw [pegSeq_many] at h
    cases hc : greedy (pegToken id channel) 0 none y.2 with
    | none => rw [hc] at h; simp at h
    | some z =>
      rw [hc] at h
      simp only [Option.bind_some] at h
      rw [pegSeq_many, greedy_instruction, instruction_eq] at h
      cases hv : pegToken id valueAssignment z.2 with
      | none => rw [hv] at h; simp at h
      | some w =>
        rw [hv] at h
        have hw := valueAssignment_rest hv
        simp [pegSeq, hw] at h
        subst h
        refine ⟨rfl, .mk "root" [y.1] :: consElem "channel" z.1 [], w.1, ?_, ?_⟩
        · simp only [consElem]
          cases z.1 <;> rfl
        · intro e he
          simp only [consElem] at he
          cases hz : z.1 with
          | nil => rw [hz] at he; simp at he; subst he; exact Or.inl rfl
          | cons a as =>
            rw [hz] at he
            simp at he
            rcases he with rfl | rfl
            · exact Or.inl rfl
            · exact Or.inr rfl

end Rodkina.Ast.Shipped
