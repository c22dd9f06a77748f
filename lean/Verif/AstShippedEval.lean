import Verif.AstShippedLemmas
import Mathlib.Data.List.TakeDrop
import Mathlib.Data.List.TakeWhile

/-!
# What the shipped tokens match

Evaluation of the reference interpreter on the shipped tokens.
-/

namespace Rodkina.Ast

/-! ## General facts about the reference interpreter -/

theorem greedy_nil {α : Type} (f : Bytes → Option (α × Bytes)) (min : Nat) (max : Option Nat) :
    greedy f min max [] = if 0 < min then none else some ([], []) := by
  simp [greedy, repeatMatch]

theorem pegSeq_nil_input (sk : Bytes → Bytes) (cs : List Container) :
    pegSeq sk cs [] = none ∨ pegSeq sk cs [] = some ([], []) := by
  induction cs with
  | nil => right; simp [pegSeq]
  | cons c cs ih =>
    unfold pegSeq
    cases c with
    | compose c => left; simp [pegContainer]
    | element min max c =>
      simp only [pegContainer, greedy_nil]
      split
      · left; rfl
      · simp only [Option.bind_some]
        rcases ih with h | h
        · left; simp [h]
        · right; simp [h, consElem]

theorem pegLines_nil_input (sk : Bytes → Bytes) (i : Nat) (gs : List GLine) :
    pegLines sk i gs [] = none := by
  induction gs generalizing i with
  | nil => simp [pegLines]
  | cons g gs ih =>
    rcases g with ⟨cs⟩
    unfold pegLines pegLine
    rcases pegSeq_nil_input sk cs with h | h <;> simp [h, ih]

/-- No token matches the empty input. -/
theorem pegToken_nil (sk : Bytes → Bytes) (t : Token) : pegToken sk t [] = none := by
  rcases t with ⟨name, ls, suites⟩
  simp [pegToken, pegLines_nil_input]

/-- Exactly one occurrence. -/
theorem greedy_once {α : Type} (f : Bytes → Option (α × Bytes)) (d : Bytes) (h0 : f [] = none) :
    greedy f 1 (some 1) d = (f d).map (fun x => ([x.1], x.2)) := by
  cases d with
  | nil => simp [greedy, repeatMatch, h0]
  | cons b r =>
    unfold greedy
    simp only [List.length_cons]
    have : repeatMatch f (some 1) (r.length + 1) 0 (b :: r) =
        match f (b :: r) with
        | none => ([], b :: r)
        | some x => ([x.1], x.2) := by
      rw [repeatMatch]
      rw [if_neg (by simp)]
      cases f (b :: r) with
      | none => rfl
      | some x =>
        have h2 : ∀ k d, repeatMatch f (some 1) k (0 + 1) d = ([], d) := by
          intro k d
          cases k with
          | zero => rfl
          | succ k => rw [repeatMatch]; simp
        simp [h2]
    rw [this]
    cases f (b :: r) with
    | none => simp
    | some x => simp

/-- The number of steps does not matter when every match consumes something. -/
theorem repeatMatch_fuel {α : Type} {f : Bytes → Option (α × Bytes)}
    (hf : ∀ d x, f d = some x → x.2.length < d.length) (max : Option Nat) (k j n : Nat) (d : Bytes)
    (hk : d.length ≤ k) (hj : d.length ≤ j) :
    repeatMatch f max k n d = repeatMatch f max j n d := by
  induction k generalizing j n d with
  | zero =>
    have : d = [] := List.length_eq_zero_iff.mp (by omega)
    subst this
    cases j <;> simp [repeatMatch]
  | succ k ih =>
    cases j with
    | zero =>
      have : d = [] := List.length_eq_zero_iff.mp (by omega)
      subst this
      simp [repeatMatch]
    | succ j =>
      rw [repeatMatch, repeatMatch]
      split
      · rfl
      · cases h : f d with
        | none => rfl
        | some x =>
          have := hf d x h
          simp only
          rw [ih j (n + 1) x.2 (by omega) (by omega)]

/-- Skipping never adds bytes. -/
def Shrinks (sk : Bytes → Bytes) : Prop := ∀ d, (sk d).length ≤ d.length

theorem Shrinks.nil {sk : Bytes → Bytes} (h : Shrinks sk) : sk [] = [] := by
  have := h []
  exact List.length_eq_zero_iff.mp (by simpa using this)

theorem byteMatch_nil {sk : Bytes → Bytes} (h : Shrinks sk) (b : UInt8) :
    byteMatch sk b [] = none := by
  simp [byteMatch, h.nil]

theorem shrinks_id : Shrinks id := fun _ => Nat.le_refl _

namespace Shipped

variable {sk : Bytes → Bytes}

theorem pegSeq_value (h : Shrinks sk) (b : UInt8) (cs : List Container) (d : Bytes) :
    pegSeq sk (fromValue b :: cs) d = (byteMatch sk b d).bind (fun x =>
      (pegSeq sk cs x.2).map (fun y => (.mk (toString b.toNat) [x.1] :: y.1, y.2))) := by
  rw [pegSeq]
  unfold fromValue once
  simp only [pegContainer]
  have : pegContent sk (.value (toString b.toNat) b) = byteMatch sk b := by
    funext d; simp [pegContent]
  rw [this, greedy_once _ _ (byteMatch_nil h b)]
  cases byteMatch sk b d with
  | none => rfl
  | some x => simp [consElem, Container.name, Content.name]

theorem pegSeq_token (t : Token) (cs : List Container) (d : Bytes) :
    pegSeq sk (fromToken t 1 (some 1) :: cs) d = (pegToken sk t d).bind (fun x =>
      (pegSeq sk cs x.2).map (fun y => (.mk t.name [x.1] :: y.1, y.2))) := by
  rw [pegSeq]
  unfold fromToken
  simp only [pegContainer]
  have : pegContent sk (.token t) = pegToken sk t := by
    funext d; simp [pegContent]
  rw [this, greedy_once _ _ (pegToken_nil sk t)]
  cases pegToken sk t d with
  | none => rfl
  | some x => simp [consElem, Container.name, Content.name]

theorem pegSeq_many (t : Token) (min : Nat) (max : Option Nat) (cs : List Container) (d : Bytes) :
    pegSeq sk (fromToken t min max :: cs) d = (greedy (pegToken sk t) min max d).bind (fun x =>
      (pegSeq sk cs x.2).map (fun y => (consElem t.name x.1 y.1, y.2))) := by
  rw [pegSeq]
  unfold fromToken
  simp only [pegContainer]
  have : pegContent sk (.token t) = pegToken sk t := by
    funext d; simp [pegContent]
  rw [this]
  rfl

/-- One byte of a class, then skip. -/
def classMatch (sk : Bytes → Bytes) (cs : Bytes) (i : Nat) (d : Bytes) :
    Option (Nat × List ShapeElem × Bytes) :=
  match sk d with
  | [] => none
  | b :: r => if b ∈ cs then some (i + cs.idxOf b, [.mk (toString b.toNat) [.byte b]], r) else none

theorem pegLines_anyCharacter (h : Shrinks sk) (cs : Bytes) (i : Nat) (d : Bytes) :
    pegLines sk i ((cs.map fromValue).map (fun e => .mk [e])) d = classMatch sk cs i d := by
  induction cs generalizing i with
  | nil =>
    simp only [List.map_nil, pegLines, classMatch]
    cases sk d <;> simp
  | cons c cs ih =>
    simp only [List.map_cons, pegLines, pegLine]
    rw [pegSeq_value h, ih]
    unfold byteMatch classMatch
    cases sk d with
    | nil => simp
    | cons b r =>
      simp only
      by_cases hcb : c = b
      · subst hcb
        simp [pegSeq]
      · have hbc : b ≠ c := fun e => hcb e.symm
        simp only [hcb, if_false, Option.bind_none, Option.map_none, Option.orElse_none,
          List.mem_cons, hbc, false_or]
        split
        · simp only [Option.some.injEq, Prod.mk.injEq, and_true]
          rw [List.idxOf_cons_ne _ hcb]
          omega
        · rfl

/-- A token that stands for one byte of a class. -/
theorem pegToken_anyCharacter (h : Shrinks sk) (name : String) (cs : Bytes) (d : Bytes) :
    pegToken sk (anyCharacter name cs) d =
      match sk d with
      | [] => none
      | b :: r => if b ∈ cs then
          some (.node name (cs.idxOf b) [.mk (toString b.toNat) [.byte b]], sk r) else none := by
  unfold anyCharacter anyElement fromLines pegToken
  have := pegLines_anyCharacter h cs 0 d
  simp only [List.map_map, Function.comp_def] at this ⊢
  rw [this]
  unfold classMatch
  cases sk d with
  | nil => rfl
  | cons b r =>
    simp only
    split <;> simp

/-! ### Classes -/

theorem mem_range_bytes {lo n : Nat} (hn : lo + n ≤ 256) (b : UInt8) :
    b ∈ (List.range' lo n).map UInt8.ofNat ↔ lo ≤ b.toNat ∧ b.toNat < lo + n := by
  simp only [List.mem_map, List.mem_range'_1]
  constructor
  · rintro ⟨a, ha, rfl⟩
    rw [UInt8.toNat_ofNat_of_lt' (by have : UInt8.size = 256 := rfl
                                     omega)]
    exact ha
  · intro h
    exact ⟨b.toNat, h, by simp⟩

theorem mem_lower (b : UInt8) : b ∈ lowerBytes ↔ 97 ≤ b.toNat ∧ b.toNat < 123 :=
  mem_range_bytes (by omega) b
theorem mem_upper (b : UInt8) : b ∈ upperBytes ↔ 65 ≤ b.toNat ∧ b.toNat < 91 :=
  mem_range_bytes (by omega) b
theorem mem_afLower (b : UInt8) : b ∈ afLowerBytes ↔ 97 ≤ b.toNat ∧ b.toNat < 103 :=
  mem_range_bytes (by omega) b
theorem mem_afUpper (b : UInt8) : b ∈ afUpperBytes ↔ 65 ≤ b.toNat ∧ b.toNat < 71 :=
  mem_range_bytes (by omega) b
theorem mem_digit (b : UInt8) : b ∈ digitBytes ↔ 48 ≤ b.toNat ∧ b.toNat < 58 :=
  mem_range_bytes (by omega) b
theorem mem_all (b : UInt8) : b ∈ allBytes :=
  (mem_range_bytes (by omega) b).mpr ⟨Nat.zero_le _, by have := b.toNat_lt; omega⟩

end Shipped

end Rodkina.Ast
