import Verif.Components
import Verif.BuildersLemmas
import Verif.AstProps2
/-! Lemmas about the grammar components. -/

namespace Rodkina.Ast
namespace Comp

open Build BuildSpec

theorem itoa_ne (b : UInt8) : itoa b ≠ "" := Nat.repr_ne_empty

theorem textBytes_nil {text : List Char} : textBytes text = [] ↔ text = [] := by
  cases text with
  | nil => simp [textBytes]
  | cons c cs => simp [textBytes, String.utf8EncodeChar_ne_nil]

theorem bytesName_ne {bs : Bytes} (h : bs ≠ []) : bytesName bs ≠ "" := by
  intro h'
  have := congrArg String.toList h'
  simp [bytesName] at this
  exact h this

theorem must_ok {α : Type} {r : Res α} {a : α} (h : r = .ok a) : must r = .ok a := by rw [h]; rfl

theorem must_panic {α : Type} {r : Res α} (h : ∀ a, r ≠ .ok a) : must r = .panic := by
  cases r with
  | ok a => exact absurd rfl (h a)
  | err => rfl
  | panic => rfl

theorem bind_ok {α β : Type} (a : α) (f : α → Res β) : ((Res.ok a : Res α) >>= f) = f a := rfl
theorem bind_panic {α β : Type} (f : α → Res β) : ((Res.panic : Res α) >>= f) = .panic := rfl

theorem cardinality_eq (min : Nat) (max : Option Nat) : cardinality min max = .ok ⟨min, max⟩ := by
  cases max <;> rfl

theorem once_eq : once = .ok ⟨1, some 1⟩ := rfl

theorem value_eq (b : UInt8) :
    must (valueBuilder.build [none, some (.withName (itoa b)), some (.withNumber b)]) = .ok ⟨itoa b, b⟩ :=
  must_ok ((value_build _ _).mpr ⟨itoa_ne b, rfl, rfl⟩)

theorem composeElements_eq (bs : Bytes) : composeElements bs = .ok (bs.map (fun b => (b, 1))) := by
  induction bs with
  | nil => rfl
  | cons b bs ih =>
    rw [composeElements, value_eq, bind_ok, ih]
    rfl

/-- The compose of some bytes. -/
def composeOf (bs : Bytes) : Compose := ⟨bytesName bs, bs.map (fun b => (b, 1))⟩

theorem compose_eq (bs : Bytes) : compose bs = if bs = [] then .panic else .ok (composeOf bs) := by
  rw [compose, composeElements_eq, bind_ok]
  split
  · rename_i h; subst h; rfl
  · rename_i h
    exact must_ok ((compose_build _ _).mpr ⟨bytesName_ne h, rfl, by simpa [composeOf] using h, rfl⟩)

theorem suite_eq (bs : Bytes) (v : Bool) : suite bs v = if bs = [] then .panic else .ok ⟨v, composeOf bs⟩ := by
  rw [suite, compose_eq]
  split
  · rfl
  · cases v <;> rfl

theorem suiteList_eq (l : List (List Char × Bool)) :
    suiteList l = if ∃ e ∈ l, e.1 = [] then .panic else .ok (l.map (fun e => ⟨e.2, composeOf (textBytes e.1)⟩)) := by
  induction l with
  | nil => rfl
  | cons e l ih =>
    obtain ⟨text, v⟩ := e
    rw [suiteList, suite_eq, ih]
    by_cases h : text = []
    · rw [if_pos (textBytes_nil.mpr h), if_pos (c := ∃ e ∈ (text, v) :: l, e.1 = []) ⟨(text, v), List.mem_cons_self .., h⟩]; rfl
    · rw [if_neg (fun h' => h (textBytes_nil.mp h')), bind_ok]
      by_cases h2 : ∃ e ∈ l, e.1 = []
      · rw [if_pos h2, if_pos (by obtain ⟨e, he, h3⟩ := h2; exact ⟨e, List.mem_cons_of_mem _ he, h3⟩)]; rfl
      · rw [if_neg h2, if_neg]
        · rfl
        · rintro ⟨e, he, h3⟩
          rcases List.mem_cons.mp he with rfl | he
          · exact h h3
          · exact h2 ⟨e, he, h3⟩

theorem suites_eq (l : List (List Char × Bool)) :
    suites l = if ∃ e ∈ l, e.1 = [] then .panic
      else .ok (if l = [] then none else some (l.map (fun e => ⟨e.2, composeOf (textBytes e.1)⟩))) := by
  rw [suites, suiteList_eq]
  split
  · rfl
  · rw [bind_ok]
    cases l with
    | nil => rfl
    | cons e l => rfl

theorem fromValue_eq (b : UInt8) : fromValue b = .ok ⟨⟨1, some 1⟩, .value (itoa b) b⟩ := by
  rw [fromValue, value_eq, bind_ok, once_eq]
  rfl

theorem fromToken_eq (t : Token) (c : Cardinality) : fromToken t c = .ok ⟨c, .token t⟩ := rfl

theorem everything_eq (name : String) (x : Token) (e : Option Token) :
    everything name x e = if name = "" then .panic else .ok ⟨name, x, e⟩ := by
  split
  · rename_i h
    subst h
    exact must_panic fun a h => ((everything_build _ a).mp h).1 (((everything_build _ a).mp h).2.1.trans (by cases e <;> rfl))
  · rename_i h
    refine must_ok ((everything_build _ _).mpr ⟨h, ?_, ?_, ?_⟩) <;> cases e <;> rfl

theorem fromEverything_eq (e : Everything) :
    fromEverything e = .ok ⟨⟨1, some 1⟩, .everything e.name e.exception e.escape⟩ := rfl

/-- The container of an element. -/
def containerOf (e : Element) : Container := .element e.cardinality.min e.cardinality.max e.content

theorem containers_eq (es : List Element) : containers es = .ok (es.map containerOf) := by
  induction es with
  | nil => rfl
  | cons e es ih => rw [containers, ih]; rfl

theorem fromElements_eq (es : List Element) :
    fromElements es = if es = [] then .panic else .ok (.mk (es.map containerOf)) := by
  rw [fromElements, containers_eq, bind_ok]
  cases es <;> rfl

theorem fromLines_eq (ls : List GLine) : fromLines ls = if ls = [] then .panic else .ok ls := by cases ls <;> rfl

theorem fromBlock_eq (name : String) (b : List GLine) (s : Option (List Suite)) :
    fromBlock name b s = if name = "" then .panic else .ok (.mk name b (s.getD [])) := by
  split
  · rename_i h
    subst h
    exact must_panic fun a h => ((token_build _ a).mp h).1 (((token_build _ a).mp h).2.1.trans (by cases s <;> rfl))
  · rename_i h
    refine must_ok ((token_build _ _).mpr ⟨h, ?_, ?_, ?_⟩) <;> cases s <;> rfl

theorem singleLines_eq (es : List Element) : singleLines es = .ok (es.map (fun e => .mk [containerOf e])) := by
  induction es with
  | nil => rfl
  | cons e es ih => rw [singleLines, ih]; rfl

theorem anyElement_eq (name : String) (es : List Element) (s : Option (List Suite)) :
    anyElement name es s =
      if name = "" ∨ es = [] then .panic else .ok (.mk name (es.map (fun e => .mk [containerOf e])) (s.getD [])) := by
  rw [anyElement, singleLines_eq, bind_ok, fromLines_eq]
  cases es with
  | nil => simp
  | cons e es =>
    rw [if_neg (by simp), bind_ok, fromBlock_eq]
    simp

/-- The element of a character. -/
def characterOf (c : Char) : Element := ⟨⟨1, some 1⟩, .value (itoa (byteOf c)) (byteOf c)⟩

theorem characterElements_eq (cs : List Char) : characterElements cs = .ok (cs.map characterOf) := by
  induction cs with
  | nil => rfl
  | cons c cs ih => rw [characterElements, fromValue_eq, bind_ok, ih]; rfl

theorem anyCharacter_eq (name : String) (values order : List Char) :
    anyCharacter name values order =
      if name = "" ∨ values = [] then .panic
      else .ok (.mk name (values.map (fun c => .mk [containerOf (characterOf c)]))
        (order.map (fun c => ⟨true, composeOf (textBytes [c])⟩))) := by
  rw [anyCharacter, characterElements_eq, bind_ok, suites_eq, if_neg (by simp), bind_ok, anyElement_eq]
  simp only [List.map_eq_nil_iff, List.map_map]
  split
  · rfl
  · cases order <;> rfl

theorem allCharacters_eq (name : String) (values : List Char) :
    allCharacters name values =
      if name = "" ∨ values = [] then .panic
      else .ok (.mk name [.mk (values.map (fun c => containerOf (characterOf c)))] [⟨true, composeOf (textBytes values)⟩]) := by
  rw [allCharacters, characterElements_eq, bind_ok, suites_eq]
  by_cases h : values = []
  · subst h; simp
  · rw [if_neg (by simpa using h), bind_ok, fromElements_eq, if_neg (by simpa using h), bind_ok, fromLines_eq, if_neg (by simp),
      bind_ok, fromBlock_eq]
    simp [h, Function.comp_def]

theorem channelFromToken_eq (t : Token) : channelFromToken t = .ok (.mk t none none) := rfl

theorem channelFromValue_eq (name : String) (b : UInt8) :
    channelFromValue name b =
      if name = "" then .panic else .ok (.mk (.mk name [.mk [.element 1 (some 1) (.value (itoa b) b)]] []) none none) := by
  rw [channelFromValue, fromValue_eq, bind_ok, fromElements_eq, if_neg (by simp), bind_ok, fromLines_eq, if_neg (by simp), bind_ok,
    suites_eq, if_neg (by simp), bind_ok, fromBlock_eq]
  by_cases h : name = ""
  · rw [if_pos h, if_pos h]; rfl
  · rw [if_neg h, if_neg h]; rfl

theorem textBytes_ascii {text : List Char} (h : ∀ c ∈ text, c.toNat < 128) : textBytes text = text.map byteOf := by
  induction text with
  | nil => rfl
  | cons c cs ih =>
    have hc : String.utf8EncodeChar c = [byteOf c] := by
      have := h c (by simp)
      unfold String.utf8EncodeChar byteOf
      simp only [Char.toNat] at this ⊢
      rw [if_pos (by omega)]
    have := ih (fun c hc => h c (by simp [hc]))
    unfold textBytes at this ⊢
    rw [List.flatMap_cons, hc, this]
    rfl

theorem composeCompose_of (bs : Bytes) : composeCompose (composeOf bs) = bs := by
  unfold composeCompose composeOf
  induction bs with
  | nil => rfl
  | cons b bs ih =>
    simp only [List.map_cons, List.flatMap_cons] at ih ⊢
    rw [ih]
    rfl

end Comp
end Rodkina.Ast
