import Verif.GrammarTextSpec
import Verif.AstShippedRun

/-!
# The shipped tokens take the longest text of their form: lemmas
-/

namespace Rodkina.GrammarText

open Rodkina.Ast
open Rodkina.Ast.Shipped (view fromLines fromToken fromValue anyCharacter allCharacters IsClass
  pegSeq_value pegSeq_token pegSeq_many shapeElemsBytes_cons)
open scoped Computability

/-! ## Sets of texts -/

theorem mem_byte {b : UInt8} {w : Bytes} : w ∈ byte b ↔ w = [b] := Iff.rfl
theorem mem_word {v w : Bytes} : w ∈ word v ↔ w = v := Iff.rfl
theorem mem_oneOf {p : UInt8 → Bool} {w : Bytes} : w ∈ oneOf p ↔ ∃ b, p b = true ∧ w = [b] := Iff.rfl
theorem mem_hash {w : Bytes} :
    w ∈ hash ↔ w.length = 128 ∧ ∀ b ∈ w, Shipped.isHex b = true := Iff.rfl

/-- The result of reading a text of the set from the front. -/
def Takes (L : Text) (d : Bytes) : Option (Bytes × Bytes) → Prop
  | some x => Longest L d x.1 x.2
  | none => StartsWithNone L d

/-- No text contains a byte of the class. -/
def Avoids (L : Text) (A : UInt8 → Bool) : Prop := ∀ w ∈ L, ∀ b ∈ w, A b = false

/-- Every text that is not empty starts with a byte of the class. -/
def Opens (L : Text) (A : UInt8 → Bool) : Prop := ∀ w ∈ L, ∀ b r, w = b :: r → A b = true

/-- Where a text of the second set follows, the first one ends. -/
def Sep (L M : Text) : Prop :=
  ∀ u ∈ L, ∀ v ∈ M, v ≠ [] → ∀ s u' r, u ++ v ++ s = u' ++ r → u' ∈ L → u'.length ≤ u.length

theorem sep_of {L M : Text} {A : UInt8 → Bool} (h : Avoids L A) (h' : Opens M A) : Sep L M := by
  intro u _ v hv hne s u' r he hu'
  by_contra hlt
  cases v with
  | nil => exact hne rfl
  | cons b v =>
    have hA := h' _ hv b v rfl
    have hb : b ∈ u' := by
      have h1 : (u ++ (b :: v) ++ s)[u.length]? = some b := by simp
      rw [he, List.getElem?_append_left (by omega)] at h1
      exact List.mem_of_getElem? h1
    rw [h u' hu' b hb] at hA
    exact absurd hA (by simp)

theorem avoids_byte {b : UInt8} {A : UInt8 → Bool} (h : A b = false) : Avoids (byte b) A := by
  intro w hw c hc
  rw [mem_byte] at hw; subst hw
  simp at hc; rw [hc]; exact h

theorem avoids_word {w : Bytes} {A : UInt8 → Bool} (h : ∀ b ∈ w, A b = false) :
    Avoids (word w) A := by
  intro v hv c hc
  rw [mem_word] at hv; subst hv
  exact h c hc

theorem avoids_oneOf {p A : UInt8 → Bool} (h : ∀ b, p b = true → A b = false) :
    Avoids (oneOf p) A := by
  rintro w ⟨b, hb, rfl⟩ c hc
  simp at hc; rw [hc]; exact h b hb

theorem Avoids.mul {L M : Text} {A : UInt8 → Bool} (h : Avoids L A) (h' : Avoids M A) :
    Avoids (L * M) A := by
  intro w hw c hc
  obtain ⟨a, ha, b, hb, rfl⟩ := Language.mem_mul.mp hw
  rcases List.mem_append.mp hc with hc | hc
  · exact h a ha c hc
  · exact h' b hb c hc

theorem Avoids.add {L M : Text} {A : UInt8 → Bool} (h : Avoids L A) (h' : Avoids M A) :
    Avoids (L + M) A := by
  intro w hw c hc
  rcases (Language.mem_add _ _ _).mp hw with hw | hw
  · exact h w hw c hc
  · exact h' w hw c hc

theorem avoids_one {A : UInt8 → Bool} : Avoids 1 A := by
  intro w hw c hc
  rw [Language.mem_one] at hw; subst hw
  simp at hc

theorem Avoids.star {L : Text} {A : UInt8 → Bool} (h : Avoids L A) : Avoids L∗ A := by
  intro w hw c hc
  obtain ⟨ws, rfl, hws⟩ := Language.mem_kstar.mp hw
  obtain ⟨v, hv, hcv⟩ := List.mem_flatten.mp hc
  exact h v (hws v hv) c hcv

theorem Avoids.some1 {L : Text} {A : UInt8 → Bool} (h : Avoids L A) : Avoids (some1 L) A :=
  h.mul h.star

theorem Avoids.optional {L : Text} {A : UInt8 → Bool} (h : Avoids L A) : Avoids (optional L) A :=
  avoids_one.add h

theorem opens_byte {b : UInt8} {A : UInt8 → Bool} (h : A b = true) : Opens (byte b) A := by
  intro w hw c r he
  rw [mem_byte] at hw; subst hw
  simp at he; rw [← he.1]; exact h

theorem opens_oneOf {p A : UInt8 → Bool} (h : ∀ b, p b = true → A b = true) :
    Opens (oneOf p) A := by
  rintro w ⟨b, hb, rfl⟩ c r he
  simp at he; rw [← he.1]; exact h b hb

theorem opens_word {b : UInt8} {w : Bytes} {A : UInt8 → Bool} (h : A b = true) :
    Opens (word (b :: w)) A := by
  intro v hv c r he
  rw [mem_word] at hv; subst hv
  simp at he; rw [← he.1]; exact h

theorem opens_one {A : UInt8 → Bool} : Opens 1 A := by
  intro w hw c r he
  rw [Language.mem_one] at hw; subst hw
  simp at he

theorem Opens.add {L M : Text} {A : UInt8 → Bool} (h : Opens L A) (h' : Opens M A) :
    Opens (L + M) A := by
  intro w hw c r he
  rcases (Language.mem_add _ _ _).mp hw with hw | hw
  · exact h w hw c r he
  · exact h' w hw c r he

theorem Opens.mul {L M : Text} {A : UInt8 → Bool} (h : Opens L A) (h' : Opens M A) :
    Opens (L * M) A := by
  intro w hw c r he
  obtain ⟨a, ha, b, hb, rfl⟩ := Language.mem_mul.mp hw
  cases a with
  | nil => exact h' b hb c r he
  | cons x a =>
    simp at he
    rw [← he.1]
    exact h _ ha x a rfl

theorem Opens.mulOf {L M : Text} {A : UInt8 → Bool} (h : Opens L A) (hne : [] ∉ L) :
    Opens (L * M) A := by
  intro w hw c r he
  obtain ⟨a, ha, b, hb, rfl⟩ := Language.mem_mul.mp hw
  cases a with
  | nil => exact absurd ha hne
  | cons x a =>
    simp at he
    rw [← he.1]
    exact h _ ha x a rfl

theorem Opens.star {L : Text} {A : UInt8 → Bool} (h : Opens L A) : Opens L∗ A := by
  intro w hw c r he
  obtain ⟨ws, rfl, hws⟩ := Language.mem_kstar.mp hw
  clear hw
  induction ws with
  | nil => simp at he
  | cons v ws ih =>
    cases v with
    | nil => exact ih (fun y hy => hws y (by simp [hy])) (by simpa using he)
    | cons x v =>
      simp at he
      rw [← he.1]
      exact h _ (hws _ (by simp)) x v rfl

theorem Opens.optional {L : Text} {A : UInt8 → Bool} (h : Opens L A) : Opens (optional L) A :=
  opens_one.add h

theorem Opens.some1 {L : Text} {A : UInt8 → Bool} (h : Opens L A) : Opens (some1 L) A :=
  h.mul h.star

theorem nil_byte {b : UInt8} : [] ∉ byte b := by rw [mem_byte]; simp
theorem nil_oneOf {p : UInt8 → Bool} : [] ∉ oneOf p := by rintro ⟨b, _, h⟩; simp at h
theorem nil_mul {L M : Text} (h : [] ∉ L) : [] ∉ L * M := by
  intro hm
  obtain ⟨a, ha, b, hb, he⟩ := Language.mem_mul.mp hm
  rw [List.append_eq_nil_iff] at he
  exact h (he.1 ▸ ha)
theorem nil_mul_right {L M : Text} (h : [] ∉ M) : [] ∉ L * M := by
  intro hm
  obtain ⟨a, ha, b, hb, he⟩ := Language.mem_mul.mp hm
  rw [List.append_eq_nil_iff] at he
  exact h (he.2 ▸ hb)
theorem nil_add {L M : Text} (h : [] ∉ L) (h' : [] ∉ M) : [] ∉ L + M := by
  intro hm
  rcases (Language.mem_add _ _ _).mp hm with hm | hm
  · exact h hm
  · exact h' hm
theorem nil_some1 {L : Text} (h : [] ∉ L) : [] ∉ some1 L := nil_mul h

/-! ## Reading one text after the other -/

theorem takes_mul {L M : Text} {d : Bytes} {f : Option (Bytes × Bytes)}
    {g : Bytes → Option (Bytes × Bytes)} (hf : Takes L d f)
    (hg : ∀ x, f = some x → Takes M x.2 (g x.2)) (hs : Sep L M) :
    Takes (L * M) d (f.bind fun x => (g x.2).map fun y => (x.1 ++ y.1, y.2)) := by
  -- the split of any text of the product
  have key : ∀ x, f = some x → ∀ u v s, d = u ++ v ++ s → u ∈ L → v ∈ M →
      (v = [] ∧ u.length ≤ x.1.length) ∨ (v ≠ [] ∧ u = x.1 ∧ x.2 = v ++ s) := by
    intro x hx u v s hd hu hv
    subst hx
    obtain ⟨h1, h2, h3⟩ := hf
    have hl : u.length ≤ x.1.length := h3 u (v ++ s) (by rw [hd, List.append_assoc]) hu
    by_cases hv0 : v = []
    · exact .inl ⟨hv0, hl⟩
    · right
      have := hs u hu v hv hv0 s x.1 x.2 (by rw [← hd, h1]) h2
      have he : u ++ (v ++ s) = x.1 ++ x.2 := by rw [← List.append_assoc, ← hd, h1]
      have := List.append_inj he (by omega)
      exact ⟨hv0, this.1, this.2.symm⟩
  cases f with
  | none =>
    intro m r hd hm
    obtain ⟨u, hu, v, hv, rfl⟩ := Language.mem_mul.mp hm
    exact hf u (v ++ r) (by rw [hd, List.append_assoc]) hu
  | some x =>
    have hgx := hg x rfl
    have hfx := hf
    obtain ⟨h1, h2, h3⟩ := hfx
    simp only [Option.bind_some]
    cases hy : g x.2 with
    | none =>
      rw [hy] at hgx
      intro m r hd hm
      obtain ⟨u, hu, v, hv, rfl⟩ := Language.mem_mul.mp hm
      rcases key x rfl u v r hd hu hv with ⟨rfl, _⟩ | ⟨_, _, h⟩
      · exact hgx [] x.2 rfl hv
      · exact hgx v r h hv
    | some y =>
      rw [hy] at hgx
      obtain ⟨g1, g2, g3⟩ := hgx
      refine ⟨?_, Language.mem_mul.mpr ⟨_, h2, _, g2, rfl⟩, ?_⟩
      · rw [h1, g1]; simp
      · intro m r hd hm
        obtain ⟨u, hu, v, hv, rfl⟩ := Language.mem_mul.mp hm
        simp only [List.length_append]
        rcases key x rfl u v r hd hu hv with ⟨rfl, h⟩ | ⟨_, rfl, h⟩
        · simp; omega
        · have := g3 v r h hv; omega

/-- A set of texts of one length never runs into what follows. -/
theorem sep_length {L M : Text} (n : Nat) (h : ∀ w ∈ L, w.length = n) : Sep L M := by
  intro u hu v _ _ s u' r _ hu'
  rw [h u hu, h u' hu']

theorem sep_byte {b : UInt8} {M : Text} : Sep (byte b) M :=
  sep_length 1 (fun w hw => by rw [mem_byte] at hw; subst hw; rfl)

theorem sep_word {w : Bytes} {M : Text} : Sep (word w) M :=
  sep_length w.length (fun v hv => by rw [mem_word] at hv; subst hv; rfl)

/-! ## The reference interpreter -/

/-- A token reads the longest text of the set. -/
def TokTakes (t : Token) (L : Text) : Prop := ∀ d, Takes L d ((pegToken id t d).map view)

/-- Containers in order read the longest text of the set. -/
def SeqTakes (cs : List Container) (L : Text) : Prop :=
  ∀ d, Takes L d ((pegSeq id cs d).map fun x => (shapeElemsBytes x.1, x.2))

/-- A repeated token reads the longest text of the set. -/
def ManyTakes (t : Token) (min : Nat) (max : Option Nat) (L : Text) : Prop :=
  ∀ d, Takes L d ((greedy (pegToken id t) min max d).map fun x => (shapesBytes x.1, x.2))

theorem seq_nil : SeqTakes [] 1 := by
  intro d
  simp only [pegSeq, Option.map_some, shapeElemsBytes]
  exact ⟨rfl, Language.nil_mem_one, fun m r _ hm => by rw [Language.mem_one] at hm; simp [hm]⟩

theorem seq_many {t : Token} {min : Nat} {max : Option Nat} {cs : List Container} {L M : Text}
    (ht : ManyTakes t min max L) (hc : SeqTakes cs M) (hs : Sep L M) :
    SeqTakes (fromToken t min max :: cs) (L * M) := by
  intro d
  have := takes_mul (g := fun d => (pegSeq id cs d).map fun x => (shapeElemsBytes x.1, x.2)) (ht d)
    (fun x _ => hc x.2) hs
  rw [pegSeq_many]
  convert this using 1
  cases greedy (pegToken id t) min max d with
  | none => rfl
  | some x =>
    simp only [Option.bind_some, Option.map_some]
    cases pegSeq id cs x.2 with
    | none => rfl
    | some y => simp [shapeElemsBytes_cons]

theorem many_once {t : Token} {L : Text} (h : TokTakes t L) : ManyTakes t 1 (some 1) L := by
  intro d
  have := h d
  rw [greedy_once _ _ (pegToken_nil id t)]
  convert this using 1
  cases pegToken id t d with
  | none => rfl
  | some x => simp [shapesBytes, view]

theorem seq_token {t : Token} {cs : List Container} {L M : Text} (ht : TokTakes t L)
    (hc : SeqTakes cs M) (hs : Sep L M) : SeqTakes (fromToken t 1 (some 1) :: cs) (L * M) :=
  seq_many (many_once ht) hc hs

theorem takes_byte (b : UInt8) (d : Bytes) :
    Takes (byte b) d ((byteMatch id b d).map view) := by
  unfold byteMatch
  cases d with
  | nil =>
    intro m r hd hm
    rw [mem_byte] at hm; subst hm
    simp at hd
  | cons c r =>
    simp only [id]
    split
    · rename_i h
      subst h
      refine ⟨?_, ?_, ?_⟩
      · simp [view, Shape.bytes]
      · simp [view, Shape.bytes, mem_byte]
      · intro m r _ hm
        rw [mem_byte] at hm; subst hm
        simp [view, Shape.bytes]
    · rename_i h
      intro m s hd hm
      rw [mem_byte] at hm; subst hm
      simp at hd
      exact h hd.1.symm

theorem seq_value {b : UInt8} {cs : List Container} {M : Text} (hc : SeqTakes cs M) :
    SeqTakes (fromValue b :: cs) (byte b * M) := by
  intro d
  have := takes_mul (g := fun d => (pegSeq id cs d).map fun x => (shapeElemsBytes x.1, x.2))
    (takes_byte b d) (fun x _ => hc x.2) (sep_byte (M := M))
  rw [pegSeq_value shrinks_id]
  convert this using 1
  cases byteMatch id b d with
  | none => rfl
  | some x =>
    simp only [Option.bind_some, Option.map_some, view]
    cases pegSeq id cs x.2 with
    | none => rfl
    | some y => simp [shapeElemsBytes, ShapeElem.bytes, shapesBytes]

/-- Alternatives: the lines read the longest text of the set. -/
def LinesTakes (gs : List GLine) (L : Text) : Prop :=
  ∀ i d, Takes L d ((pegLines id i gs d).map fun x => (shapeElemsBytes x.2.1, x.2.2))

theorem tok_of_lines {n : String} {lines : List (List Container)} {L : Text}
    (h : LinesTakes (lines.map .mk) L) : TokTakes (fromLines n lines) L := by
  intro d
  have := h 0 d
  unfold fromLines
  rw [pegToken]
  convert this using 1
  cases pegLines id 0 (lines.map GLine.mk) d with
  | none => rfl
  | some x => simp [view, Shape.bytes]

theorem line_takes {cs : List Container} {L : Text} (h : SeqTakes cs L) (hn : [] ∉ L) (d : Bytes) :
    Takes L d ((pegLine id (.mk cs) d).map fun x => (shapeElemsBytes x.1, x.2)) := by
  have := h d
  rw [pegLine]
  cases he : pegSeq id cs d with
  | none => rw [he] at this; exact this
  | some x =>
    rw [he] at this
    simp only [Option.bind_some]
    rw [if_neg]
    · exact this
    · intro hx
      have hx : x.1 = [] := by simpa using hx
      have := this.2.1
      simp only [hx, shapeElemsBytes] at this
      exact hn this

theorem lines_nil : LinesTakes [] 0 := by
  intro i d m r _ hm
  exact Language.notMem_zero m hm

/-- A text of the second set never goes on after one of the first. -/
def Before (L M : Text) : Prop :=
  ∀ u ∈ L, ∀ v ∈ M, ∀ r s, u ++ r = v ++ s → v.length ≤ u.length

theorem lines_cons_general {cs : List Container} {gs : List GLine} {L M : Text} (h : SeqTakes cs L)
    (hn : [] ∉ L) (hg : LinesTakes gs M)
    (hb : ∀ d u r, Longest L d u r → ∀ v s, d = v ++ s → v ∈ M → v.length ≤ u.length) :
    LinesTakes (.mk cs :: gs) (L + M) := by
  intro i d
  have h1 := line_takes h hn d
  have h2 := hg (i + 1) d
  rw [pegLines]
  cases he : pegLine id (.mk cs) d with
  | none =>
    rw [he] at h1
    simp only [Option.map_none, Option.orElse_none]
    cases he2 : pegLines id (i + 1) gs d with
    | none =>
      rw [he2] at h2
      intro m r hd hm
      rcases (Language.mem_add _ _ _).mp hm with hm | hm
      · exact h1 m r hd hm
      · exact h2 m r hd hm
    | some y =>
      rw [he2] at h2
      obtain ⟨a, b, c⟩ := h2
      refine ⟨a, (Language.mem_add _ _ _).mpr (.inr b), fun m r hd hm => ?_⟩
      rcases (Language.mem_add _ _ _).mp hm with hm | hm
      · exact absurd hm (h1 m r hd)
      · exact c m r hd hm
  | some x =>
    rw [he] at h1
    simp only [Option.map_some, Option.orElse_some]
    have hl := h1
    obtain ⟨a, b, c⟩ := h1
    refine ⟨a, (Language.mem_add _ _ _).mpr (.inl b), fun m r hd hm => ?_⟩
    rcases (Language.mem_add _ _ _).mp hm with hm | hm
    · exact c m r hd hm
    · exact hb d _ _ hl m r hd hm

theorem lines_cons {cs : List Container} {gs : List GLine} {L M : Text} (h : SeqTakes cs L)
    (hn : [] ∉ L) (hg : LinesTakes gs M) (hb : Before L M) :
    LinesTakes (.mk cs :: gs) (L + M) :=
  lines_cons_general h hn hg (fun d u r hl v s hd hv => hb u hl.2.1 v hv r s (by rw [← hl.1, hd]))

theorem before_zero {L : Text} : Before L 0 := fun _ _ v hv => absurd hv (Language.notMem_zero v)

/-- Texts that start differently. -/
theorem before_opens {L M : Text} {A B : UInt8 → Bool} (h : Opens L A) (hn : [] ∉ L)
    (h' : Opens M B) (hd : ∀ b, A b = true → B b = false) : Before L M := by
  intro u hu v hv r s he
  cases u with
  | nil => exact absurd hu hn
  | cons a u =>
    cases v with
    | nil => simp
    | cons b v =>
      simp at he
      have h1 := h _ hu a u rfl
      have h2 := h' _ hv b v rfl
      rw [he.1] at h1
      rw [hd b h1] at h2
      exact absurd h2 (by simp)

theorem Before.add {L M N : Text} (h : Before L M) (h' : Before L N) : Before L (M + N) := by
  intro u hu v hv
  rcases (Language.mem_add _ _ _).mp hv with hv | hv
  · exact h u hu v hv
  · exact h' u hu v hv

/-! ## Repetition -/

theorem tok_shrinks {t : Token} {L : Text} (h : TokTakes t L) (hn : [] ∉ L) (d : Bytes)
    (x : Shape × Bytes) (hx : pegToken id t d = some x) : x.2.length < d.length := by
  have := h d
  rw [hx] at this
  obtain ⟨h1, h2, _⟩ := this
  rw [h1, List.length_append]
  have : (view x).1 ≠ [] := fun e => hn (e ▸ h2)
  have := List.length_pos_iff.mpr this
  simp only [view] at *
  omega

theorem many_opt {t : Token} {L : Text} (h : TokTakes t L) :
    ManyTakes t 0 (some 1) (optional L) := by
  intro d
  have h1 := h d
  have hr : greedy (pegToken id t) 0 (some 1) d =
      match pegToken id t d with
      | none => some ([], d)
      | some x => some ([x.1], x.2) := by
    have h2 : ∀ k d, repeatMatch (pegToken id t) (some 1) k (0 + 1) d = ([], d) := by
      intro k d
      cases k with
      | zero => rfl
      | succ k => rw [repeatMatch]; simp
    cases d with
    | nil => simp [greedy, repeatMatch, pegToken_nil]
    | cons b r =>
      unfold greedy
      simp only [List.length_cons]
      rw [repeatMatch, if_neg (by simp)]
      cases pegToken id t (b :: r) with
      | none => simp
      | some x => simp [h2]
  rw [hr]
  cases he : pegToken id t d with
  | none =>
    rw [he] at h1
    refine ⟨rfl, (Language.mem_add _ _ _).mpr (.inl Language.nil_mem_one), fun m r hd hm => ?_⟩
    rcases (Language.mem_add _ _ _).mp hm with hm | hm
    · rw [Language.mem_one] at hm; simp [hm]
    · exact absurd hm (h1 m r hd)
  | some x =>
    rw [he] at h1
    obtain ⟨a, b, c⟩ := h1
    have hv : shapesBytes [x.1] = (view x).1 := by simp [shapesBytes, view]
    refine ⟨?_, (Language.mem_add _ _ _).mpr (.inr ?_), fun m r hd hm => ?_⟩
    · simp only [hv]; exact a
    · simp only [hv]; exact b
    · simp only [hv]
      rcases (Language.mem_add _ _ _).mp hm with hm | hm
      · rw [Language.mem_one] at hm; simp [hm]
      · exact c m r hd hm

theorem mem_star_cons {L : Text} {u v : Bytes} (hu : u ∈ L) (hv : v ∈ L∗) : u ++ v ∈ L∗ := by
  obtain ⟨ws, rfl, hws⟩ := Language.mem_kstar.mp hv
  exact Language.mem_kstar.mpr ⟨u :: ws, by simp, fun y hy => by
    rcases List.mem_cons.mp hy with rfl | hy
    · exact hu
    · exact hws y hy⟩

theorem nil_star {L : Text} : [] ∈ L∗ := Language.mem_kstar.mpr ⟨[], rfl, by simp⟩

theorem star_split {L : Text} {w : Bytes} (hw : w ∈ L∗) :
    w = [] ∨ ∃ u v, w = u ++ v ∧ u ∈ L ∧ v ∈ L∗ := by
  obtain ⟨ws, rfl, hws⟩ := Language.mem_kstar.mp hw
  cases ws with
  | nil => exact .inl rfl
  | cons u ws =>
    exact .inr ⟨u, ws.flatten, by simp, hws u (by simp),
      Language.mem_kstar.mpr ⟨ws, rfl, fun y hy => hws y (by simp [hy])⟩⟩

/-- Taking the longest text first loses nothing. -/
def Munch (L : Text) : Prop :=
  ∀ d u' r', Longest L d u' r' → ∀ u ∈ L, ∀ w ∈ L∗, ∀ s, d = u ++ w ++ s →
    (u ++ w).length ≤ u'.length ∨ ∃ w' ∈ L∗, u ++ w = u' ++ w'

theorem munch_of_sep {L : Text} (h : Sep L L∗) : Munch L := by
  intro d u' r' hl u hu w hw s hd
  by_cases hw0 : w = []
  · subst hw0
    left
    simpa using hl.2.2 u s (by simpa using hd) hu
  · right
    have h1 := h u hu w hw hw0 s u' r' (by rw [← hd, hl.1]) hl.2.1
    have h2 := hl.2.2 u (w ++ s) (by rw [hd, List.append_assoc]) hu
    have he : u ++ (w ++ s) = u' ++ r' := by rw [← List.append_assoc, ← hd, hl.1]
    exact ⟨w, hw, by rw [(List.append_inj he (by omega)).1]⟩

theorem repeat_takes {t : Token} {L : Text} (h : TokTakes t L) (hn : [] ∉ L) (hm : Munch L)
    (k n : Nat) (d : Bytes) (hk : d.length ≤ k) :
    Longest L∗ d (shapesBytes (repeatMatch (pegToken id t) none k n d).1)
      (repeatMatch (pegToken id t) none k n d).2 := by
  induction k generalizing n d with
  | zero =>
    have : d = [] := List.length_eq_zero_iff.mp (by omega)
    subst this
    exact ⟨rfl, nil_star, fun m r hd _ => by
      have := congrArg List.length hd; simp at this; omega⟩
  | succ k ih =>
    rw [repeatMatch]
    by_cases hd0 : d = []
    · subst hd0
      rw [if_pos (Or.inl rfl)]
      exact ⟨rfl, nil_star, fun m r hd _ => by
        have := congrArg List.length hd; simp at this; omega⟩
    · rw [if_neg (by simp [hd0])]
      have h1 := h d
      cases he : pegToken id t d with
      | none =>
        rw [he] at h1
        refine ⟨rfl, nil_star, fun m r hd hm' => ?_⟩
        rcases star_split hm' with rfl | ⟨u, v, rfl, hu, _⟩
        · simp
        · exact absurd hu (h1 u (v ++ r) (by rw [hd, List.append_assoc]))
      | some x =>
        have hlt := tok_shrinks h hn d x he
        rw [he] at h1
        obtain ⟨i1, i2, i3⟩ := ih (n + 1) x.2 (by omega)
        have h1' : Longest L d (view x).1 (view x).2 := h1
        obtain ⟨a, b, c⟩ := h1
        simp only [shapesBytes]
        simp only [view] at a b c h1'
        refine ⟨?_, mem_star_cons b i2, fun m r hd hm' => ?_⟩
        · rw [List.append_assoc, ← i1]; exact a
        · rcases star_split hm' with rfl | ⟨u, v, rfl, hu, hv⟩
          · simp
          · rcases hm d _ _ h1' u hu v hv r hd with hle | ⟨w', hw', hww⟩
            · simp only [List.length_append] at hle ⊢
              omega
            · rw [hww] at hd ⊢
              rw [a, List.append_assoc] at hd
              have := i3 w' r (List.append_cancel_left hd) hw'
              simp only [List.length_append]
              omega

theorem many_star {t : Token} {L : Text} (h : TokTakes t L) (hn : [] ∉ L) (hm : Munch L) :
    ManyTakes t 0 none L∗ := by
  intro d
  have := repeat_takes h hn hm d.length 0 d (Nat.le_refl _)
  have he : greedy (pegToken id t) 0 none d =
      some (repeatMatch (pegToken id t) none d.length 0 d) := by simp [greedy]
  rw [he]
  exact this

theorem some1_of_star {L : Text} {w : Bytes} (hw : w ∈ L∗) (h : w ≠ []) :
    w ∈ some1 L := by
  rcases star_split hw with rfl | ⟨u, v, rfl, hu, hv⟩
  · exact absurd rfl h
  · exact Language.mem_mul.mpr ⟨u, hu, v, hv, rfl⟩

theorem star_of_some1 {L : Text} {w : Bytes} (hw : w ∈ some1 L) : w ∈ L∗ := by
  obtain ⟨u, hu, v, hv, rfl⟩ := Language.mem_mul.mp hw
  exact mem_star_cons hu hv

theorem shapes_nil_iff {t : Token} {L : Text} (h : TokTakes t L) (hn : [] ∉ L) (d : Bytes) :
    (repeatMatch (pegToken id t) none d.length 0 d).1 = [] ↔
      shapesBytes (repeatMatch (pegToken id t) none d.length 0 d).1 = [] := by
  constructor
  · intro e; rw [e]; rfl
  · intro e
    cases d with
    | nil => rfl
    | cons b r =>
      revert e
      rw [List.length_cons, repeatMatch, if_neg (by simp)]
      cases he : pegToken id t (b :: r) with
      | none => simp
      | some x =>
        have h1 := h (b :: r)
        rw [he] at h1
        intro e
        simp only [shapesBytes, List.append_eq_nil_iff] at e
        exact absurd (show [] ∈ L from e.1 ▸ h1.2.1) hn

theorem many_some1 {t : Token} {L : Text} (h : TokTakes t L) (hn : [] ∉ L) (hm : Munch L) :
    ManyTakes t 1 none (some1 L) := by
  intro d
  have h1 := repeat_takes h hn hm d.length 0 d (Nat.le_refl _)
  have h2 := shapes_nil_iff h hn d
  obtain ⟨a, b, c⟩ := h1
  unfold greedy
  by_cases h0 : (repeatMatch (pegToken id t) none d.length 0 d).1 = []
  · rw [h2.mp h0] at c
    simp only [h0, List.length_nil, Nat.zero_lt_one, if_true, Option.map_none]
    intro m r hd hm'
    have := c m r hd (star_of_some1 hm')
    have : m = [] := List.length_eq_zero_iff.mp (by simpa using this)
    subst this
    exact nil_some1 hn hm'
  · have hlen : ¬ (repeatMatch (pegToken id t) none d.length 0 d).1.length < 1 := by
      intro hl
      exact h0 (List.length_eq_zero_iff.mp (by omega))
    simp only [hlen, if_false, Option.map_some]
    exact ⟨a, some1_of_star b (fun e => h0 (h2.mpr e)), fun m r hd hm' =>
      c m r hd (star_of_some1 hm')⟩

end Rodkina.GrammarText
