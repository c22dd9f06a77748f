import Verif.AstLeftMany
import Verif.AstLeftProps4

/-!
# Two or more left-recursive alternatives: inputs that are never refused (C159)
-/

namespace Rodkina.Props

open Rodkina.Ast Rodkina.Ast.Shipped

/-- A rule `name: name t₁ | … | name a | name b | base…`: nothing is assumed of `t₁`, …; the last two tails and the base have no reference by
name, external grammar or escape, and the channels no conditions. -/
structure ManyTails (name : String) (a b : List Container) (base : List GLine) (chs : List Channel) (N : Nat) : Prop where
  ne : base ≠ []
  lines : PegLines [name] base
  first : PegConts [name] a
  second : PegConts [name] b
  names : sameNames (selfRef name :: b)
  channels : ∀ c ∈ chs, PegChannel N c

/-- The tail `a` comes directly after the base, or after the base and one `b`; the base begins at alternative `k`. -/
def TailOccurs (k : Nat) (a b : List Container) (base : List GLine) (sk : Bytes → Bytes) (input : Bytes) : Prop :=
  ∃ i es rest, pegLines sk k base input = some (i, es, rest) ∧
    ((∃ y, pegSeq sk a (sk rest) = some y) ∨ ∃ es' rest', pegSeq sk b (sk rest) = some (es', rest') ∧ ∃ y, pegSeq sk a (sk rest') = some y)

/-- **C159.**  Whatever the other alternatives are, parsing an input that is not empty recurses without end unless the tail of the last but one
left-recursive alternative occurs after the base, or after the base and the last tail. -/
theorem C159_needs_last_but_one (name : String) (pre : List (List Container)) (a b : List Container) (base : List GLine) (chs : List Channel)
    (N : Nat) (h : ManyTails name a b base chs N) (input : Bytes) (hne : input ≠ [])
    (hno : ¬ TailOccurs (pre.length + 2) a b base (skipAll chs) input) :
    Diverges (.mk (leftTokN name (pre ++ [a, b]) base) chs) input := by
  have ok := manyOK (fun m hm => skipIs_channels h.channels hm) h.ne h.lines h.first h.second h.names
  have hk : (pre ++ [a, b]).length = pre.length + 2 := by simp
  intro n
  refine many_root ok input hne pre rfl ?_ ?_ [] n
  · rw [hk]
    cases hp : pegLines (skipAll chs) (pre.length + 2) base input with
    | none => simp [pegBase, hp, thenTail]
    | some z =>
      obtain ⟨i, es, rest⟩ := z
      have h1 : pegSeq (skipAll chs) a (skipAll chs rest) = none :=
        Option.eq_none_iff_forall_ne_some.mpr (fun y hy => hno ⟨i, es, rest, hp, .inl ⟨y, hy⟩⟩)
      cases h2 : pegSeq (skipAll chs) b (skipAll chs rest) with
      | none => simp [pegBase, hp, thenTail, h1, h2]
      | some y =>
        obtain ⟨es', rest'⟩ := y
        have h3 : pegSeq (skipAll chs) a (skipAll chs rest') = none :=
          Option.eq_none_iff_forall_ne_some.mpr (fun y hy => hno ⟨i, es, rest, hp, .inr ⟨es', rest', h2, y, hy⟩⟩)
        simp [pegBase, hp, thenTail, h2, h3]
  · rw [hk]
    cases hp : pegLines (skipAll chs) (pre.length + 2) base input with
    | none => simp [pegBase, hp, thenTail]
    | some z =>
      obtain ⟨i, es, rest⟩ := z
      have h1 : pegSeq (skipAll chs) a (skipAll chs rest) = none :=
        Option.eq_none_iff_forall_ne_some.mpr (fun y hy => hno ⟨i, es, rest, hp, .inl ⟨y, hy⟩⟩)
      simp [pegBase, hp, thenTail, h1]

/-- **C159, malformed inputs.**  With two or more left-recursive alternatives, an input that is not empty and does not begin with the base is
never refused. -/
theorem C159_malformed (name : String) (pre : List (List Container)) (a b : List Container) (base : List GLine) (chs : List Channel)
    (N : Nat) (h : ManyTails name a b base chs N) (input : Bytes) (hne : input ≠ [])
    (hp : pegLines (skipAll chs) (pre.length + 2) base input = none) :
    ¬ Rejects (.mk (leftTokN name (pre ++ [a, b]) base) chs) input ∧ ∀ o, ¬ Parses (.mk (leftTokN name (pre ++ [a, b]) base) chs) input o := by
  have hd := C159_needs_last_but_one name pre a b base chs N h input hne (by
    rintro ⟨i, es, rest, h1, _⟩
    rw [hp] at h1
    exact absurd h1 (by simp))
  refine ⟨?_, ?_⟩
  · rintro (⟨_, n, hn⟩ | ⟨t, ⟨_, n, hn⟩, _⟩)
    · rw [hd n] at hn; exact absurd hn (by simp)
    · rw [hd n] at hn; exact absurd hn (by simp)
  · rintro o ⟨ho, n, hn⟩
    rw [hd n] at hn
    subst hn
    exact absurd ho (by simp [Out.defined])

/-- `E: E '*' E | E '+' N | E '-' N | N` with blanks. -/
theorem ones_manyTails : ManyTails "E" [byteC 43, .element 1 (some 1) (.token onesTok)] [byteC 45, .element 1 (some 1) (.token onesTok)]
    [.mk [.element 1 (some 1) (.token onesTok)]] [blankCh] 2 :=
  ⟨ones_twoTails.ne, ones_twoTails.lines, ones_twoTails.first, ones_twoTails.second, ones_twoTails.names2, ones_twoTails.channels⟩

/-- `11 - 1`, `1*1`, `11` and `+` never end. -/
example : ∀ d ∈ ([[49, 49, 32, 45, 32, 49], [49, 42, 49], [49, 49], [43]] : List Bytes),
    Diverges (.mk (leftTokN "E" ([[byteC 42, .element 1 (some 1) (.recursive "E")]] ++
      [[byteC 43, .element 1 (some 1) (.token onesTok)], [byteC 45, .element 1 (some 1) (.token onesTok)]])
      [.mk [.element 1 (some 1) (.token onesTok)]]) [blankCh]) d := by
  have key : ∀ d ∈ ([[49, 49, 32, 45, 32, 49], [49, 42, 49], [49, 49], [43]] : List Bytes),
      (pegLines (skipAll [blankCh]) 3 [.mk [.element 1 (some 1) (.token onesTok)]] d).all (fun z =>
        (pegSeq (skipAll [blankCh]) [byteC 43, .element 1 (some 1) (.token onesTok)] (skipAll [blankCh] z.2.2)).isNone &&
        (pegSeq (skipAll [blankCh]) [byteC 45, .element 1 (some 1) (.token onesTok)] (skipAll [blankCh] z.2.2)).all (fun y =>
          (pegSeq (skipAll [blankCh]) [byteC 43, .element 1 (some 1) (.token onesTok)] (skipAll [blankCh] y.2)).isNone)) = true := by
    decide +kernel
  intro d hd
  refine C159_needs_last_but_one "E" [_] _ _ _ _ 2 ones_manyTails d (by rintro rfl; simp at hd) ?_
  have hk := key d hd
  rintro ⟨i, es, rest, hp, ⟨y, hy⟩ | ⟨es', rest', h2, y, hy⟩⟩
  · rw [show pegLines (skipAll [blankCh]) 3 _ d = _ from hp] at hk
    simp [hy] at hk
  · rw [show pegLines (skipAll [blankCh]) 3 _ d = _ from hp] at hk
    simp [h2, hy] at hk

/-- `+` is not refused. -/
example : ¬ Rejects (.mk (leftTokN "E" ([[byteC 42, .element 1 (some 1) (.recursive "E")]] ++
      [[byteC 43, .element 1 (some 1) (.token onesTok)], [byteC 45, .element 1 (some 1) (.token onesTok)]])
      [.mk [.element 1 (some 1) (.token onesTok)]]) [blankCh]) [43] :=
  (C159_malformed "E" [_] _ _ _ _ 2 ones_manyTails [43] (by simp) (Option.isNone_iff_eq_none.mp (by decide +kernel))).1

end Rodkina.Props
