import Verif.AstLeftTwoRun
import Verif.AstLeftProps3

/-!
# Two left-recursive alternatives end only when the first tail occurs (C158)
-/

namespace Rodkina.Props

open Rodkina.Ast Rodkina.Ast.Shipped

/-- A rule `name: name t1 | name t2 | base…` whose parts have no reference by name, external grammar or escape, with channels without
conditions. -/
structure TwoTails (name : String) (t1 t2 : List Container) (base : List GLine) (chs : List Channel) (N : Nat) : Prop where
  ne : base ≠ []
  lines : PegLines [name] base
  first : PegConts [name] t1
  second : PegConts [name] t2
  names1 : sameNames (selfRef name :: t1)
  names2 : sameNames (selfRef name :: t2)
  channels : ∀ c ∈ chs, PegChannel N c

/-- The first tail comes directly after the base, or after the base and one second tail. -/
def FirstTailOccurs (t1 t2 : List Container) (base : List GLine) (sk : Bytes → Bytes) (input : Bytes) : Prop :=
  ∃ i es rest, pegLines sk 2 base input = some (i, es, rest) ∧
    ((∃ y, pegSeq sk t1 (sk rest) = some y) ∨ ∃ es' rest', pegSeq sk t2 (sk rest) = some (es', rest') ∧ ∃ y, pegSeq sk t1 (sk rest') = some y)

/-- **C158, when it ends.**  On an input that is not empty, parsing ends exactly when the first tail occurs after the base, or after the base
and one second tail; otherwise, malformed inputs and the base alone among them, it recurses without end. -/
theorem C158_ends_iff (name : String) (t1 t2 : List Container) (base : List GLine) (chs : List Channel) (N : Nat)
    (h : TwoTails name t1 t2 base chs N) (input : Bytes) (hne : input ≠ []) :
    Diverges (.mk (leftTok2 name t1 t2 base) chs) input ↔ ¬ FirstTailOccurs t1 t2 base (skipAll chs) input := by
  have ok := twoOK (fun m hm => skipIs_channels h.channels hm) h.ne h.lines h.first h.second h.names1 h.names2
  have hnd : ∀ {r}, Agrees (.mk (leftTok2 name t1 t2 base) chs) input r → ¬ Diverges (.mk (leftTok2 name t1 t2 base) chs) input := by
    intro r ha hd
    cases r with
    | none =>
      rcases ha with ⟨_, n, hn⟩ | ⟨t, ⟨_, n, hn⟩, _⟩
      · rw [hd n] at hn; exact absurd hn (by simp)
      · rw [hd n] at hn; exact absurd hn (by simp)
    | some x =>
      obtain ⟨t, ⟨_, n, hn⟩, _⟩ := ha
      rw [hd n] at hn; exact absurd hn (by simp)
  have hocc : (∃ x, thenTail (skipAll chs) name 0 t1 ((thenTail (skipAll chs) name 1 t2 (pegBase (skipAll chs) name 2 base input)).or
      (pegBase (skipAll chs) name 2 base input)) = some x) ∨ (∃ w, thenTail (skipAll chs) name 0 t1 (pegBase (skipAll chs) name 2 base input) = some w) ↔
      FirstTailOccurs t1 t2 base (skipAll chs) input := by
    unfold FirstTailOccurs pegBase
    cases hp : pegLines (skipAll chs) 2 base input with
    | none => simp [thenTail]
    | some z =>
      obtain ⟨i, es, rest⟩ := z
      cases h2 : pegSeq (skipAll chs) t2 (skipAll chs rest) with
      | none => simp [thenTail, h2]
      | some y =>
        obtain ⟨es', rest'⟩ := y
        simp [thenTail, h2]
        exact or_comm
  constructor
  · intro hd hf
    rcases hocc.mpr hf with ⟨x, hx⟩ | ⟨w, hw⟩
    · exact hnd (agrees_of_found (two_root_first ok (Nat.le_refl _) [] input hne hx)) hd
    · cases hx : thenTail (skipAll chs) name 0 t1 ((thenTail (skipAll chs) name 1 t2 (pegBase (skipAll chs) name 2 base input)).or
          (pegBase (skipAll chs) name 2 base input)) with
      | some x => exact hnd (agrees_of_found (two_root_first ok (Nat.le_refl _) [] input hne hx)) hd
      | none => exact hnd (agrees_of_found (two_root_second ok (Nat.le_refl _) [] input hne hx hw)) hd
  · intro hf n
    have hx := Option.eq_none_iff_forall_ne_some.mpr (fun x hx => hf (hocc.mp (.inl ⟨x, hx⟩)))
    have hw := Option.eq_none_iff_forall_ne_some.mpr (fun w hw => hf (hocc.mp (.inr ⟨w, hw⟩)))
    exact two_root_oof ok [] input hne hx hw n

/-- **C158, what is read.**  When the base is followed by a second tail and a first tail, both are read; when it is followed by a first tail
and no second one, that is read; when by a second tail that no first one follows and also by a first tail, then the first tail and a second
one after it, if there is one, else the base alone. -/
theorem C158_reads (name : String) (t1 t2 : List Container) (base : List GLine) (chs : List Channel) (N : Nat)
    (h : TwoTails name t1 t2 base chs N) (input : Bytes) (i : Nat) (es : List ShapeElem) (rest : Bytes)
    (hp : pegLines (skipAll chs) 2 base input = some (i, es, rest)) :
    (∀ e2 r2 e1 r1, pegSeq (skipAll chs) t2 (skipAll chs rest) = some (e2, r2) → pegSeq (skipAll chs) t1 (skipAll chs r2) = some (e1, r1) →
      Agrees (.mk (leftTok2 name t1 t2 base) chs) input
        (some (.node name 0 (.mk name [.node name 1 (.mk name [.node name i es] :: e2)] :: e1), skipAll chs r1))) ∧
    (∀ e1 r1, pegSeq (skipAll chs) t2 (skipAll chs rest) = none → pegSeq (skipAll chs) t1 (skipAll chs rest) = some (e1, r1) →
      Agrees (.mk (leftTok2 name t1 t2 base) chs) input (some (.node name 0 (.mk name [.node name i es] :: e1), skipAll chs r1))) ∧
    (∀ e2 r2 e1 r1, pegSeq (skipAll chs) t2 (skipAll chs rest) = some (e2, r2) → pegSeq (skipAll chs) t1 (skipAll chs r2) = none →
      pegSeq (skipAll chs) t1 (skipAll chs rest) = some (e1, r1) →
      (∀ e r, pegSeq (skipAll chs) t2 (skipAll chs r1) = some (e, r) → Agrees (.mk (leftTok2 name t1 t2 base) chs) input
        (some (.node name 1 (.mk name [.node name 0 (.mk name [.node name i es] :: e1)] :: e), skipAll chs r))) ∧
      (pegSeq (skipAll chs) t2 (skipAll chs r1) = none →
        Agrees (.mk (leftTok2 name t1 t2 base) chs) input (some (.node name i es, skipAll chs rest)))) := by
  have ok := twoOK (fun m hm => skipIs_channels h.channels hm) h.ne h.lines h.first h.second h.names1 h.names2
  have hne : input ≠ [] := by
    rintro rfl
    rw [pegLines_nil] at hp
    exact absurd hp (by simp)
  have hbase : pegBase (skipAll chs) name 2 base input = some (.node name i es, skipAll chs rest) := by simp [pegBase, hp]
  refine ⟨?_, ?_, ?_⟩
  · intro e2 r2 e1 r1 h2 h1
    exact agrees_of_found (two_root_first ok (Nat.le_refl _) [] input hne (by simp [thenTail, hbase, h2, h1]))
  · intro e1 r1 h2 h1
    exact agrees_of_found (two_root_first ok (Nat.le_refl _) [] input hne (by simp [thenTail, hbase, h2, h1]))
  · intro e2 r2 e1 r1 h2 h21 h1
    have hs := agrees_of_found (g := .mk (leftTok2 name t1 t2 base) chs) (two_root_second ok (Nat.le_refl _) [] input hne
      (w := (.node name 0 (.mk name [.node name i es] :: e1), skipAll chs r1)) (by simp [thenTail, hbase, h2, h21]) (by simp [thenTail, hbase, h1]))
    constructor
    · intro e r he
      simpa [thenTail, he] using hs
    · intro he
      simpa [thenTail, he, hbase] using hs

/-- **C158, malformed inputs.**  An input that is not empty and does not begin with the base is not refused: parsing never ends.  The empty
input is refused. -/
theorem C158_malformed (name : String) (t1 t2 : List Container) (base : List GLine) (chs : List Channel) (N : Nat)
    (h : TwoTails name t1 t2 base chs N) (input : Bytes) :
    (input ≠ [] → pegLines (skipAll chs) 2 base input = none → Diverges (.mk (leftTok2 name t1 t2 base) chs) input) ∧
    Rejects (.mk (leftTok2 name t1 t2 base) chs) [] := by
  refine ⟨fun hne hp => (C158_ends_iff name t1 t2 base chs N h input hne).mpr ?_, ?_⟩
  · rintro ⟨i, es, rest, h1, _⟩
    rw [hp] at h1
    exact absurd h1 (by simp)
  · have ok := twoOK (fun m hm => skipIs_channels h.channels hm) h.ne h.lines h.first h.second h.names1 h.names2
    exact agrees_of_found (g := .mk (leftTok2 name t1 t2 base) chs) (r := none) (two_root_nil ok (Nat.le_refl _) [])

/-- `E: E '+' N | E '-' N | N` with blanks. -/
theorem ones_twoTails : TwoTails "E" [byteC 43, .element 1 (some 1) (.token onesTok)] [byteC 45, .element 1 (some 1) (.token onesTok)]
    [.mk [.element 1 (some 1) (.token onesTok)]] [blankCh] 2 :=
  ⟨by simp, plusOnes_base, plusOnes_tail,
    by simp [onesTok, byteC, PegTok, PegLines, PegLine, PegConts, PegCont, PegContent, sameNames, Container.min],
    plusOnes_names, by simp [sameNames, byteC, Container.min], plusOnes_channels⟩

/-- `11 - 1`, `11` and `+` never end. -/
example : ∀ d ∈ ([[49, 49, 32, 45, 32, 49], [49, 49], [43]] : List Bytes),
    Diverges (.mk (leftTok2 "E" [byteC 43, .element 1 (some 1) (.token onesTok)] [byteC 45, .element 1 (some 1) (.token onesTok)]
      [.mk [.element 1 (some 1) (.token onesTok)]]) [blankCh]) d := by
  have key : ∀ d ∈ ([[49, 49, 32, 45, 32, 49], [49, 49], [43]] : List Bytes),
      (pegLines (skipAll [blankCh]) 2 [.mk [.element 1 (some 1) (.token onesTok)]] d).all (fun z =>
        (pegSeq (skipAll [blankCh]) [byteC 43, .element 1 (some 1) (.token onesTok)] (skipAll [blankCh] z.2.2)).isNone &&
        (pegSeq (skipAll [blankCh]) [byteC 45, .element 1 (some 1) (.token onesTok)] (skipAll [blankCh] z.2.2)).all (fun y =>
          (pegSeq (skipAll [blankCh]) [byteC 43, .element 1 (some 1) (.token onesTok)] (skipAll [blankCh] y.2)).isNone)) = true := by
    decide +kernel
  intro d hd
  refine (C158_ends_iff "E" _ _ _ _ 2 ones_twoTails d (by rintro rfl; simp at hd)).mpr ?_
  have hk := key d hd
  rintro ⟨i, es, rest, hp, ⟨y, hy⟩ | ⟨es', rest', h2, y, hy⟩⟩
  · rw [hp] at hk
    simp [hy] at hk
  · rw [hp] at hk
    simp [h2, hy] at hk

/-- `1-1+1` is read whole, by the first alternative. -/
example : ∃ x, Agrees (.mk (leftTok2 "E" [byteC 43, .element 1 (some 1) (.token onesTok)] [byteC 45, .element 1 (some 1) (.token onesTok)]
      [.mk [.element 1 (some 1) (.token onesTok)]]) [blankCh]) [49, 45, 49, 43, 49] (some x) ∧ altOf x.1 = 0 ∧ x.2 = [] := by
  obtain ⟨⟨i, es, rest⟩, hp⟩ := Option.isSome_iff_exists.mp (show (pegLines (skipAll [blankCh]) 2 [.mk [.element 1 (some 1) (.token onesTok)]]
    [49, 45, 49, 43, 49]).isSome = true by decide +kernel)
  have hr : rest = [45, 49, 43, 49] := by
    have : (pegLines (skipAll [blankCh]) 2 [.mk [.element 1 (some 1) (.token onesTok)]] [49, 45, 49, 43, 49]).map (fun z => z.2.2)
      = some [45, 49, 43, 49] := by decide +kernel
    rw [hp] at this
    simpa using this
  subst hr
  obtain ⟨⟨e2, r2⟩, h2⟩ := Option.isSome_iff_exists.mp (show (pegSeq (skipAll [blankCh]) [byteC 45, .element 1 (some 1) (.token onesTok)]
    (skipAll [blankCh] [45, 49, 43, 49])).isSome = true by decide +kernel)
  have hr2 : r2 = [43, 49] := by
    have : (pegSeq (skipAll [blankCh]) [byteC 45, .element 1 (some 1) (.token onesTok)] (skipAll [blankCh] [45, 49, 43, 49])).map (fun z => z.2)
      = some [43, 49] := by decide +kernel
    rw [h2] at this
    simpa using this
  subst hr2
  obtain ⟨⟨e1, r1⟩, h1⟩ := Option.isSome_iff_exists.mp (show (pegSeq (skipAll [blankCh]) [byteC 43, .element 1 (some 1) (.token onesTok)]
    (skipAll [blankCh] [43, 49])).isSome = true by decide +kernel)
  have hr1 : r1 = [] := by
    have : (pegSeq (skipAll [blankCh]) [byteC 43, .element 1 (some 1) (.token onesTok)] (skipAll [blankCh] [43, 49])).map (fun z => z.2)
      = some [] := by decide +kernel
    rw [h1] at this
    simpa using this
  subst hr1
  exact ⟨_, (C158_reads "E" _ _ _ _ 2 ones_twoTails [49, 45, 49, 43, 49] i es _ hp).1 e2 _ e1 [] h2 h1, rfl, show skipAll [blankCh] [] = [] by decide +kernel⟩

/-- The hypotheses of the part on malformed inputs hold of `+`. -/
example : Diverges (.mk (leftTok2 "E" [byteC 43, .element 1 (some 1) (.token onesTok)] [byteC 45, .element 1 (some 1) (.token onesTok)]
      [.mk [.element 1 (some 1) (.token onesTok)]]) [blankCh]) [43] :=
  (C158_malformed "E" _ _ _ _ 2 ones_twoTails [43]).1 (by simp) (Option.isNone_iff_eq_none.mp (by decide +kernel))

end Rodkina.Props
