import Verif.AstRef4
import Verif.AstProps2

/-!
# When parsing returns a tree without success (C83, exactly)
-/

namespace Rodkina.Ast

/-- The alternative `l` of the root as a grammar of its own, with the same channels (libs/asts/domain/grammars/grammar.go:3-46). -/
def alone (g : Grammar) (l : GLine) : Grammar := .mk (.mk g.root.name [l] []) g.channels

/-- Parsing returns, without error, a tree that is not successful. -/
def Hollow (g : Grammar) (input : Bytes) : Prop := ∃ t, Parses g input (.ok t) ∧ t.isSuccessful = false

open Rodkina.Ast.Shipped

theorem hollow_iff {g : Grammar} {d : Bytes} {r : Ans (Shape × Bytes)} (h : AgreesR g d r) : Hollow g d ↔ r = .blank := by
  constructor
  · rintro ⟨t, ht, hs⟩
    cases r with
    | blank => rfl
    | found x =>
      obtain ⟨u, hu, hus, _⟩ := h
      have := ht.unique hu
      simp only [Out.ok.injEq] at this
      subst this
      rw [hus] at hs
      exact absurd hs (by simp)
    | refused => exact absurd (ht.unique h) (by simp)
    | crash => exact absurd (ht.unique h) (by simp)
  · rintro rfl
    exact h

theorem rejects_iff_ans {g : Grammar} {d : Bytes} {r : Ans (Shape × Bytes)} (h : AgreesR g d r) :
    Rejects g d ↔ r = .blank ∨ r = .refused := by
  constructor
  · intro hr
    cases r with
    | blank => exact .inl rfl
    | refused => exact .inr rfl
    | found x => exact absurd hr (AgreesR.succeeds h).not_rejects
    | crash =>
      rcases hr with hr | ⟨t, hr, _⟩
      · exact absurd (hr.unique h) (by simp)
      · exact absurd (hr.unique h) (by simp)
  · exact h.rejects

theorem firstOf_blank (fs : List (Matcher (List ShapeElem))) (i : Nat) (p d : Bytes) :
    firstOf fs i p d = .blank ↔ (∀ f ∈ fs, f p d = .blank ∨ f p d = .refused) ∧ ∃ f ∈ fs, f p d = .blank := by
  have hr : ∀ (fs : List (Matcher (List ShapeElem))) (i : Nat), firstOf fs i p d = .refused ↔ ∀ f ∈ fs, f p d = .refused := by
    intro fs
    induction fs with
    | nil => intro i; simp [firstOf]
    | cons f fs ih =>
      intro i
      unfold firstOf
      cases hf : f p d with
      | found x => simp [hf]
      | crash => simp [hf]
      | refused => simp [hf, ih]
      | blank =>
        simp only [List.mem_cons, forall_eq_or_imp, hf]
        cases hq : firstOf fs (i + 1) p d <;> simp
  induction fs generalizing i with
  | nil => simp [firstOf]
  | cons f fs ih =>
    unfold firstOf
    cases hf : f p d with
    | found x => simp [hf]
    | crash => simp [hf]
    | refused => simp [hf, ih]
    | blank =>
      simp only [List.mem_cons, forall_eq_or_imp, exists_eq_or_imp, hf, true_or, true_and, and_true]
      cases hq : firstOf fs (i + 1) p d with
      | refused =>
        simp only [true_iff]
        exact fun g hg => .inr ((hr fs (i + 1)).mp hq g hg)
      | blank =>
        simp only [true_iff]
        exact ((ih (i + 1)).mp hq).1
      | found x =>
        simp only [reduceCtorEq, false_iff]
        intro hall
        by_cases hb : ∃ g ∈ fs, g p d = .blank
        · rw [(ih (i + 1)).mpr ⟨hall, hb⟩] at hq
          exact absurd hq (by simp)
        · have := (hr fs (i + 1)).mpr (fun g hg => (hall g hg).resolve_left (fun e => hb ⟨g, hg, e⟩))
          rw [this] at hq
          exact absurd hq (by simp)
      | crash =>
        simp only [reduceCtorEq, false_iff]
        intro hall
        by_cases hb : ∃ g ∈ fs, g p d = .blank
        · rw [(ih (i + 1)).mpr ⟨hall, hb⟩] at hq
          exact absurd hq (by simp)
        · have := (hr fs (i + 1)).mpr (fun g hg => (hall g hg).resolve_left (fun e => hb ⟨g, hg, e⟩))
          rw [this] at hq
          exact absurd hq (by simp)

/-- No occurrence of an element. -/
theorem timesOf_none {α : Type} (f : Matcher α) (min : Nat) (max : Option Nat) (p d : Bytes) (a b : Bytes) :
    timesOf f min max p d = .found ([], a, b) ↔
      min = 0 ∧ a = p ∧ b = d ∧ (d = [] ∨ max = some 0 ∨ f p d = .blank ∨ f p d = .refused) := by
  have key : manyOf f max d.length 0 p d = .found ([], a, b) ↔ a = p ∧ b = d ∧ (d = [] ∨ max = some 0 ∨ f p d = .blank ∨ f p d = .refused) := by
    cases d with
    | nil => simp [manyOf, eq_comm]
    | cons c r =>
      rw [List.length_cons, manyOf]
      by_cases hm : max = some 0
      · simp [hm, eq_comm]
      · simp only [hm, or_false, reduceCtorEq, if_false, false_or]
        cases hf : f p (c :: r) with
        | found x =>
          simp only [reduceCtorEq, or_self, and_false, iff_false]
          cases manyOf f max r.length (0 + 1) (c :: r) x.2 <;> simp [Ans.map]
        | crash => simp
        | blank => simp [eq_comm]
        | refused => simp [eq_comm]
  unfold timesOf
  rcases manyOf_cases f max d.length 0 p d with ⟨x, hx⟩ | hx
  · rw [hx] at key ⊢
    obtain ⟨x1, x2, x3⟩ := x
    simp only [Ans.bind]
    split
    · rename_i hlt
      simp only [reduceCtorEq, false_iff, not_and]
      intro h0
      omega
    · rename_i hlt
      rw [key]
      constructor
      · intro h
        have : x1 = [] := by
          have := key.mpr h
          simp only [Ans.found.injEq, Prod.mk.injEq] at this
          exact this.1
        subst this
        exact ⟨by simp at hlt; exact hlt, h⟩
      · exact fun h => h.2
  · rw [hx] at key ⊢
    simp only [Ans.bind, reduceCtorEq, false_iff]
    intro h
    exact absurd (key.mpr h.2) (by simp)

theorem consElem_isEmpty (name : String) (xs : List Shape) (es : List ShapeElem) : consElem name xs es = [] ↔ xs = [] ∧ es = [] := by
  unfold consElem
  cases xs <;> simp

theorem refSeq_none (m : Mode) (cs : List Container) (p d : Bytes) : (∃ r, refSeq m cs p d = .found ([], r)) ↔
    ∀ c ∈ cs, ∃ max ct, c = .element 0 max ct ∧
      (d = [] ∨ max = some 0 ∨ refContent m ct p d = .blank ∨ refContent m ct p d = .refused) := by
  induction cs with
  | nil => simp [refSeq]
  | cons c cs ih =>
    rw [refSeq]
    simp only [List.mem_cons, forall_eq_or_imp, ← ih]
    constructor
    · rintro ⟨r, hr⟩
      cases hc : refContainer m c p d with
      | found x =>
        obtain ⟨x1, x2, x3⟩ := x
        rw [hc] at hr
        simp only [Ans.bind] at hr
        cases hq : refSeq m cs x2 x3 with
        | found y =>
          rw [hq] at hr
          simp only [Ans.map, Ans.found.injEq, Prod.mk.injEq, consElem_isEmpty] at hr
          obtain ⟨⟨h1, h2⟩, h3⟩ := hr
          subst h1
          cases c with
          | compose k => simp [refContainer] at hc
          | element min max ct =>
            rw [refContainer, timesOf_none] at hc
            obtain ⟨rfl, rfl, rfl, h⟩ := hc
            exact ⟨⟨max, ct, rfl, h⟩, y.2, by rw [hq, ← h2]⟩
        | blank => rw [hq] at hr; simp [Ans.map] at hr
        | refused => rw [hq] at hr; simp [Ans.map] at hr
        | crash => rw [hq] at hr; simp [Ans.map] at hr
      | blank => rw [hc] at hr; simp [Ans.bind] at hr
      | refused => rw [hc] at hr; simp [Ans.bind] at hr
      | crash => rw [hc] at hr; simp [Ans.bind] at hr
    · rintro ⟨⟨max, ct, rfl, h⟩, r, hr⟩
      have := (timesOf_none (refContent m ct) 0 max p d p d).mpr ⟨rfl, rfl, rfl, h⟩
      exact ⟨r, by rw [refContainer, this]; simp [Ans.bind, hr, Ans.map, consElem]⟩

theorem refSeq_not_blank (m : Mode) (cs : List Container) (p d : Bytes) : refSeq m cs p d ≠ .blank := by
  induction cs generalizing p d with
  | nil => simp [refSeq]
  | cons c cs ih =>
    rw [refSeq]
    have hc : refContainer m c p d ≠ .blank := by
      cases c with
      | compose k => simp [refContainer]
      | element min max ct =>
        rw [refContainer, timesOf]
        rcases manyOf_cases (refContent m ct) max d.length 0 p d with ⟨x, hx⟩ | hx
        · rw [hx]
          simp only [Ans.bind]
          split <;> simp
        · rw [hx]; simp [Ans.bind]
    beta_reduce
    cases hx : refContainer m c p d with
    | blank => exact absurd hx hc
    | refused => simp [Ans.bind]
    | crash => simp [Ans.bind]
    | found x =>
      simp only [Ans.bind]
      have := ih x.2.1 x.2.2
      cases hq : refSeq m cs x.2.1 x.2.2 with
      | blank => exact absurd hq this
      | _ => simp [Ans.map]

theorem refLine_blank (m : Mode) (cs : List Container) (p d : Bytes) :
    refLine m (.mk cs) p d = .blank ↔ ∃ r, refSeq m cs p d = .found ([], r) := by
  rw [refLine]
  beta_reduce
  cases hq : refSeq m cs p d with
  | blank => exact absurd hq (refSeq_not_blank m cs p d)
  | refused => simp [Ans.bind]
  | crash => simp [Ans.bind]
  | found x =>
    obtain ⟨x1, x2⟩ := x
    cases x1 with
    | nil => simp [Ans.bind]
    | cons a l => simp [Ans.bind]

theorem refLines_mem (m : Mode) (ls : List GLine) (f : Matcher (List ShapeElem)) : f ∈ refLines m ls ↔ ∃ l ∈ ls, f = refLine m l := by
  induction ls with
  | nil => simp [refLines]
  | cons a l ih => simp [refLines, ih]

theorem refLines_line {path : List String} {ls : List GLine} (h : RefLines path ls) {l : GLine} (hl : l ∈ ls) : RefLine path l := by
  induction ls with
  | nil => simp at hl
  | cons a r ih =>
    rw [RefLines] at h
    rcases List.mem_cons.mp hl with rfl | hl
    · exact h.1
    · exact ih h.2 hl

theorem refConts_cont {path : List String} {cs : List Container} (h : RefConts path cs) {c : Container} (hc : c ∈ cs) : RefCont path c := by
  induction cs with
  | nil => simp at hc
  | cons a r ih =>
    rw [RefConts] at h
    rcases List.mem_cons.mp hc with rfl | hc
    · exact h.1
    · exact ih h.2 hc

/-- The mode of the root. -/
def modeOf (chs : List Channel) : Mode := ⟨none, fun p d => channelsSkip (refChannels chs) (d.length + 1) p d, false⟩

theorem root_ans (name : String) (ls : List GLine) (ss : List Suite) (chs : List Channel) (d : Bytes) :
    refGrammar false (.mk (.mk name ls ss) chs) [] d
      = (firstOf (refLines (modeOf chs) ls) 0 [] d).map (fun x => (.node name x.1.1 x.1.2, (modeOf chs).skip [] x.2)) := by
  rw [refGrammar, refToken]
  rfl

theorem map_blank {α β : Type} (f : α → β) (a : Ans α) : a.map f = .blank ↔ a = .blank := by
  cases a <;> simp [Ans.map]

theorem map_refused {α β : Type} (f : α → β) (a : Ans α) : a.map f = .refused ↔ a = .refused := by
  cases a <;> simp [Ans.map]

theorem alone_blank (g : Grammar) (l : GLine) (d : Bytes) :
    (refGrammar false (alone g l) [] d = .blank ↔ refLine (modeOf g.channels) l [] d = .blank) ∧
    (refGrammar false (alone g l) [] d = .refused ↔ refLine (modeOf g.channels) l [] d = .refused) := by
  unfold alone
  rw [root_ans, map_blank, map_refused]
  simp only [refLines, firstOf]
  cases refLine (modeOf g.channels) l [] d <;> simp

theorem refGrammar_alone {g : Grammar} (hg : RefGrammar g) {l : GLine} (hl : RefLine [g.root.name] l) : RefGrammar (alone g l) := by
  rcases g with ⟨⟨name, ls, ss⟩, chs⟩
  rw [RefGrammar] at hg
  unfold alone
  rw [RefGrammar, RefTok, RefLines, RefLines]
  exact ⟨⟨by simp, hl, trivial⟩, hg.2⟩

end Rodkina.Ast

namespace Rodkina.Props

open Rodkina.Ast Rodkina.Ast.Shipped

/-- **C83, exactly, from the alternatives.**  A tree without success is returned exactly when no alternative on its own reads anything or
panics, and at least one alternative on its own gives such a tree. -/
theorem C83_alternatives_exact_partial (g : Grammar) (hg : RefGrammar g) (d : Bytes) :
    Hollow g d ↔ (∀ l ∈ g.root.lines, Rejects (alone g l) d) ∧ ∃ l ∈ g.root.lines, Hollow (alone g l) d := by
  have hal : ∀ l ∈ g.root.lines, AgreesR (alone g l) d (refGrammar false (alone g l) [] d) := by
    intro l hl
    refine ref_execute _ (refGrammar_alone hg ?_) d
    rcases g with ⟨⟨name, ls, ss⟩, chs⟩
    rw [RefGrammar, RefTok] at hg
    exact refLines_line hg.1.2 hl
  have h1 : Hollow g d ↔ refGrammar false g [] d = .blank := hollow_iff (ref_execute g hg d)
  have h2 : refGrammar false g [] d = .blank ↔ firstOf (refLines (modeOf g.channels) g.root.lines) 0 [] d = .blank := by
    rcases g with ⟨⟨name, ls, ss⟩, chs⟩
    rw [root_ans, map_blank]
    rfl
  rw [h1, h2, firstOf_blank]
  constructor
  · rintro ⟨ha, f, hf, hb⟩
    refine ⟨fun l hl => ?_, ?_⟩
    · rw [rejects_iff_ans (hal l hl), (alone_blank g l d).1, (alone_blank g l d).2]
      exact ha _ ((refLines_mem _ _ _).mpr ⟨l, hl, rfl⟩)
    · obtain ⟨l, hl, rfl⟩ := (refLines_mem _ _ _).mp hf
      exact ⟨l, hl, (hollow_iff (hal l hl)).mpr ((alone_blank g l d).1.mpr hb)⟩
  · rintro ⟨ha, l, hl, hb⟩
    refine ⟨fun f hf => ?_, _, (refLines_mem _ _ _).mpr ⟨l, hl, rfl⟩, (alone_blank g l d).1.mp ((hollow_iff (hal l hl)).mp hb)⟩
    obtain ⟨k, hk, rfl⟩ := (refLines_mem _ _ _).mp hf
    have := ha k hk
    rw [rejects_iff_ans (hal k hk), (alone_blank g k d).1, (alone_blank g k d).2] at this
    exact this

/-- **C83, exactly, for one alternative.**  An alternative gives a tree without success exactly when all its elements may be absent and none
is at the start of the input: the input is empty, or the element may not occur at all, or what it asks for, on its own, is refused. -/
theorem C83_elements_exact_partial (g : Grammar) (hg : RefGrammar g) (cs : List Container) (hl : GLine.mk cs ∈ g.root.lines) (d : Bytes) :
    Hollow (alone g (.mk cs)) d ↔ ∀ c ∈ cs, ∃ max ct, c = .element 0 max ct ∧
      (d = [] ∨ max = some 0 ∨ Rejects (alone g (.mk [.element 1 (some 1) ct])) d) := by
  have hline : RefLine [g.root.name] (.mk cs) := by
    rcases g with ⟨⟨name, ls, ss⟩, chs⟩
    rw [RefGrammar, RefTok] at hg
    exact refLines_line hg.1.2 hl
  rw [hollow_iff (ref_execute _ (refGrammar_alone hg hline) d), (alone_blank g _ d).1, refLine_blank, refSeq_none]
  have hone : ∀ min max ct, Container.element min max ct ∈ cs → d ≠ [] →
      (Rejects (alone g (.mk [.element 1 (some 1) ct])) d ↔
        refContent (modeOf g.channels) ct [] d = .blank ∨ refContent (modeOf g.channels) ct [] d = .refused) := by
    intro min max ct hc hd
    have hct : RefLine [g.root.name] (.mk [.element 1 (some 1) ct]) := by
      rw [RefLine] at hline ⊢
      have := refConts_cont hline.2 hc
      rw [RefCont] at this
      refine ⟨by simp [sameNames, Container.min], ?_⟩
      rw [RefConts, RefConts, RefCont]
      exact ⟨⟨by decide, this.2⟩, trivial⟩
    rw [rejects_iff_ans (ref_execute _ (refGrammar_alone hg hct) d), (alone_blank g _ d).1, (alone_blank g _ d).2]
    simp only [refLine, refSeq, refContainer]
    rw [timesOf_once, if_neg hd]
    cases refContent (modeOf g.channels) ct [] d <;> simp [Ans.bind, Ans.map, consElem]
  constructor
  · intro h c hc
    obtain ⟨max, ct, rfl, h0⟩ := h c hc
    refine ⟨max, ct, rfl, ?_⟩
    by_cases hd : d = []
    · exact .inl hd
    · rcases h0 with h0 | h0 | h0
      · exact .inl h0
      · exact .inr (.inl h0)
      · exact .inr (.inr ((hone 0 max ct hc hd).mpr h0))
  · intro h c hc
    obtain ⟨max, ct, rfl, h0⟩ := h c hc
    refine ⟨max, ct, rfl, ?_⟩
    by_cases hd : d = []
    · exact .inl hd
    · rcases h0 with h0 | h0 | h0
      · exact .inl h0
      · exact .inr (.inl h0)
      · exact .inr (.inr ((hone 0 max ct hc hd).mp h0))

/-- The grammar is one of those covered. -/
theorem optionalOnly_ref : RefGrammar optionalOnly := by
  simp [optionalOnly, RefGrammar, RefTok, RefLines, RefLine, RefConts, RefCont, RefContent, RefChans, sameNames, Container.min]

/-- On `b` the grammar `T: 'x'?` gives a tree without success: its alternative does, and a single `x` is refused there. -/
example : (∃ l ∈ optionalOnly.root.lines, Hollow (alone optionalOnly l) [98]) ∧
    Rejects (alone optionalOnly (.mk [.element 1 (some 1) (.value "byte" 120)])) [98] := by
  have h := ((C83_alternatives_exact_partial optionalOnly optionalOnly_ref [98]).mp C83_negation.1).2
  refine ⟨h, ?_⟩
  obtain ⟨l, hl, hh⟩ := h
  simp only [optionalOnly, Grammar.root, Token.lines, List.mem_singleton] at hl
  subst hl
  obtain ⟨max, ct, he, h0⟩ := (C83_elements_exact_partial optionalOnly optionalOnly_ref _ (by simp [optionalOnly, Grammar.root, Token.lines])
    [98]).mp hh _ (List.mem_singleton.mpr rfl)
  simp only [Container.element.injEq, true_and] at he
  obtain ⟨rfl, rfl⟩ := he
  simpa using h0

/-- On `x` it gives none. -/
example : ¬ Hollow optionalOnly [120] := by
  intro h
  have hs : ∃ t, Parses optionalOnly [120] (.ok t) ∧ t.isSuccessful = true := by
    obtain ⟨t, h1, h2, _⟩ := parses_of_report (g := optionalOnly) (n := 4) (i := [120]) (b := true)
      (x := [120]) (y := []) (by decide +kernel)
    exact ⟨t, h1, h2⟩
  obtain ⟨t, h1, h2⟩ := h
  obtain ⟨u, h3, h4⟩ := hs
  have := h1.unique h3
  simp only [Out.ok.injEq] at this
  subst this
  rw [h2] at h4
  exact absurd h4 (by simp)

end Rodkina.Props
