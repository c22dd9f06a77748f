import Verif.CoverageLemmas2

/-!
# Lemmas: grammars without optional elements and external grammars
-/

namespace Rodkina.Ast

theorem All_child {p : GLine → Prop} {t u : Token} (h : t.All p) (hc : Child t u) : u.All p := by
  rw [Token.All_iff] at h
  cases hc with
  | token l min max hl hc => exact (h l hl).2 _ hc
  | exception l min max n esc hl hc =>
    have := (h l hl).2 _ hc
    rw [Container.All, Content.All_everything] at this
    exact this.1
  | escape l min max n ex hl hc =>
    have := (h l hl).2 _ hc
    rw [Container.All, Content.All_everything] at this
    simpa [optAll] using this.2

theorem All_below {p : GLine → Prop} {t u : Token} (hb : Below t u) (h : t.All p) : u.All p := by
  induction hb with
  | refl => exact h
  | step t u w hc _ ih => exact ih (All_child h hc)

theorem All_level {p : GLine → Prop} {g : Grammar} (h : g.All p) {u : Token} {chs : List Channel}
    (hl : Level g u chs) : u.All p ∧ ∀ c ∈ chs, c.All p := by
  rw [Grammar.All_iff] at h
  rcases hl with ⟨hb, rfl⟩ | ⟨c, hc, hb, rfl⟩
  · exact ⟨All_below hb h.1, h.2⟩
  · exact ⟨All_below hb (Channel.All_iff.mp (h.2 c hc)).1, by simp⟩

theorem All_external {p : GLine → Prop} {t : Token} {g : Grammar} (h : t.All p) (hu : UsesExternal t g) :
    g.All p := by
  rw [Token.All_iff] at h
  obtain ⟨l, hl, min, max, n, hc⟩ := hu
  exact (h l hl).2 _ hc

theorem All_subGrammar {p : GLine → Prop} {g k : Grammar} (hs : SubGrammar g k) (h : g.All p) : k.All p := by
  induction hs with
  | refl => exact h
  | step g k x u chs hl he _ ih => exact ih (All_external (All_level h hl).1 he)

theorem All_tokenOf {p : GLine → Prop} {g : Grammar} (h : g.All p) {u : Token} {chs : List Channel}
    (ht : TokenOf g u chs) : Grammar.All p (.mk u chs) := by
  obtain ⟨k, hs, hl⟩ := ht
  rw [Grammar.All_iff]
  exact All_level (All_subGrammar hs h) hl

theorem Level.child {g : Grammar} {u w : Token} {chs : List Channel} (h : Level g u chs) (hc : Child u w) :
    Level g w chs := by
  have below : ∀ {t u w}, Below t u → Child u w → Below t w := by
    intro t u w h hc
    induction h with
    | refl t => exact .step _ _ _ hc (.refl _)
    | step t x y hx _ ih => exact .step _ _ _ hx (ih hc)
  rcases h with ⟨hb, rfl⟩ | ⟨k, hk, hb, rfl⟩
  · exact .inl ⟨below hb hc, rfl⟩
  · exact .inr ⟨k, hk, below hb hc, rfl⟩

/-- `u` is a token of `g` itself. -/
def Own (g : Grammar) (u : Token) : Prop := ∃ chs, Level g u chs

theorem own_plain {g : Grammar} (h : g.All plainLine) {u : Token} (hu : Own g u) :
    ∀ l ∈ u.lines, plainLine l := by
  obtain ⟨chs, hl⟩ := hu
  have := (All_level h hl).1
  rw [Token.All_iff] at this
  exact fun l hm => (this l hm).1

theorem tokenOf_plain {g : Grammar} (h : g.All plainLine) {u : Token} {chs : List Channel}
    (ht : TokenOf g u chs) : Level g u chs := by
  obtain ⟨k, hs, hl⟩ := ht
  cases hs with
  | refl => exact hl
  | step _ x _ w wchs hw he hs =>
    obtain ⟨l, hm, min, max, n, hc⟩ := he
    exact absurd rfl ((own_plain h ⟨_, hw⟩ l hm _ hc min max _ rfl).2 n x)

/-- In a line without optional elements, element number `j` is that of container number `j`. -/
theorem elements_aligned {path : List Token} {chs : List Channel} {cs : List Container} {es : List TElement}
    (h : ElementsOK path chs cs es)
    (hp : ∀ c ∈ cs, ∀ min max k, c = .element min max k → 1 ≤ min) {j : Nat} {c : Container}
    (hc : cs[j]? = some c) : ∃ xs, es[j]? = some (.mk (some c) xs) := by
  induction cs generalizing es j with
  | nil => simp at hc
  | cons k cs ih =>
    cases h with
    | absent _ _ max k cs es h =>
      exact absurd (hp _ (by simp) 0 max k rfl) (by omega)
    | present _ _ min max k cs xs es h1 h2 h3 h4 h5 h6 =>
      cases j with
      | zero =>
        simp only [List.getElem?_cons_zero, Option.some.injEq] at hc
        subst hc
        exact ⟨xs, rfl⟩
      | succ j =>
        simp only [List.getElem?_cons_succ] at hc ⊢
        exact ih h6 (fun c hc => hp c (by simp [hc])) hc

/-- Conversely. -/
theorem elements_aligned' {path : List Token} {chs : List Channel} {cs : List Container} {es : List TElement}
    (h : ElementsOK path chs cs es)
    (hp : ∀ c ∈ cs, ∀ min max k, c = .element min max k → 1 ≤ min) {j : Nat} {c : Container}
    {xs : List TContent} (hc : es[j]? = some (.mk (some c) xs)) : cs[j]? = some c := by
  induction cs generalizing es j with
  | nil => cases h; simp at hc
  | cons k cs ih =>
    cases h with
    | absent _ _ max k cs es h =>
      exact absurd (hp _ (by simp) 0 max k rfl) (by omega)
    | present _ _ min max k cs ys es h1 h2 h3 h4 h5 h6 =>
      cases j with
      | zero =>
        simp only [List.getElem?_cons_zero, Option.some.injEq, TElement.mk.injEq] at hc
        simp [hc.1]
      | succ j =>
        simp only [List.getElem?_cons_succ] at hc ⊢
        exact ih h6 (fun c hc => hp c (by simp [hc])) hc

/-- The elements are those of containers. -/
theorem elements_of {path : List Token} {chs : List Channel} {cs : List Container} {es : List TElement}
    (h : ElementsOK path chs cs es) {e : TElement} (he : e ∈ es) :
    ∃ min max c xs, .element min max c ∈ cs ∧ e = .mk (some (.element min max c)) xs ∧
      ∀ x ∈ xs, ContentOK path chs c x := by
  induction cs generalizing es with
  | nil => cases h; simp at he
  | cons k cs ih =>
    cases h with
    | absent _ _ max k cs es h =>
      obtain ⟨a, b, c, xs, h1, h2⟩ := ih h he
      exact ⟨a, b, c, xs, by simp [h1], h2⟩
    | present _ _ min max k cs xs es h1 h2 h3 h4 h5 h6 =>
      simp only [List.mem_cons] at he
      rcases he with rfl | he
      · exact ⟨min, max, k, xs, by simp, rfl, h5⟩
      · obtain ⟨a, b, c, xs, h1, h2⟩ := ih h6 he
        exact ⟨a, b, c, xs, by simp [h1], h2⟩

/-- A derivation with tokens of `g`. -/
structure Deriv (g : Grammar) (rev : Bool) (tok : Token) (t : Tree) : Prop where
  own : Own g tok
  ok : ∃ path chs, (∀ a ∈ path, Own g a) ∧ TreeOK path chs rev tok t

/-- The trees in the elements of a derivation are derivations; the name of the element is that of the token
of the tree, unless the tree is an "everything". -/
theorem Deriv.sub {g : Grammar} (hg : g.All plainLine) {rev : Bool} {tok : Token} {t : Tree}
    (h : Deriv g rev tok t) {l : TLine} {e : TElement} {t' : Tree} (hm : t.matched = some l)
    (he : e ∈ l.elements) (ht : .tree t' ∈ e.contents) :
    rev = false ∧ ∃ c xs rev' tok', e = .mk (some c) xs ∧ Deriv g rev' tok' t' ∧
      (rev' = false → c.name = tok'.name) := by
  obtain ⟨hown, path, chs, hpath, hok⟩ := h
  cases hok with
  | reverse _ _ _ ls i gl bs suf rem _ _ _ =>
    cases hm
    simp only [TLine.elements, List.mem_singleton] at he
    subst he
    simp [TElement.contents] at ht
  | forward _ _ _ ls i gl es suf rem hl hes hne _ =>
    cases hm
    refine ⟨rfl, ?_⟩
    obtain ⟨min, max, c, xs, hc, rfl, hx⟩ := elements_of hes he
    have hlm : gl ∈ tok.lines := List.mem_of_getElem? hl
    have hpath' : ∀ a ∈ tok :: path, Own g a := by
      intro a ha
      simp only [List.mem_cons] at ha
      rcases ha with rfl | ha
      · exact hown
      · exact hpath a ha
    have hlift : ∀ u, Child tok u → Own g u := by
      intro u hu
      obtain ⟨x, hx⟩ := hown
      exact ⟨x, hx.child hu⟩
    have hco := hx _ ht
    refine ⟨.element min max c, xs, ?_⟩
    cases hco with
    | token _ _ u t h =>
      exact ⟨false, u, rfl, ⟨hlift u (.token _ u gl min max hlm hc), _, _, hpath', h⟩, fun _ => rfl⟩
    | everything _ _ n ex esc t h =>
      exact ⟨true, ex, rfl, ⟨hlift ex (.exception _ ex gl min max n esc hlm hc), _, _, hpath', h⟩, by simp⟩
    | recursive _ _ u t hu h =>
      exact ⟨false, u, rfl, ⟨hpath' u hu, _, _, hpath', h⟩, fun _ => rfl⟩
    | external _ _ n root channels ls l suf rem h =>
      exact absurd rfl ((own_plain hg hown gl hlm _ hc min max _ rfl).2 n _)

theorem Deriv.reverse_elements {g : Grammar} {tok : Token} {t : Tree} (h : Deriv g true tok t) {l : TLine}
    (hm : t.matched = some l) : l.isReverse = true ∧ ∀ e ∈ l.elements, e.grammar = none := by
  obtain ⟨hown, path, chs, hpath, hok⟩ := h
  cases hok with
  | reverse _ _ _ ls i gl bs suf rem _ _ _ =>
    cases hm
    exact ⟨rfl, by simp [TLine.elements, TElement.grammar]⟩

/-- What is counted was used. -/
theorem counted_used {g : Grammar} (hg : g.All plainLine) {name : String} {t : Tree} {p : Pos}
    (hc : Counted name t p) : ∀ {rev : Bool} {tok : Token}, Deriv g rev tok t →
      (rev = false → name = tok.name) → UsedAt t p := by
  induction hc with
  | here name t l j c xs hm he =>
    intro rev tok hd hn
    cases rev with
    | true =>
      have := (hd.reverse_elements hm).2 _ (List.mem_of_getElem? he)
      simp [TElement.grammar] at this
    | false =>
      obtain ⟨hown, path, chs, hpath, hok⟩ := hd
      cases hok with
      | forward _ _ _ ls i gl es suf rem hl hes hne _ =>
        cases hm
        have hp := own_plain hg hown gl (List.mem_of_getElem? hl)
        exact ⟨_, .refl _, (hn rfl).symm, _, rfl, rfl, rfl, _, List.mem_of_getElem? he, c, rfl,
          elements_aligned' hes (fun c hc min max k hk => (hp c hc min max k hk).1) he⟩
  | sub name t l c xs t' p hm he ht _ ih =>
    intro rev tok hd _
    obtain ⟨_, c', xs', rev', tok', heq, hd', hn'⟩ := hd.sub hg hm he ht
    cases heq
    obtain ⟨t'', hs, hx⟩ := ih hd' hn'
    exact ⟨t'', .step t t' t'' l _ hm he ht hs, hx⟩

/-- The elements of an alternative that was applied are counted. -/
theorem used_counted {g : Grammar} (hg : g.All plainLine) (hn : NamesIdentify g) {t t' : Tree}
    (hs : SubTree t t') {u : Token} (hu : Own g u) {i j : Nat} {gl : GLine} {c : Container}
    (hl : u.lines[i]? = some gl) (hc : gl.containers[j]? = some c) (hname : t'.grammar.name = u.name)
    {l : TLine} (hm : t'.matched = some l) (hrev : l.isReverse = false) (hi : l.index = i) :
    ∀ {rev : Bool} {tok : Token}, Deriv g rev tok t → rev = false ∧ Counted tok.name t (u.name, i, j) := by
  induction hs with
  | refl t =>
    intro rev tok hd
    cases rev with
    | true => rw [(hd.reverse_elements hm).1] at hrev; cases hrev
    | false =>
      refine ⟨rfl, ?_⟩
      obtain ⟨⟨x, hown⟩, path, chs, hpath, hok⟩ := hd
      cases hok with
      | forward _ _ _ ls i' gl' es suf rem hl' hes hne _ =>
        cases hm
        simp only [TLine.index] at hi
        subst hi
        obtain ⟨y, hu⟩ := hu
        have : tok = u := hn g (.refl g) tok x u y hown hu hname
        subst this
        rw [hl] at hl'
        cases hl'
        have hp := own_plain hg ⟨_, hu⟩ gl (List.mem_of_getElem? hl)
        obtain ⟨xs, hx⟩ := elements_aligned hes (fun c hc min max k hk => (hp c hc min max k hk).1) hc
        have key : ∀ k, Counted tok.name (.mk tok (.mk ls (some (.mk k gl false es))) suf rem)
            (tok.name, k, j) := fun k => Counted.here tok.name _ (.mk k gl false es) j c xs rfl hx
        exact key _
  | step t t1 t'' l' e hm' he ht _ ih =>
    intro rev tok hd
    obtain ⟨hrev', c', xs', rev1, tok1, rfl, hd1, hn1⟩ := hd.sub hg hm' he ht
    refine ⟨hrev', ?_⟩
    obtain ⟨hr1, hcount⟩ := ih hname hm hd1
    rw [← hn1 hr1] at hcount
    exact .sub _ _ _ _ _ _ _ hm' he ht hcount

end Rodkina.Ast
