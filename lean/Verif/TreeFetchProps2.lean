import Verif.TreeFetchSpec

/-!
# `Fetch` on parse trees, exactly, for every index: C92
-/

namespace Rodkina.Ast

theorem fetchIn_named {n : String} {i : Nat} {e : TElement} (h : e.grammar.map Container.name = some n) :
    fetchIn n i e = some (.element e) := by
  cases e with
  | mk g cs => rw [fetchIn]; exact if_pos h

theorem fetchIn_unnamed {n : String} {i : Nat} {e : TElement} (h : e.grammar.map Container.name ≠ some n) :
    fetchIn n i e = fetchContents n i e.contents := by
  cases e with
  | mk g cs =>
    rw [fetchIn]
    exact if_neg h

theorem fetchTree_named {n : String} {i : Nat} {t : Tree} (h : t.grammar.name = n) : fetchTree n i t = some (.tree t) := by
  cases t with
  | mk g b s r => rw [fetchTree]; exact if_pos h

/-- Something is found in more than `i` of the elements. -/
theorem filterMap_many {n : String} {i : Nat} {es : List TElement}
    (h : ∀ e ∈ es, (fetchIn n i e).isSome ↔ TElement.Holds n i e) :
    i < (es.filterMap (fetchIn n i)).length ↔
      ∃ hold : List TElement, hold.Sublist es ∧ hold.length = i + 1 ∧ ∀ e ∈ hold, TElement.Holds n i e := by
  have hl : ∀ l : List TElement, (l.filterMap (fetchIn n i)).length = (l.filter fun e => (fetchIn n i e).isSome).length := by
    intro l
    induction l with
    | nil => rfl
    | cons e l ih =>
      rw [List.filterMap_cons, List.filter_cons]
      cases hf : fetchIn n i e <;> simp [ih]
  rw [hl]
  constructor
  · intro hi
    refine ⟨(es.filter fun e => (fetchIn n i e).isSome).take (i + 1), (List.take_sublist _ _).trans List.filter_sublist,
      by rw [List.length_take]; omega, ?_⟩
    intro e he
    obtain ⟨h1, h2⟩ := List.mem_filter.mp (List.mem_of_mem_take he)
    exact (h e h1).mp h2
  · rintro ⟨hold, h1, h2, h3⟩
    have := (h1.filter fun e => (fetchIn n i e).isSome).length_le
    rw [List.filter_eq_self.mpr (fun e he => (h e (h1.subset he)).mpr (h3 e he))] at this
    omega

theorem tree_holds_iff {n : String} {i : Nat} {t : Tree}
    (h : ∀ e ∈ t.elements, (fetchIn n i e).isSome ↔ TElement.Holds n i e) :
    (fetchTree n i t).isSome ↔ Tree.Holds n i t := by
  by_cases hn : t.grammar.name = n
  · rw [fetchTree_named hn]
    exact ⟨fun _ => .named t hn, fun _ => rfl⟩
  · rw [fetchTree_get n i t hn, isSome_getElem?, filterMap_many h]
    constructor
    · rintro ⟨hold, h1, h2, h3⟩
      exact .under t hold h1 h2 h3
    · intro hh
      cases hh with
      | named _ h' => exact absurd h' hn
      | under _ hold h1 h2 h3 => exact ⟨hold, h1, h2, h3⟩

theorem contents_some {n : String} {i : Nat} : (cs : List TContent) →
    ((fetchContents n i cs).isSome ↔ ∃ t, .tree t ∈ cs ∧ (fetchTree n i t).isSome)
  | [] => by simp [fetchContents]
  | .value p b :: cs => by
    rw [fetchContents, fetchContent]
    simp [contents_some cs]
  | .tree t :: cs => by
    rw [fetchContents, fetchContent]
    cases h : fetchTree n i t with
    | none => simp [contents_some cs, h]
    | some f => simp [h]

theorem element_holds_iff {n : String} {i : Nat} {e : TElement}
    (h : ∀ t, .tree t ∈ e.contents → ((fetchTree n i t).isSome ↔ Tree.Holds n i t)) :
    (fetchIn n i e).isSome ↔ TElement.Holds n i e := by
  by_cases hn : e.grammar.map Container.name = some n
  · rw [fetchIn_named hn]
    exact ⟨fun _ => .named e hn, fun _ => rfl⟩
  · rw [fetchIn_unnamed hn, contents_some]
    constructor
    · rintro ⟨t, h1, h2⟩
      exact .inside e t h1 ((h t h1).mp h2)
    · intro hh
      cases hh with
      | named _ h' => exact absurd h' hn
      | inside _ t h1 h2 => exact ⟨t, h1, (h t h1).mpr h2⟩

mutual
theorem fetchTree_holds (n : String) (i : Nat) : (t : Tree) → ((fetchTree n i t).isSome ↔ Tree.Holds n i t)
  | .mk g (.mk ls none) s r => tree_holds_iff (by
      intro e he
      simp [Tree.elements, Tree.block, Block.successful] at he)
  | .mk g (.mk ls (some (.mk k gl rv es))) s r => tree_holds_iff (fetchElements_holds n i es)

theorem fetchElements_holds (n : String) (i : Nat) : (es : List TElement) → ∀ e ∈ es, ((fetchIn n i e).isSome ↔ TElement.Holds n i e)
  | [] => fun _ h => by cases h
  | .mk g cs :: es => fun e he => by
    rcases List.mem_cons.mp he with h | h
    · rw [h]
      exact element_holds_iff (fetchContents_holds n i cs)
    · exact fetchElements_holds n i es e h

theorem fetchContents_holds (n : String) (i : Nat) : (cs : List TContent) →
    ∀ t, .tree t ∈ cs → ((fetchTree n i t).isSome ↔ Tree.Holds n i t)
  | [] => fun _ h => by cases h
  | .value p b :: cs => fun t h => by
    rcases List.mem_cons.mp h with h | h
    · cases h
    · exact fetchContents_holds n i cs t h
  | .tree t' :: cs => fun t h => by
    rcases List.mem_cons.mp h with h | h
    · cases h
      exact fetchTree_holds n i t'
    · exact fetchContents_holds n i cs t h
end

/-- The element of a list in which the `i`-th thing is found. -/
theorem filterMap_split {α β : Type} (g : α → Option β) (f : β) : (l : List α) → (i : Nat) →
    ((l.filterMap g)[i]? = some f ↔ ∃ before a after, l = before ++ a :: after ∧ (before.filterMap g).length = i ∧ g a = some f)
  | [], i => by simp
  | a :: l, i => by
    have hc : (∃ before a' after, a :: l = before ++ a' :: after ∧ (before.filterMap g).length = i ∧ g a' = some f) ↔
        (i = 0 ∧ g a = some f) ∨ ∃ before a' after, l = before ++ a' :: after ∧ ((a :: before).filterMap g).length = i ∧ g a' = some f := by
      constructor
      · rintro ⟨before, a', after, h1, h2, h3⟩
        cases before with
        | nil =>
          obtain ⟨rfl, rfl⟩ := List.cons.inj h1
          exact .inl ⟨h2.symm, h3⟩
        | cons b before =>
          obtain ⟨rfl, rfl⟩ := List.cons.inj h1
          exact .inr ⟨before, a', after, rfl, h2, h3⟩
      · rintro (⟨rfl, h⟩ | ⟨before, a', after, h1, h2, h3⟩)
        · exact ⟨[], a, l, rfl, rfl, h⟩
        · exact ⟨a :: before, a', after, by rw [h1]; rfl, h2, h3⟩
    rw [hc, List.filterMap_cons]
    cases hg : g a with
    | none =>
      simp only [filterMap_split g f l i, List.filterMap_cons, hg]
      simp
    | some b =>
      simp only [List.filterMap_cons, hg, List.length_cons]
      cases i with
      | zero => simp
      | succ i => simp [filterMap_split g f l i]

theorem contents_first {n : String} {i : Nat} {f : Fetched} : (cs : List TContent) →
    (fetchContents n i cs = some f ↔ ∃ before t after, cs = before ++ .tree t :: after ∧
      (∀ t', .tree t' ∈ before → fetchTree n i t' = none) ∧ fetchTree n i t = some f)
  | [] => by simp [fetchContents]
  | c :: cs => by
    have hc : (∃ before t after, c :: cs = before ++ .tree t :: after ∧
        (∀ t', .tree t' ∈ before → fetchTree n i t' = none) ∧ fetchTree n i t = some f) ↔
        (∃ t, c = .tree t ∧ fetchTree n i t = some f) ∨ ((∀ t', c = .tree t' → fetchTree n i t' = none) ∧
          ∃ before t after, cs = before ++ .tree t :: after ∧ (∀ t', .tree t' ∈ before → fetchTree n i t' = none) ∧
          fetchTree n i t = some f) := by
      constructor
      · rintro ⟨before, t, after, h1, h2, h3⟩
        cases before with
        | nil =>
          obtain ⟨rfl, rfl⟩ := List.cons.inj h1
          exact .inl ⟨t, rfl, h3⟩
        | cons b before =>
          obtain ⟨rfl, rfl⟩ := List.cons.inj h1
          exact .inr ⟨fun t' h => h2 t' (by rw [h]; exact List.mem_cons_self ..), before, t, after, rfl,
            fun t' h => h2 t' (List.mem_cons_of_mem _ h), h3⟩
      · rintro (⟨t, rfl, h⟩ | ⟨h0, before, t, after, h1, h2, h3⟩)
        · exact ⟨[], t, cs, rfl, by simp, h⟩
        · refine ⟨c :: before, t, after, by rw [h1]; rfl, ?_, h3⟩
          intro t' ht
          rcases List.mem_cons.mp ht with h | h
          · exact h0 t' h.symm
          · exact h2 t' h
    rw [hc, fetchContents]
    cases c with
    | value p b =>
      rw [fetchContent]
      simp [contents_first cs]
    | tree t =>
      rw [fetchContent]
      cases h : fetchTree n i t with
      | none => simp [h, contents_first cs]
      | some f' => simp [h]

theorem none_iff_not_holds {n : String} {i : Nat} {t : Tree} : fetchTree n i t = none ↔ ¬ Tree.Holds n i t := by
  rw [← fetchTree_holds n i t]
  cases fetchTree n i t <;> simp

/-- Exactly `i` elements of the list hold the name. -/
theorem filterMap_exactly {n : String} {i : Nat} {es : List TElement} :
    (es.filterMap (fetchIn n i)).length = i ↔
      (∃ hold : List TElement, hold.Sublist es ∧ hold.length = i ∧ ∀ e ∈ hold, TElement.Holds n i e) ∧
      ∀ more : List TElement, more.Sublist es → i < more.length → ∃ x ∈ more, ¬ TElement.Holds n i x := by
  have hh := fetchElements_holds n i es
  have hl : ∀ l : List TElement, (l.filterMap (fetchIn n i)).length = (l.filter fun e => (fetchIn n i e).isSome).length := by
    intro l
    induction l with
    | nil => rfl
    | cons e l ih =>
      rw [List.filterMap_cons, List.filter_cons]
      cases hf : fetchIn n i e <;> simp [ih]
  have hbound : ∀ hold : List TElement, hold.Sublist es → (∀ e ∈ hold, TElement.Holds n i e) →
      hold.length ≤ (es.filterMap (fetchIn n i)).length := by
    intro hold h1 h3
    have := (h1.filter fun e => (fetchIn n i e).isSome).length_le
    rw [List.filter_eq_self.mpr (fun e he => (hh e (h1.subset he)).mpr (h3 e he))] at this
    rw [hl]
    exact this
  have hself : ∀ e ∈ es.filter (fun e => (fetchIn n i e).isSome), TElement.Holds n i e := by
    intro e he
    obtain ⟨h1, h2⟩ := List.mem_filter.mp he
    exact (hh e h1).mp h2
  constructor
  · intro hi
    refine ⟨⟨_, List.filter_sublist, by rw [← hl, hi], hself⟩, ?_⟩
    intro more h1 h2
    by_contra hc
    have := hbound more h1 (fun e he => by by_contra h; exact hc ⟨e, he, h⟩)
    omega
  · rintro ⟨⟨hold, h1, h2, h3⟩, h4⟩
    have h5 := hbound hold h1 h3
    by_contra hc
    obtain ⟨x, hx, hx'⟩ := h4 _ (List.filter_sublist (p := fun e => (fetchIn n i e).isSome)) (by rw [← hl]; omega)
    exact hx' (hself x hx)

theorem tree_finds_iff {n : String} {i : Nat} {t : Tree}
    (h : ∀ e ∈ t.elements, ∀ f, fetchIn n i e = some f ↔ TElement.Finds n i e f) (f : Fetched) :
    fetchTree n i t = some f ↔ Tree.Finds n i t f := by
  by_cases hn : t.grammar.name = n
  · rw [fetchTree_named hn]
    constructor
    · rintro ⟨⟩
      exact .named t hn
    · intro hh
      cases hh with
      | named _ _ => rfl
      | under _ _ _ _ _ _ h' => exact absurd hn h'
  · rw [fetchTree_get n i t hn, filterMap_split]
    constructor
    · rintro ⟨before, e, after, h1, h2, h3⟩
      obtain ⟨⟨hold, a1, a2, a3⟩, a4⟩ := filterMap_exactly.mp h2
      exact .under t before e after hold f hn h1 a1 a2 a3 a4 ((h e (by rw [h1]; simp) f).mp h3)
    · intro hh
      cases hh with
      | named _ h' => exact absurd h' hn
      | under _ before e after hold _ _ h1 a1 a2 a3 a4 a5 =>
        exact ⟨before, e, after, h1, filterMap_exactly.mpr ⟨⟨hold, a1, a2, a3⟩, a4⟩, (h e (by rw [h1]; simp) f).mpr a5⟩

theorem element_finds_iff {n : String} {i : Nat} {e : TElement}
    (h : ∀ t, .tree t ∈ e.contents → ∀ f, fetchTree n i t = some f ↔ Tree.Finds n i t f) (f : Fetched) :
    fetchIn n i e = some f ↔ TElement.Finds n i e f := by
  by_cases hn : e.grammar.map Container.name = some n
  · rw [fetchIn_named hn]
    constructor
    · rintro ⟨⟩
      exact .named e hn
    · intro hh
      cases hh with
      | named _ _ => rfl
      | inside _ _ _ _ _ h' => exact absurd hn h'
  · rw [fetchIn_unnamed hn, contents_first]
    constructor
    · rintro ⟨before, t, after, h1, h2, h3⟩
      exact .inside e before t after f hn h1 (fun t' ht => none_iff_not_holds.mp (h2 t' ht))
        ((h t (by rw [h1]; simp) f).mp h3)
    · intro hh
      cases hh with
      | named _ h' => exact absurd h' hn
      | inside _ before t after _ _ h1 h2 h3 =>
        exact ⟨before, t, after, h1, fun t' ht => none_iff_not_holds.mpr (h2 t' ht), (h t (by rw [h1]; simp) f).mpr h3⟩

mutual
theorem fetchTree_finds (n : String) (i : Nat) : (t : Tree) → ∀ f, (fetchTree n i t = some f ↔ Tree.Finds n i t f)
  | .mk g (.mk ls none) s r => tree_finds_iff (by
      intro e he
      simp [Tree.elements, Tree.block, Block.successful] at he)
  | .mk g (.mk ls (some (.mk k gl rv es))) s r => tree_finds_iff (fetchElements_finds n i es)

theorem fetchElements_finds (n : String) (i : Nat) : (es : List TElement) →
    ∀ e ∈ es, ∀ f, (fetchIn n i e = some f ↔ TElement.Finds n i e f)
  | [] => fun _ h => by cases h
  | .mk g cs :: es => fun e he => by
    rcases List.mem_cons.mp he with h | h
    · rw [h]
      exact element_finds_iff (fetchContents_finds n i cs)
    · exact fetchElements_finds n i es e h

theorem fetchContents_finds (n : String) (i : Nat) : (cs : List TContent) →
    ∀ t, .tree t ∈ cs → ∀ f, (fetchTree n i t = some f ↔ Tree.Finds n i t f)
  | [] => fun _ h => by cases h
  | .value p b :: cs => fun t h => by
    rcases List.mem_cons.mp h with h | h
    · cases h
    · exact fetchContents_finds n i cs t h
  | .tree t' :: cs => fun t h => by
    rcases List.mem_cons.mp h with h | h
    · cases h
      exact fetchTree_finds n i t'
    · exact fetchContents_finds n i cs t h
end

end Rodkina.Ast

namespace Rodkina.Props

open Rodkina.Ast

/-- **C92, every index (partial).** What `Fetch` returns for an index, for every tree: it fails exactly when the tree
does not hold the name `i`-fold, and otherwise finds, level by level, what is in the element in front of which
exactly `i` elements hold the name.  Missing: that this is the `i`-th node with the name in document order, which is false
(`C92_negation`). -/
theorem C92_exact_partial (name : String) (i : Nat) (t : Tree) :
    (fetchTree name i t = none ↔ ¬ Tree.Holds name i t) ∧
    ∀ f, fetchTree name i t = some f ↔ Tree.Finds name i t f :=
  ⟨none_iff_not_holds, fetchTree_finds name i t⟩

/-- Index 1 in `fourX`: both elements of the root hold `x` twice; what is found is the second `x` of the second. -/
example : Tree.Finds "x" 1 fourX (.element (byteElement "x" 4)) ∧ Tree.Holds "x" 1 fourX ∧ ¬ Tree.Holds "x" 2 fourX :=
  ⟨((C92_exact_partial "x" 1 fourX).2 _).mp rfl,
    .under _ _ (List.Sublist.refl _) rfl (by
      intro e he
      have : e = treeElement [twoX] (.mk "A" [] []) ∨
          e = treeElement [node "B" [byteElement "x" 3, byteElement "x" 4] []] (.mk "B" [] []) := by
        simpa [fourX, node, Tree.elements, Tree.block, Block.successful, TLine.elements] using he
      rcases this with rfl | rfl
      · refine .inside _ twoX (by simp [treeElement, TElement.contents]) (.under _ _ (List.Sublist.refl _) rfl ?_)
        intro e he
        have : e = byteElement "x" 1 ∨ e = byteElement "x" 2 := by
          simpa [twoX, node, Tree.elements, Tree.block, Block.successful, TLine.elements] using he
        rcases this with rfl | rfl <;> exact .named _ rfl
      · refine .inside _ _ (List.mem_singleton.mpr rfl) (.under _ _ (List.Sublist.refl _) rfl ?_)
        intro e he
        have : e = byteElement "x" 3 ∨ e = byteElement "x" 4 := by
          simpa [node, Tree.elements, Tree.block, Block.successful, TLine.elements] using he
        rcases this with rfl | rfl <;> exact .named _ rfl),
    (C92_exact_partial "x" 2 fourX).1.mp rfl⟩

end Rodkina.Props
