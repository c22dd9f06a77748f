import Verif.TreeFetch
import Verif.QueryProps

/-!
# Properties of `Fetch` on parse trees: C92
-/

namespace Rodkina.Ast

/-! ## Specification: the nodes of a tree in document order -/

/-- The name of a node: that of the token of a tree, that of the container of an element. -/
def Fetched.name : Fetched → Option String
  | .tree t => some t.grammar.name
  | .element e => e.grammar.map Container.name

mutual
/-- A tree, then what is in the elements of its matching alternative. -/
def Tree.nodes : Tree → List Fetched
  | .mk g b s r => .tree (.mk g b s r) :: b.nodes
  termination_by structural x => x

/-- The nodes of the matching alternative. -/
def Block.nodes : Block → List Fetched
  | .mk _ none => []
  | .mk _ (some l) => l.nodes
  termination_by structural x => x

/-- The nodes of the elements. -/
def TLine.nodes : TLine → List Fetched
  | .mk _ _ _ es => elementsNodes es
  termination_by structural x => x

/-- The nodes of each element in turn. -/
def elementsNodes : List TElement → List Fetched
  | [] => []
  | e :: es => e.nodes ++ elementsNodes es
  termination_by structural x => x

/-- An element, then what is in its contents. -/
def TElement.nodes : TElement → List Fetched
  | .mk g cs => .element (.mk g cs) :: contentsNodes cs
  termination_by structural x => x

/-- The nodes of each content in turn. -/
def contentsNodes : List TContent → List Fetched
  | [] => []
  | c :: cs => c.nodes ++ contentsNodes cs
  termination_by structural x => x

/-- Bytes are no nodes. -/
def TContent.nodes : TContent → List Fetched
  | .value _ _ => []
  | .tree t => t.nodes
  termination_by structural x => x
end

/-- The elements of the matching alternative of a tree. -/
def Tree.elements (t : Tree) : List TElement :=
  match t.block.successful with
  | none => []
  | some l => l.elements

/-! ## Lemmas -/

mutual
theorem fetchTree_sound (n : String) (i : Nat) (f : Fetched) :
    (t : Tree) → fetchTree n i t = some f → f ∈ t.nodes ∧ f.name = some n
  | .mk g b s r, h => by
    rw [fetchTree] at h
    rw [Tree.nodes]
    split at h
    · next hg =>
      cases h
      exact ⟨by simp, by simp [Fetched.name, Tree.grammar, hg]⟩
    · have := fetchBlock_sound n i f b h
      exact ⟨List.mem_cons_of_mem _ this.1, this.2⟩

theorem fetchBlock_sound (n : String) (i : Nat) (f : Fetched) :
    (b : Block) → fetchBlock n i b = some f → f ∈ b.nodes ∧ f.name = some n
  | .mk _ none, h => by simp [fetchBlock] at h
  | .mk _ (some l), h => by
    rw [fetchBlock] at h
    rw [Block.nodes]
    exact fetchLine_sound n i f l h

theorem fetchLine_sound (n : String) (i : Nat) (f : Fetched) :
    (l : TLine) → fetchLine n i l = some f → f ∈ l.nodes ∧ f.name = some n
  | .mk _ _ _ es, h => by
    rw [fetchLine] at h
    rw [TLine.nodes]
    exact fetchElements_sound n i f 0 es h

theorem fetchElements_sound (n : String) (i : Nat) (f : Fetched) (c : Nat) :
    (es : List TElement) → fetchElements n i c es = some f → f ∈ elementsNodes es ∧ f.name = some n
  | [], h => by simp [fetchElements] at h
  | e :: es, h => by
    rw [fetchElements] at h
    rw [elementsNodes]
    split at h
    · have := fetchElements_sound n i f c es h
      exact ⟨List.mem_append_right _ this.1, this.2⟩
    · next f' hf =>
      split at h
      · cases h
        have := fetchIn_sound n i f e hf
        exact ⟨List.mem_append_left _ this.1, this.2⟩
      · have := fetchElements_sound n i f (c + 1) es h
        exact ⟨List.mem_append_right _ this.1, this.2⟩

theorem fetchIn_sound (n : String) (i : Nat) (f : Fetched) :
    (e : TElement) → fetchIn n i e = some f → f ∈ e.nodes ∧ f.name = some n
  | .mk g cs, h => by
    rw [fetchIn] at h
    rw [TElement.nodes]
    split at h
    · next hg =>
      cases h
      exact ⟨by simp, by simpa [Fetched.name, TElement.grammar] using hg⟩
    · have := fetchContents_sound n i f cs h
      exact ⟨List.mem_cons_of_mem _ this.1, this.2⟩

theorem fetchContents_sound (n : String) (i : Nat) (f : Fetched) :
    (cs : List TContent) → fetchContents n i cs = some f → f ∈ contentsNodes cs ∧ f.name = some n
  | [], h => by simp [fetchContents] at h
  | c :: cs, h => by
    rw [fetchContents] at h
    rw [contentsNodes]
    split at h
    · have := fetchContents_sound n i f cs h
      exact ⟨List.mem_append_right _ this.1, this.2⟩
    · next f' hf =>
      cases h
      have := fetchContent_sound n i f c hf
      exact ⟨List.mem_append_left _ this.1, this.2⟩

theorem fetchContent_sound (n : String) (i : Nat) (f : Fetched) :
    (c : TContent) → fetchContent n i c = some f → f ∈ c.nodes ∧ f.name = some n
  | .value _ _, h => by simp [fetchContent] at h
  | .tree t, h => by
    rw [fetchContent] at h
    rw [TContent.nodes]
    exact fetchTree_sound n i f t h
end

mutual
theorem fetchTree_zero (n : String) :
    (t : Tree) → fetchTree n 0 t = t.nodes.find? (fun f => f.name == some n)
  | .mk g b s r => by
    rw [fetchTree, Tree.nodes, List.find?_cons, fetchBlock_zero n b]
    have hn : (Fetched.tree (.mk g b s r)).name = some g.name := rfl
    rw [hn]
    by_cases h : g.name = n
    · simp [h]
    · have h' : (some g.name == some n) = false := by simpa using h
      rw [if_neg h, h']

theorem fetchBlock_zero (n : String) :
    (b : Block) → fetchBlock n 0 b = b.nodes.find? (fun f => f.name == some n)
  | .mk _ none => by simp [fetchBlock, Block.nodes]
  | .mk _ (some l) => by rw [fetchBlock, Block.nodes, fetchLine_zero n l]

theorem fetchLine_zero (n : String) :
    (l : TLine) → fetchLine n 0 l = l.nodes.find? (fun f => f.name == some n)
  | .mk _ _ _ es => by rw [fetchLine, TLine.nodes, fetchElements_zero n 0 es]

theorem fetchElements_zero (n : String) (c : Nat) : (es : List TElement) →
    fetchElements n 0 c es = (elementsNodes es).find? (fun f => f.name == some n)
  | [] => by simp [fetchElements, elementsNodes]
  | e :: es => by
    rw [fetchElements, elementsNodes, List.find?_append, fetchIn_zero n e, fetchElements_zero n c es]
    cases e.nodes.find? (fun f => f.name == some n) <;> simp

theorem fetchIn_zero (n : String) :
    (e : TElement) → fetchIn n 0 e = e.nodes.find? (fun f => f.name == some n)
  | .mk g cs => by
    rw [fetchIn, TElement.nodes, List.find?_cons, fetchContents_zero n cs]
    have hn : (Fetched.element (.mk g cs)).name = g.map Container.name := rfl
    rw [hn]
    by_cases h : g.map Container.name = some n
    · simp [h]
    · have h' : (g.map Container.name == some n) = false := by simpa using h
      rw [if_neg h, h']

theorem fetchContents_zero (n : String) : (cs : List TContent) →
    fetchContents n 0 cs = (contentsNodes cs).find? (fun f => f.name == some n)
  | [] => by simp [fetchContents, contentsNodes]
  | c :: cs => by
    rw [fetchContents, contentsNodes, List.find?_append, fetchContent_zero n c, fetchContents_zero n cs]
    cases c.nodes.find? (fun f => f.name == some n) <;> simp

theorem fetchContent_zero (n : String) :
    (c : TContent) → fetchContent n 0 c = c.nodes.find? (fun f => f.name == some n)
  | .value _ _ => by simp [fetchContent, TContent.nodes]
  | .tree t => by rw [fetchContent, TContent.nodes, fetchTree_zero n t]
end

/-- Counting: what the loop over the elements returns is the `idx`-th of what is found in them. -/
theorem fetchElements_get (n : String) (i : Nat) : (es : List TElement) → (c : Nat) → c ≤ i →
    fetchElements n i c es = (es.filterMap (fetchIn n i))[i - c]?
  | [], c, _ => by simp [fetchElements]
  | e :: es, c, hc => by
    rw [fetchElements, List.filterMap_cons]
    cases hf : fetchIn n i e with
    | none => simp only; exact fetchElements_get n i es c hc
    | some f =>
      simp only
      by_cases h : i ≤ c
      · have : i = c := by omega
        subst this
        simp
      · rw [if_neg h, fetchElements_get n i es (c + 1) (by omega)]
        obtain ⟨k, hk⟩ : ∃ k, i - c = k + 1 := ⟨i - c - 1, by omega⟩
        rw [hk, List.getElem?_cons_succ]
        congr 1
        omega

theorem fetchTree_get (n : String) (i : Nat) (t : Tree) (hn : t.grammar.name ≠ n) :
    fetchTree n i t = (t.elements.filterMap (fetchIn n i))[i]? := by
  cases t with
  | mk g b s r =>
    have hn : g.name ≠ n := hn
    rw [fetchTree, if_neg hn]
    cases b with
    | mk ls o =>
      cases o with
      | none => simp [fetchBlock, Tree.elements, Tree.block, Block.successful]
      | some l =>
        cases l with
        | mk k gl rv es =>
          rw [fetchBlock, fetchLine, fetchElements_get n i es 0 (Nat.zero_le _)]
          simp [Tree.elements, Tree.block, Block.successful, TLine.elements]

theorem filterMap_length_mono {α β : Type} (f g : α → Option β) : (l : List α) →
    (∀ a ∈ l, (f a).isSome → (g a).isSome) → (l.filterMap f).length ≤ (l.filterMap g).length
  | [], _ => by simp
  | a :: l, h => by
    have ih := filterMap_length_mono f g l (fun a' h' => h a' (List.mem_cons_of_mem _ h'))
    have ha := h a (List.mem_cons_self ..)
    rw [List.filterMap_cons, List.filterMap_cons]
    cases hf : f a <;> cases hg : g a <;> simp_all <;> omega

mutual
theorem fetchTree_mono (n : String) {i j : Nat} (hij : j ≤ i) :
    (t : Tree) → (fetchTree n i t).isSome → (fetchTree n j t).isSome
  | .mk g b s r => by
    rw [fetchTree, fetchTree]
    split
    · simp
    · exact fetchBlock_mono n hij b

theorem fetchBlock_mono (n : String) {i j : Nat} (hij : j ≤ i) :
    (b : Block) → (fetchBlock n i b).isSome → (fetchBlock n j b).isSome
  | .mk _ none => by simp [fetchBlock]
  | .mk _ (some l) => by rw [fetchBlock, fetchBlock]; exact fetchLine_mono n hij l

theorem fetchLine_mono (n : String) {i j : Nat} (hij : j ≤ i) :
    (l : TLine) → (fetchLine n i l).isSome → (fetchLine n j l).isSome
  | .mk _ _ _ es => by
    rw [fetchLine, fetchLine, fetchElements_get n i es 0 (Nat.zero_le _),
      fetchElements_get n j es 0 (Nat.zero_le _)]
    have h := filterMap_length_mono (fetchIn n i) (fetchIn n j) es (fetchElements_mono n hij es)
    simp only [Nat.sub_zero, List.getElem?_eq_some_iff, Option.isSome_iff_exists]
    rintro ⟨f, hf, -⟩
    exact ⟨_, by omega, rfl⟩

theorem fetchElements_mono (n : String) {i j : Nat} (hij : j ≤ i) :
    (es : List TElement) → ∀ e ∈ es, (fetchIn n i e).isSome → (fetchIn n j e).isSome
  | [] => by simp
  | e' :: es => by
    intro e he
    rcases List.mem_cons.1 he with h | h
    · rw [h]
      exact fetchIn_mono n hij e'
    · exact fetchElements_mono n hij es e h

theorem fetchIn_mono (n : String) {i j : Nat} (hij : j ≤ i) :
    (e : TElement) → (fetchIn n i e).isSome → (fetchIn n j e).isSome
  | .mk g cs => by
    rw [fetchIn, fetchIn]
    split
    · simp
    · exact fetchContents_mono n hij cs

theorem fetchContents_mono (n : String) {i j : Nat} (hij : j ≤ i) :
    (cs : List TContent) → (fetchContents n i cs).isSome → (fetchContents n j cs).isSome
  | [] => by simp [fetchContents]
  | c :: cs => by
    have h1 := fetchContent_mono n hij c
    have h2 := fetchContents_mono n hij cs
    rw [fetchContents, fetchContents]
    cases hi : fetchContent n i c <;> cases hj : fetchContent n j c <;> simp_all

theorem fetchContent_mono (n : String) {i j : Nat} (hij : j ≤ i) :
    (c : TContent) → (fetchContent n i c).isSome → (fetchContent n j c).isSome
  | .value _ _ => by simp [fetchContent]
  | .tree t => by rw [fetchContent, fetchContent]; exact fetchTree_mono n hij t
end

end Rodkina.Ast

namespace Rodkina.Props

open Rodkina.Ast

/-! ## Sample trees -/

/-- Two `x` elements in a token `A`. -/
def twoX : Tree := node "A" [byteElement "x" 1, byteElement "x" 2] []

/-- A root with three elements: a byte `x`, a byte `y`, another byte `x`. -/
def flatX : Tree := node "R" [byteElement "x" 1, byteElement "y" 2, byteElement "x" 3] []

/-- A root with two tokens of two `x` elements each: `x` occurs four times, with the bytes 1 to 4. -/
def fourX : Tree :=
  node "R" [treeElement [twoX] (.mk "A" [] []),
    treeElement [node "B" [byteElement "x" 3, byteElement "x" 4] []] (.mk "B" [] [])] []

/-! ## C92 -/

/-- **C92.** What `Fetch` returns is a node of the tree with the requested name, whatever the index. -/
theorem C92_found_is_named (name : String) (i : Nat) (t : Tree) (f : Fetched)
    (h : fetchTree name i t = some f) : f ∈ t.nodes ∧ f.name = some name :=
  fetchTree_sound name i f t h

/-- **C92.** Index 0 asks for the first node with the name in document order (a tree before its
elements, an element before its contents); there is an error exactly when there is no such node. -/
theorem C92_first (name : String) (t : Tree) :
    fetchTree name 0 t = t.nodes.find? (fun f => f.name == some name) :=
  fetchTree_zero name t

/-- **C92.** If something is found for an index, something is found for every smaller index. -/
theorem C92_smaller_index (name : String) (i j : Nat) (hij : j ≤ i) (t : Tree)
    (h : (fetchTree name i t).isSome) : (fetchTree name j t).isSome :=
  fetchTree_mono name hij t h

/-- **C92, partial.** If the name only occurs on elements of the tree's own matching alternative, index
`i` asks for the `i`-th of them.  Missing: names that occur deeper in the tree, for which this is false
(`C92_negation`). -/
theorem C92_index_partial (name : String) (i : Nat) (t : Tree) (hn : t.grammar.name ≠ name)
    (flat : ∀ e ∈ t.elements, ∀ f ∈ contentsNodes e.contents,
      e.grammar.map Container.name = some name ∨ f.name ≠ some name) :
    fetchTree name i t =
      ((t.elements.filter (fun e => e.grammar.map Container.name = some name))[i]?).map .element := by
  rw [fetchTree_get name i t hn, ← List.getElem?_map]
  congr 1
  generalize t.elements = es at flat
  induction es with
  | nil => simp
  | cons e es ih =>
    have ih := ih (fun e' h' => flat e' (List.mem_cons_of_mem _ h'))
    have he := flat e (List.mem_cons_self ..)
    rw [List.filterMap_cons, List.filter_cons, ih]
    cases e with
    | mk g cs =>
      rw [fetchIn]
      simp only [TElement.grammar, TElement.contents] at he ⊢
      by_cases hg : g.map Container.name = some name
      · simp [hg]
      · simp only [hg, if_false, decide_false, Bool.false_eq_true]
        cases hf : fetchContents name i cs with
        | none => rfl
        | some f =>
          obtain ⟨h1, h2⟩ := fetchContents_sound name i f cs hf
          rcases he f h1 with h3 | h3
          · exact absurd h3 hg
          · exact absurd h2 h3

example : flatX.grammar.name ≠ "x" ∧
    (∀ e ∈ flatX.elements, ∀ f ∈ contentsNodes e.contents,
      e.grammar.map Container.name = some "x" ∨ f.name ≠ some "x") ∧
    fetchTree "x" 1 flatX = some (.element (byteElement "x" 3)) := by
  refine ⟨by decide, ?_, rfl⟩
  intro e he f hf
  have : e = byteElement "x" 1 ∨ e = byteElement "y" 2 ∨ e = byteElement "x" 3 := by
    simpa [flatX, node, Tree.elements, Tree.block, Block.successful, TLine.elements] using he
  rcases this with h | h | h <;> subst h <;> simp [byteElement, TElement.contents, contentsNodes,
    TContent.nodes] at hf

/-- **C92 is false for names that occur deeper.**  The name `x` is on four elements; index 1 returns the
fourth of them instead of the second, and index 2 nothing. -/
theorem C92_negation :
    fourX.nodes.filter (fun f => f.name == some "x") =
      [.element (byteElement "x" 1), .element (byteElement "x" 2), .element (byteElement "x" 3),
        .element (byteElement "x" 4)] ∧
    fetchTree "x" 1 fourX = some (.element (byteElement "x" 4)) ∧
    fetchTree "x" 2 fourX = none :=
  ⟨rfl, rfl, rfl⟩

example : fetchTree "x" 0 fourX = some (.element (byteElement "x" 1)) ∧
    (fetchTree "x" 1 fourX).isSome := ⟨rfl, rfl⟩

end Rodkina.Props
