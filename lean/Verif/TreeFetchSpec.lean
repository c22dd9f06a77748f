import Verif.TreeFetchProps

/-!
# Specification of `Fetch` on parse trees, for every index: C92

An index does not number the nodes with a name.  It is a width: a tree holds the name `i`-fold if it has the name, or
if more than `i` of its elements have the name or have a tree among their contents that holds the name `i`-fold.
-/

namespace Rodkina.Ast

mutual
/-- The tree has the name, or more than `i` of its elements hold it. -/
inductive Tree.Holds (n : String) (i : Nat) : Tree → Prop
  | named (t : Tree) : t.grammar.name = n → Tree.Holds n i t
  | under (t : Tree) (es : List TElement) : es.Sublist t.elements → es.length = i + 1 →
      (∀ e ∈ es, TElement.Holds n i e) → Tree.Holds n i t

/-- The element has the name, or one of its trees holds it. -/
inductive TElement.Holds (n : String) (i : Nat) : TElement → Prop
  | named (e : TElement) : e.grammar.map Container.name = some n → TElement.Holds n i e
  | inside (e : TElement) (t : Tree) : .tree t ∈ e.contents → Tree.Holds n i t → TElement.Holds n i e
end

mutual
/-- Which node is found: the tree if it has the name, otherwise what is found in the element in front of which
exactly `i` elements hold the name. -/
inductive Tree.Finds (n : String) (i : Nat) : Tree → Fetched → Prop
  | named (t : Tree) : t.grammar.name = n → Tree.Finds n i t (.tree t)
  | under (t : Tree) (before : List TElement) (e : TElement) (after hold : List TElement) (f : Fetched) :
      t.grammar.name ≠ n → t.elements = before ++ e :: after →
      hold.Sublist before → hold.length = i → (∀ x ∈ hold, TElement.Holds n i x) →
      (∀ more : List TElement, more.Sublist before → i < more.length → ∃ x ∈ more, ¬ TElement.Holds n i x) →
      TElement.Finds n i e f → Tree.Finds n i t f

/-- The element if it has the name, otherwise what is found in the first of its trees that holds it. -/
inductive TElement.Finds (n : String) (i : Nat) : TElement → Fetched → Prop
  | named (e : TElement) : e.grammar.map Container.name = some n → TElement.Finds n i e (.element e)
  | inside (e : TElement) (before : List TContent) (t : Tree) (after : List TContent) (f : Fetched) :
      e.grammar.map Container.name ≠ some n → e.contents = before ++ .tree t :: after →
      (∀ t', .tree t' ∈ before → ¬ Tree.Holds n i t') → Tree.Finds n i t f → TElement.Finds n i e f
end

end Rodkina.Ast
