import Verif.Query

/-!
# Specifications for queries

A reference semantics of queries: lexical scoping of references by name, selection of the i-th
element that answers to a name, results in the order of contents and fetchers.  No mutable map, no
counters.
-/

namespace Rodkina.Query

open Rodkina.Ast (Tree TContent TElement TLine Out Container)

variable {W : Type}

/-- An outcome of executing a query, whatever the nesting depth. -/
def Executes (q : Query W) (t : Tree) (o : Out (Answer W)) : Prop :=
  o ≠ .oof ∧ ∃ n, execute n q t = o

/-- Does an element of a line answer to the element name of a query token.  The bytes of an
"everything except" have no name of their own: they answer to the reverse name of the query. -/
def answersTo (tok : QToken) (e : TElement) : Prop :=
  match e.grammar with
  | none => tok.reverseName = tok.elementName
  | some g => g.name = tok.elementName

instance (tok : QToken) (e : TElement) : Decidable (answersTo tok e) := by
  unfold answersTo
  cases e.grammar <;> exact inferInstance

/-- The contents of a token's tree that a query asks for: those of the `index`-th element answering to the
name (none if there are fewer), or the one with the given number among them. -/
def selection (tok : QToken) (t : Tree) : Res (List TContent) :=
  if t.grammar.name = tok.name then
    match t.block.successful with
    | none => .err
    | some l =>
      match (l.elements.filter (fun e => answersTo tok e))[tok.index]? with
      | none => .ok []
      | some e =>
        match tok.content with
        | none => .ok e.contents
        | some i => match e.contents[i]? with
          | none => .err
          | some c => .ok [c]
  else .err

theorem sizeOf_content_lt {e : TElement} {c : TContent} (h : c ∈ e.contents) :
    sizeOf c < sizeOf e := by
  cases e with
  | mk g cs =>
    have := List.sizeOf_lt_of_mem (show c ∈ cs from h)
    simp only [TElement.mk.sizeOf_spec]
    omega

theorem sizeOf_element_lt {t : Tree} {l : TLine} {e : TElement} (hl : t.block.successful = some l)
    (he : e ∈ l.elements) : sizeOf e < sizeOf t := by
  cases t with
  | mk g b suf rem =>
    cases b with
    | mk ls s =>
      simp only [Rodkina.Ast.Tree.block, Rodkina.Ast.Block.successful] at hl
      subst hl
      cases l with
      | mk i g' r es =>
        have := List.sizeOf_lt_of_mem (show e ∈ es from he)
        simp only [Tree.mk.sizeOf_spec, Rodkina.Ast.Block.mk.sizeOf_spec, Option.some.sizeOf_spec,
          TLine.mk.sizeOf_spec]
        omega

/-- Contents that are selected from a tree are parts of it. -/
theorem selection_part {tok : QToken} {t : Tree} {cs : List TContent} (h : selection tok t = .ok cs) :
    ∀ c ∈ cs, ∃ l, t.block.successful = some l ∧ ∃ e ∈ l.elements, c ∈ e.contents := by
  unfold selection at h
  split at h
  · split at h
    · cases h
    · rename_i l hl
      split at h
      · cases h; simp
      · rename_i e he
        have hm : e ∈ l.elements := (List.mem_filter.mp (List.mem_of_getElem? he)).1
        split at h
        · cases h; intro c hc; exact ⟨l, hl, e, hm, hc⟩
        · split at h
          · cases h
          · rename_i c hc
            cases h
            intro c' hc'
            rw [List.mem_singleton] at hc'
            subst hc'
            exact ⟨l, hl, e, hm, List.mem_of_getElem? hc⟩
  · cases h

theorem selection_size {tok : QToken} {t : Tree} {cs : List TContent} (h : selection tok t = .ok cs)
    {t' : Tree} (hc : TContent.tree t' ∈ cs) : sizeOf t' < sizeOf t := by
  obtain ⟨l, hl, e, he, hm⟩ := selection_part h _ hc
  have h1 := sizeOf_element_lt hl he
  have h2 := sizeOf_content_lt hm
  simp only [TContent.tree.sizeOf_spec] at h2
  omega

/-- The enclosing queries of the first enclosing query with the given name, with that query first. -/
def scope (env : List (Query W)) (name : String) : List (Query W) :=
  env.dropWhile (fun q => q.name != name)

/-- A function for several contents gets all selected ones, a function for one content the first (and
cannot be called without any). -/
def applyContentFn (f : ContentFn W) (cs : List TContent) : Res (List (Any W)) :=
  match f, cs with
  | .multi f, cs => f cs
  | .single f, c :: _ => f c
  | .single _, [] => .panic

/-- Without instances there is no valid result; a function for several instances gets all of them, a
function for one instance the first. -/
def applyQueryFn (f : QueryFn W) (list : List (Any W)) : Res (Any W × Bool) :=
  match f, list with
  | _, [] => .ok (none, false)
  | .single f, x :: _ => f x
  | .multi f, x :: xs => f (x :: xs)

/-- Only valid results are kept. -/
def keepValid (r : Res (Any W × Bool)) : Res (List (Any W)) :=
  r >>= fun x => .ok (if x.2 then [x.1] else [])

/-- Results one after the other. -/
def concatM {α β : Type} (f : α → Res (List β)) (l : List α) : Res (List β) :=
  l.mapM f >>= fun r => .ok r.flatten

/-- Reference semantics.  `env` is the list of the enclosing queries, innermost first. -/
def eval (env : List (Query W)) (q : Query W) (t : Tree) : Res (Any W × Bool) :=
  match h : selection q.token t with
  | .err => .err
  | .panic => .panic
  | .ok cs =>
    (match q.inside with
      | .fn f => applyContentFn f cs
      | .fetchers fs =>
        concatM (fun c => concatM (fun f => match hc : c.1, f with
          | .value _ _, _ => .ok []
          | .tree t', .query q' => keepValid (eval (q :: env) q' t')
          | .tree t', .recursive name => match scope (q :: env) name with
            | [] => .err
            | q' :: env' => keepValid (eval env' q' t')) fs) cs.attach) >>= fun list =>
    applyQueryFn q.fn list
termination_by sizeOf t
decreasing_by
  all_goals exact selection_size h (hc ▸ c.2)

/-- The chains of nested queries from a query to one of its sub-queries, innermost first. -/
inductive Path (root : Query W) : List (Query W) → Prop
  | root : Path root [root]
  | child {q q' : Query W} {env : List (Query W)} {fs : List (Fetcher W)} :
      Path root (q :: env) → q.inside = .fetchers fs → Fetcher.query q' ∈ fs →
      Path root (q' :: q :: env)

/-- Every reference by name names an enclosing query. -/
def Scoped (root : Query W) : Prop :=
  ∀ q env fs name, Path root (q :: env) → q.inside = .fetchers fs → Fetcher.recursive name ∈ fs →
    ∃ x ∈ q :: env, x.name = name

/-- A name that is used as a reference. -/
def Referenced (root : Query W) (name : String) : Prop :=
  ∃ q env fs, Path root (q :: env) ∧ q.inside = .fetchers fs ∧ Fetcher.recursive name ∈ fs

/-- Queries on a token whose name is used as a reference are the same query. -/
def OnePerName (root : Query W) : Prop :=
  ∀ q env q' env', Path root (q :: env) → Path root (q' :: env') → q.name = q'.name →
    Referenced root q.name → q = q'

/-- The trees a query can reach in a tree. -/
inductive Part (t : Tree) : Tree → Prop
  | self : Part t t
  | step {t1 t2 : Tree} {l : TLine} {e : TElement} :
      Part t t1 → t1.block.successful = some l → e ∈ l.elements → TContent.tree t2 ∈ e.contents →
      Part t t2

/-- The line of a tree has elements; those without grammar only occur if the query asks for index 0 of
the reverse name, or for another name. -/
def Fine (tok : QToken) (t : Tree) : Prop :=
  ∀ l, t.block.successful = some l → l.elements ≠ [] ∧
    ((∀ e ∈ l.elements, e.grammar.isSome) ∨ (tok.elementName = tok.reverseName → tok.index = 0))

/-- The functions of a query do not panic; none takes a single content. -/
def CalmFunctions (q : Query W) : Prop :=
  (match q.inside with
    | .fn (.multi f) => ∀ cs, f cs ≠ .panic
    | .fn (.single _) => False
    | .fetchers _ => True) ∧
  (match q.fn with
    | .multi f => ∀ l, f l ≠ .panic
    | .single f => ∀ x, f x ≠ .panic)

/-- Elements without a name of their own are only asked for as the first one. -/
def Orderly (tok : QToken) : Prop := tok.elementName = tok.reverseName → tok.index = 0

end Rodkina.Query
