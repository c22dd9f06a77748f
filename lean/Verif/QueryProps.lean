import Verif.QueryLemmas
import Verif.AstProps

/-!
# Properties of queries: C52-C55, C85-C87
-/

namespace Rodkina.Props

open Rodkina.Query
open Rodkina.Ast (Tree TContent TElement TLine GLine Token Container Out Parses TreeOK)

variable {W : Type}

/-! ## Sample trees and queries -/

/-- An element of one byte. -/
def byteElement (name : String) (b : UInt8) : TElement :=
  .mk (some (.element 1 (some 1) (.value name b))) [.value [] b]

/-- An element of trees of a token. -/
def treeElement (ts : List Tree) (tok : Token) : TElement :=
  .mk (some (.element 0 none (.token tok))) (ts.map .tree)

/-- A tree with the given token name and elements. -/
def node (name : String) (es : List TElement) (rem : Bytes) : Tree :=
  .mk (.mk name [] []) (.mk [] (some (.mk 0 (.mk []) false es))) [] rem

/-- The bytes among contents. -/
def valuesOf (cs : List TContent) : Res (List (Any UInt8)) :=
  .ok (cs.filterMap (fun c => match c with | .value _ b => some (some b) | .tree _ => none))

/-- Keep the last instance. -/
def lastOf (l : List (Any UInt8)) : Res (Any UInt8 × Bool) := .ok (l.getLastD none, true)

/-- The query for the bytes of the `i`-th element `name` of a token. -/
def bytesQuery (tok name : String) (i : Nat) : Query UInt8 :=
  .mk ⟨tok, "reverse", name, i, none⟩ (.fn (.multi valuesOf)) (.multi lastOf)

/-! ## C52: termination -/

/-- **C52.** Executing a query ends, on every tree, with a value, an error or a panic; calls are never
nested deeper than the size of the tree. -/
theorem C52_terminates (q : Query W) (t : Tree) :
    (∃ o, Executes q t o) ∧ ∀ n, sizeOf t < n → execute n q t ≠ .oof := by
  have h : ∀ n, sizeOf t < n → execute n q t ≠ .oof :=
    fun n hn hx => ends_fetch n q t hn [] (execute_oof.mp hx)
  exact ⟨⟨_, h (sizeOf t + 1) (Nat.lt_succ_self _), _, rfl⟩, h⟩

/-- A query that refers to itself, on a tree inside a tree. -/
example : ∃ o, Executes (.mk ⟨"S", "r", "S", 0, none⟩ (.fetchers [.recursive "S"]) (.multi lastOf))
    (node "S" [treeElement [node "S" [byteElement "b" 7] []] (.mk "S" [] [])] []) o :=
  (C52_terminates _ _).1

/-! ## C53: selection -/

/-- **C53.** A query on the `i`-th element named `N` whose function takes all contents gets exactly the
contents of the `i`-th element (from zero) with that name of the successful line, or the one with the
asked number among them, or none if there are fewer such elements.  With a content number out of range
the execution fails. -/
theorem C53_selection (tok : QToken) (f : List TContent → Res (List (Any W))) (fn : QueryFn W) (t : Tree)
    (l : TLine) (hl : t.block.successful = some l) (hne : l.elements ≠ [])
    (hnamed : ∀ e ∈ l.elements, e.grammar.isSome) (hn : t.grammar.name = tok.name)
    (o : Out (Answer W)) :
    Executes (.mk tok (.fn (.multi f)) fn) t o ↔
      let wanted := (l.elements.filter (fun e => e.grammar.map Container.name = some tok.elementName))[tok.index]?
      let contents : Option (List TContent) := match wanted, tok.content with
        | none, _ => some []
        | some e, none => some e.contents
        | some e, some i => e.contents[i]?.map (fun c => [c])
      match contents with
      | none => o = .err
      | some cs => o = match f cs >>= applyQueryFn fn with
        | .ok x => .ok ⟨x.1, x.2, t.remaining⟩
        | .err => .err
        | .panic => .panic := by
  have hfine : Fine tok t := by
    intro l' hl'
    rw [hl] at hl'
    cases hl'
    exact ⟨hne, .inl hnamed⟩
  have hfilter : l.elements.filter (fun e => decide (answersTo tok e)) =
      l.elements.filter (fun e => e.grammar.map Container.name = some tok.elementName) := by
    apply List.filter_congr
    intro e he
    obtain ⟨g, hg⟩ := Option.isSome_iff_exists.mp (hnamed e he)
    refine decide_eq_decide.mpr ?_
    unfold answersTo
    rw [hg]
    simp
  have hrun : execute (sizeOf t + 1) (.mk tok (.fn (.multi f)) fn) t =
      match selection tok t >>= fun cs => f cs >>= applyQueryFn fn with
      | .ok x => .ok ⟨x.1, x.2, t.remaining⟩
      | .err => .err
      | .panic => .panic := by
    unfold execute
    show answer t (fetchBody _ _ t []) = _
    unfold fetchBody
    simp only [Query.token, Query.inside, Query.fn, insideInstances, contentFn]
    rw [queryContents_eq hfine]
    simp only [bind_run]
    cases selection tok t with
    | err => rfl
    | panic => rfl
    | ok cs =>
      simp only [QM.lift, remember, Res.bind_ok]
      cases f cs with
      | err => rfl
      | panic => rfl
      | ok list =>
        simp only [Res.bind_ok, ← queryFn_eq]
        cases applyQueryFn fn list <;> rfl
  have hex : Executes (.mk tok (.fn (.multi f)) fn) t o ↔
      o = execute (sizeOf t + 1) (.mk tok (.fn (.multi f)) fn) t := by
    have h0 := (C52_terminates (Query.mk tok (.fn (.multi f)) fn) t).2 (sizeOf t + 1) (Nat.lt_succ_self _)
    exact ⟨fun h => h.unique ⟨h0, _, rfl⟩, fun h => h ▸ ⟨h0, _, rfl⟩⟩
  rw [hex, hrun]
  unfold selection
  rw [if_pos hn, hl]
  simp only
  rw [hfilter]
  cases (l.elements.filter (fun e => e.grammar.map Container.name = some tok.elementName))[tok.index]? with
  | none => simp
  | some e =>
    cases tok.content with
    | none => simp
    | some i =>
      cases hc : e.contents[i]? with
      | none => simp [hc]
      | some c => simp [hc]

/-- The second element named `b`. -/
example : Executes (bytesQuery "S" "b" 1)
    (node "S" [byteElement "b" 7, byteElement "a" 8, byteElement "b" 9] [5])
    (.ok ⟨some 9, true, [5]⟩) := by
  refine (C53_selection _ _ _ _ _ rfl (by simp [TLine.elements]) ?_ rfl _).mpr ?_
  · simp [TLine.elements, byteElement, TElement.grammar]
  · simp [TLine.elements, byteElement, TElement.grammar, Container.name, Rodkina.Ast.Content.name,
      TElement.contents, valuesOf, lastOf, applyQueryFn, node, Tree.remaining, Option.map]

/-! ## C54: panics -/

theorem part_head {t t' : Tree} (h : Part t t') : t' = t ∨ ∃ l e t1, t.block.successful = some l ∧
    e ∈ l.elements ∧ TContent.tree t1 ∈ e.contents ∧ Part t1 t' := by
  induction h with
  | self => exact .inl rfl
  | @step t1 t2 l e hp hl he hc ih =>
    rcases ih with rfl | ⟨l', e', t1', h1, h2, h3, h4⟩
    · exact .inr ⟨l, e, t2, hl, he, hc, .self⟩
    · exact .inr ⟨l', e', t1', h1, h2, h3, .step h4 hl he hc⟩

/-- Every line a query can meet has elements. -/
def LinesHaveElements (t : Tree) : Prop :=
  ∀ t', Part t t' → ∀ l, t'.block.successful = some l → l.elements ≠ []

theorem linesHaveElements_of {t : Tree} {l : TLine} (hl : t.block.successful = some l)
    (hne : l.elements ≠ [])
    (h : ∀ e ∈ l.elements, ∀ t1, TContent.tree t1 ∈ e.contents → LinesHaveElements t1) :
    LinesHaveElements t := by
  intro t' hp l' hl'
  rcases part_head hp with rfl | ⟨l1, e, t1, h1, h2, h3, h4⟩
  · rw [hl] at hl'; cases hl'; exact hne
  · rw [hl] at h1; cases h1; exact h e h2 t1 h3 t' h4 l' hl'

theorem linesHaveElements_of_treeOK {path : List Token} {chs : List Rodkina.Ast.Channel} {rev : Bool}
    {tok : Token} {t : Tree} (h : TreeOK path chs rev tok t) : LinesHaveElements t := by
  refine TreeOK.rec
    (motive_1 := fun _ _ _ _ t _ => LinesHaveElements t)
    (motive_2 := fun _ _ _ => True)
    (motive_3 := fun _ _ _ es _ => ∀ e ∈ es, ∀ t1, TContent.tree t1 ∈ e.contents → LinesHaveElements t1)
    (motive_4 := fun _ _ _ x _ => ∀ t1, x = TContent.tree t1 → LinesHaveElements t1)
    ?_ ?_ ?_ ?_ ?_ ?_ ?_ ?_ ?_ ?_ ?_ h
  · intro path chs tok ls i g es suf rem hg _ hne _ ih _
    exact linesHaveElements_of (l := .mk i g false es) rfl hne ih
  · intro path chs tok ls i g bs suf rem hg hne _ _
    refine linesHaveElements_of (l := .mk i g true [.mk none (bs.map (.value []))]) rfl
      (by simp [TLine.elements]) ?_
    intro e he t1 ht
    simp only [TLine.elements, List.mem_singleton] at he
    subst he
    simp [TElement.contents] at ht
  · intros; trivial
  · intro path chs e he; simp at he
  · intro path chs max c cs es _ ih
    exact ih
  · intro path chs min max c cs xs es _ _ _ _ _ _ ih1 ih2 e he t1 ht
    rcases List.mem_cons.mp he with rfl | he
    · exact ih1 _ ht t1 rfl
    · exact ih2 e he t1 ht
  · intro path chs name b pre _ _ t1 h; cases h
  · intro path chs tok t _ ih t1 h; cases h; exact ih
  · intro path chs name ex esc t _ ih t1 h; cases h; exact ih
  · intro path chs tok t hm _ ih t1 h; cases h; exact ih
  · intro path chs name root channels ls l suf rem _ ih t1 h
    cases h
    have hne : l.elements ≠ [] := ih _ .self l rfl
    refine linesHaveElements_of (l := l) rfl hne ?_
    intro e he t1 ht t' hp
    refine ih t' ?_
    have : Part (.mk root (.mk ls (some l)) suf rem) t1 := .step .self rfl he ht
    clear hne ih
    induction hp with
    | self => exact this
    | step _ h1 h2 h3 ih => exact .step ih h1 h2 h3

/-- The trees of the parser are fine for orderly queries. -/
theorem fine_of_parse {g : Rodkina.Ast.Grammar} {input : Bytes} (hi : input.length < 2 ^ 63) {t : Tree}
    (h : Parses g input (.ok t)) {tok : QToken} (ho : Orderly tok) :
    ∀ t', Part t t' → Fine tok t' := by
  intro t' hp l hl
  refine ⟨?_, .inr ho⟩
  cases hs : t.isSuccessful with
  | true => exact linesHaveElements_of_treeOK (C42_trees_are_derivations g input hi t h hs) t' hp l hl
  | false =>
    have hb : t.block.successful = none := by simpa [Tree.isSuccessful] using hs
    rcases part_head hp with rfl | ⟨l1, e, t1, h1, _⟩
    · rw [hb] at hl; cases hl
    · rw [hb] at h1; cases h1

/-- **C54 (the part that holds).** On a tree made by the parser, a query does not panic if its functions
do not panic, none of them takes a single content, and nameless elements are only asked for as the
first one (also in the queries inside it). -/
theorem C54_no_panic_partial (g : Rodkina.Ast.Grammar) (input : Bytes) (hi : input.length < 2 ^ 63) (t : Tree)
    (h : Parses g input (.ok t)) (q : Query W)
    (hq : ∀ sub env, Path q (sub :: env) → CalmFunctions sub ∧ Orderly sub.token) :
    ¬ Executes q t .panic := by
  rintro ⟨_, n, hn⟩
  have hc := calm_fetch q t (fun t' hp sub env hs => fine_of_parse hi h (hq sub env hs).2 t' hp)
    (fun sub env hs => (hq sub env hs).1) n q [] t .root .self [] (by intro k x hx; simp at hx)
  unfold execute answer at hn
  cases hf : fetch n q t [] with
  | panic => exact hc.1 hf
  | ok x => rw [hf] at hn; cases hn
  | err => rw [hf] at hn; cases hn
  | oof => rw [hf] at hn; cases hn

/-- The answer of a query on what the parser makes of an input. -/
def asked (n : Nat) (g : Rodkina.Ast.Grammar) (input : Bytes) (q : Query UInt8) :
    Option (Option (Any UInt8 × Bool × Bytes)) :=
  match Rodkina.Ast.execute n g input with
  | .ok t => match execute n q t with
    | .ok a => some (some (a.instance_, a.isValid, a.remaining))
    | .panic => some none
    | _ => none
  | _ => none

theorem executes_of_asked {n : Nat} {g : Rodkina.Ast.Grammar} {input : Bytes} {q : Query UInt8}
    {a : Any UInt8} {b : Bool} {r : Bytes} (h : asked n g input q = some (some (a, b, r))) :
    ∃ t, Parses g input (.ok t) ∧ Executes q t (.ok ⟨a, b, r⟩) := by
  unfold asked at h
  cases he : Rodkina.Ast.execute n g input with
  | ok t =>
    refine ⟨t, ⟨trivial, n, he⟩, by simp, n, ?_⟩
    rw [he] at h
    simp only at h
    cases hx : execute n q t with
    | ok x => rw [hx] at h; cases x; simp at h; simp [h]
    | err => rw [hx] at h; simp at h
    | panic => rw [hx] at h; simp at h
    | oof => rw [hx] at h; simp at h
  | err => rw [he] at h; simp at h
  | panic => rw [he] at h; simp at h
  | oof => rw [he] at h; simp at h

theorem executes_of_asked_panic {n : Nat} {g : Rodkina.Ast.Grammar} {input : Bytes} {q : Query UInt8}
    (h : asked n g input q = some none) :
    ∃ t, Parses g input (.ok t) ∧ Executes q t .panic := by
  unfold asked at h
  cases he : Rodkina.Ast.execute n g input with
  | ok t =>
    refine ⟨t, ⟨trivial, n, he⟩, by simp, n, ?_⟩
    rw [he] at h
    simp only at h
    cases hx : execute n q t with
    | ok x => rw [hx] at h; simp at h
    | err => rw [hx] at h; simp at h
    | panic => rfl
    | oof => rw [hx] at h; simp at h
  | err => rw [he] at h; simp at h
  | panic => rw [he] at h; simp at h
  | oof => rw [he] at h; simp at h

/-- The second byte of `( ())` is found and nothing panics. -/
example : ∃ t, Parses nested [40, 32, 40, 41, 41, 32, 120] (.ok t) ∧
    Executes (bytesQuery "S" "byte" 1) t (.ok ⟨some 41, true, [120]⟩) ∧
    ¬ Executes (bytesQuery "S" "byte" 1) t .panic := by
  obtain ⟨t, h1, h2⟩ := executes_of_asked (n := 4) (g := nested) (input := [40, 32, 40, 41, 41, 32, 120])
    (q := bytesQuery "S" "byte" 1) (a := some 41) (b := true) (r := [120]) (by decide +kernel)
  refine ⟨t, h1, h2, C54_no_panic_partial nested _ (by simp) t h1 _ ?_⟩
  intro sub env hp
  have : sub = bytesQuery "S" "byte" 1 := by
    generalize hl : sub :: env = l at hp
    induction hp generalizing sub env with
    | root => cases hl; rfl
    | child hp hi hf ih =>
      have := ih _ _ rfl
      subst this
      cases hi
  subst this
  exact ⟨⟨fun cs => by simp [valuesOf], fun l => by simp [lastOf]⟩, by simp [Orderly, bytesQuery, Query.token]⟩

/-- A function that takes a single content. -/
def firstOf (c : TContent) : Res (List (Any UInt8)) := valuesOf [c]

/-- Everything up to a quote. -/
def quoted : Rodkina.Ast.Grammar :=
  .mk (.mk "outer" [.mk [.element 1 (some 1) (.everything "text"
    (.mk "quote" [.mk [byteC 39]] []) none)]] []) []

/-- **C54 is false**: on trees made by the parser, asking with a single-content function for an element
that is absent panics (`()` has no inner `S`), and so does asking for the second nameless element. -/
theorem C54_negation :
    (∃ t, Parses nested [40, 41] (.ok t) ∧
      Executes (.mk ⟨"S", "reverse", "S", 0, none⟩ (.fn (.single firstOf)) (.multi lastOf)) t .panic) ∧
    (∃ t, Parses quoted [97, 98, 39] (.ok t) ∧
      Executes (.mk ⟨"outer", "reverse", "text", 0, none⟩ (.fetchers [.query
        (.mk ⟨"quote", "reverse", "reverse", 1, none⟩ (.fn (.multi valuesOf)) (.multi lastOf))])
        (.multi lastOf)) t .panic) :=
  ⟨executes_of_asked_panic (n := 4) (by decide +kernel),
   executes_of_asked_panic (n := 5) (by decide +kernel)⟩

/-! ## C55: remaining bytes -/

/-- **C55.** Whenever an execution succeeds the remaining bytes are those of the tree. -/
theorem C55_remaining (q : Query W) (t : Tree) (a : Answer W) (h : Executes q t (.ok a)) :
    a.remaining = t.remaining := by
  obtain ⟨_, n, hn⟩ := h
  unfold execute answer at hn
  cases hf : fetch n q t [] with
  | ok x => rw [hf] at hn; cases hn; rfl
  | err => rw [hf] at hn; cases hn
  | panic => rw [hf] at hn; cases hn
  | oof => rw [hf] at hn; cases hn

example : ∃ t, Parses nested [40, 32, 40, 41, 41, 32, 120] (.ok t) ∧ t.remaining = [120] := by
  obtain ⟨t, h1, h2⟩ := executes_of_asked (n := 4) (g := nested) (input := [40, 32, 40, 41, 41, 32, 120])
    (q := bytesQuery "S" "byte" 1) (a := some 41) (b := true) (r := [120]) (by decide +kernel)
  exact ⟨t, h1, (C55_remaining _ _ _ h2).symm⟩

/-! ## C85: references by name -/

/-- An outcome of the reference semantics as an outcome of an execution. -/
def asAnswer (t : Tree) (r : Res (Any W × Bool)) : Out (Answer W) :=
  match r with
  | .ok x => .ok ⟨x.1, x.2, t.remaining⟩
  | .err => .err
  | .panic => .panic

/-- **C85 (the part that holds).** If every reference by name names an enclosing query, and queries with a
referenced name are one and the same, then executing a query on a tree made by the parser gives what
the reference semantics gives, in which a reference stands for the enclosing query of that name. -/
theorem C85_references_are_lexical_partial (g : Rodkina.Ast.Grammar) (input : Bytes)
    (hi : input.length < 2 ^ 63) (t : Tree) (h : Parses g input (.ok t)) (q : Query W)
    (hs : Scoped q) (ho : OnePerName q) (hq : ∀ sub env, Path q (sub :: env) → Orderly sub.token)
    (o : Out (Answer W)) : Executes q t o ↔ o = asAnswer t (eval [] q t) := by
  have hr := refines_fetch q hs ho t
    (fun t' hp sub env hsub => fine_of_parse hi h (hq sub env hsub) t' hp)
    (sizeOf t + 1) q [] t [] (Nat.lt_succ_self _) .root .self (by intro k x hx; simp at hx) (by simp)
  have hx : execute (sizeOf t + 1) q t = asAnswer t (eval [] q t) := by
    unfold execute
    unfold Refines at hr
    cases he : eval [] q t with
    | ok x =>
      rw [he] at hr
      obtain ⟨p', h1, _⟩ := hr
      rw [h1]; rfl
    | err => rw [he] at hr; simp only at hr; rw [hr]; rfl
    | panic => rw [he] at hr; simp only at hr; rw [hr]; rfl
  have hne : asAnswer t (eval [] q t) ≠ .oof := by unfold asAnswer; split <;> simp
  have hx' : Executes q t (asAnswer t (eval [] q t)) := ⟨hne, _, hx⟩
  exact ⟨fun h => h.unique hx', fun h => h ▸ hx'⟩

/-- `S: '(' T ')'`, `T: S | 'x'`. -/
def stGrammar : Rodkina.Ast.Grammar :=
  .mk (.mk "S" [.mk [byteC 40, .element 1 (some 1) (.token (.mk "T" [
    .mk [.element 1 (some 1) (.recursive "S")], .mk [byteC 120]] [])), byteC 41]] []) []

/-- The `x` of a `T`. -/
def xQuery : Query UInt8 := bytesQuery "T" "byte" 0

/-- What is found in the `S` of a `T`, by reference. -/
def innerQuery : Query UInt8 :=
  .mk ⟨"T", "reverse", "S", 0, none⟩ (.fetchers [.recursive "S"]) (.multi lastOf)

/-- The `x` at any depth. -/
def deepQuery : Query UInt8 :=
  .mk ⟨"S", "reverse", "T", 0, none⟩ (.fetchers [.query innerQuery, .query xQuery]) (.multi lastOf)

theorem deepQuery_paths {l : List (Query UInt8)} (h : Path deepQuery l) :
    l = [deepQuery] ∨ l = [innerQuery, deepQuery] ∨ l = [xQuery, deepQuery] := by
  induction h with
  | root => simp
  | @child q q' env fs hp hi hf ih =>
    simp only [List.cons.injEq] at ih
    rcases ih with ⟨rfl, rfl⟩ | ⟨rfl, rfl⟩ | ⟨rfl, rfl⟩
    · simp only [deepQuery, Query.inside, Inside.fetchers.injEq] at hi
      subst hi
      simp only [List.mem_cons, Fetcher.query.injEq, List.not_mem_nil, or_false] at hf
      rcases hf with rfl | rfl <;> simp
    · simp only [innerQuery, Query.inside, Inside.fetchers.injEq] at hi
      subst hi
      simp at hf
    · simp [xQuery, bytesQuery, Query.inside] at hi

theorem deepQuery_scoped : Scoped deepQuery := by
  intro q env fs name hp hi hf
  have := deepQuery_paths hp
  simp only [List.cons.injEq] at this
  rcases this with ⟨rfl, rfl⟩ | ⟨rfl, rfl⟩ | ⟨rfl, rfl⟩
  · simp only [deepQuery, Query.inside, Inside.fetchers.injEq] at hi
    subst hi
    simp at hf
  · simp only [innerQuery, Query.inside, Inside.fetchers.injEq] at hi
    subst hi
    simp only [List.mem_singleton, Fetcher.recursive.injEq] at hf
    subst hf
    exact ⟨deepQuery, by simp, rfl⟩
  · simp [xQuery, bytesQuery, Query.inside] at hi

theorem deepQuery_onePerName : OnePerName deepQuery := by
  intro q env q' env' hp hp' hn hr
  have hS : q.name = "S" := by
    obtain ⟨a, e, fs, ha, hi, hf⟩ := hr
    have := deepQuery_paths ha
    simp only [List.cons.injEq] at this
    rcases this with ⟨rfl, rfl⟩ | ⟨rfl, rfl⟩ | ⟨rfl, rfl⟩
    · simp only [deepQuery, Query.inside, Inside.fetchers.injEq] at hi
      subst hi
      simp at hf
    · simp only [innerQuery, Query.inside, Inside.fetchers.injEq] at hi
      subst hi
      simpa using hf
    · simp [xQuery, bytesQuery, Query.inside] at hi
  have key : ∀ q env, Path deepQuery (q :: env) → q.name = "S" → q = deepQuery := by
    intro q env hp hn
    have := deepQuery_paths hp
    simp only [List.cons.injEq] at this
    rcases this with ⟨rfl, rfl⟩ | ⟨rfl, rfl⟩ | ⟨rfl, rfl⟩
    · rfl
    · simp [innerQuery, Query.name, Query.token] at hn
    · simp [xQuery, bytesQuery, Query.name, Query.token] at hn
  rw [key q env hp hS, key q' env' hp' (hn ▸ hS)]

theorem deepQuery_orderly : ∀ sub env, Path deepQuery (sub :: env) → Orderly sub.token := by
  intro q env hp
  have := deepQuery_paths hp
  simp only [List.cons.injEq] at this
  rcases this with ⟨rfl, rfl⟩ | ⟨rfl, rfl⟩ | ⟨rfl, rfl⟩ <;>
    simp [deepQuery, innerQuery, xQuery, bytesQuery, Query.token, Orderly]

/-- In `((x))` the `x` is found through the reference. -/
example : ∃ t, Parses stGrammar [40, 40, 120, 41, 41] (.ok t) ∧
    Executes deepQuery t (.ok ⟨some 120, true, []⟩) ∧
    asAnswer t (eval [] deepQuery t) = .ok ⟨some 120, true, []⟩ := by
  obtain ⟨t, h1, h2⟩ := executes_of_asked (n := 6) (g := stGrammar) (input := [40, 40, 120, 41, 41])
    (q := deepQuery) (a := some 120) (b := true) (r := []) (by decide +kernel)
  exact ⟨t, h1, h2, ((C85_references_are_lexical_partial stGrammar _ (by simp) t h1 deepQuery
    deepQuery_scoped deepQuery_onePerName deepQuery_orderly _).mp h2).symm⟩

/-- How many instances there are. -/
def countOf (l : List (Any UInt8)) : Res (Any UInt8 × Bool) := .ok (some l.length.toUInt8, true)

/-- The last byte of the inner `S` and, by reference, what the query finds in that `S`. -/
def shadowed : Query UInt8 :=
  .mk ⟨"S", "reverse", "S", 0, none⟩ (.fetchers [.query (bytesQuery "S" "byte" 0), .recursive "S"])
    (.multi countOf)

/-- The inner `S` of `(())`. -/
def innerS : Tree := node "S" [byteElement "byte" 40, byteElement "byte" 41] []

/-- The tree of `(())`. -/
def outerS : Tree :=
  node "S" [byteElement "byte" 40, treeElement [innerS] (.mk "S" [] []), byteElement "byte" 41] []

theorem shadowed_scoped : Scoped shadowed := by
  have paths : ∀ l, Path shadowed l → l = [shadowed] ∨ l = [bytesQuery "S" "byte" 0, shadowed] := by
    intro l h
    induction h with
    | root => simp
    | @child q q' env fs hp hi hf ih =>
      simp only [List.cons.injEq] at ih
      rcases ih with ⟨rfl, rfl⟩ | ⟨rfl, rfl⟩
      · simp only [shadowed, Query.inside, Inside.fetchers.injEq] at hi
        subst hi
        simp only [List.mem_cons, Fetcher.query.injEq, List.not_mem_nil, or_false, reduceCtorEq] at hf
        subst hf
        simp
      · simp [bytesQuery, Query.inside] at hi
  intro q env fs name hp hi hf
  have := paths _ hp
  simp only [List.cons.injEq] at this
  rcases this with ⟨rfl, rfl⟩ | ⟨rfl, rfl⟩
  · simp only [shadowed, Query.inside, Inside.fetchers.injEq] at hi
    subst hi
    simp only [List.mem_cons, reduceCtorEq, Fetcher.recursive.injEq, List.not_mem_nil, or_false,
      false_or] at hf
    subst hf
    exact ⟨shadowed, by simp, rfl⟩
  · simp [bytesQuery, Query.inside] at hi

theorem shadowed_selects : selection shadowed.token outerS = .ok [.tree innerS] := by
  simp [selection, shadowed, Query.token, outerS, node, Tree.grammar, Tree.block, Token.name,
    Rodkina.Ast.Block.successful, TLine.elements, answersTo, byteElement, treeElement,
    TElement.grammar, Container.name, Rodkina.Ast.Content.name, TElement.contents, List.filter_cons]

theorem shadowed_eval : eval [] shadowed outerS = .ok (some 1, true) := by
  have s1 := shadowed_selects
  have s2 : selection shadowed.token innerS = .ok [] := by
    simp [selection, shadowed, Query.token, innerS, node, Tree.grammar, Tree.block, Token.name,
      Rodkina.Ast.Block.successful, TLine.elements, answersTo, byteElement,
      TElement.grammar, Container.name, Rodkina.Ast.Content.name, List.filter_cons]
  have s3 : selection (bytesQuery "S" "byte" 0).token innerS = .ok [.value [] 40] := by
    simp [selection, bytesQuery, Query.token, innerS, node, Tree.grammar, Tree.block, Token.name,
      Rodkina.Ast.Block.successful, TLine.elements, answersTo, byteElement,
      TElement.grammar, Container.name, Rodkina.Ast.Content.name, TElement.contents, List.filter_cons]
  have e2 : eval [] shadowed innerS = .ok (none, false) := by
    rw [eval_eq, s2]; rfl
  have e3 : eval [shadowed] (bytesQuery "S" "byte" 0) innerS = .ok (some 40, true) := by
    rw [eval_eq, s3]; rfl
  have o1 : evalOne [] shadowed (.tree innerS) (.query (bytesQuery "S" "byte" 0)) = .ok [some 40] := by
    simp only [evalOne, e3]; rfl
  have o2 : evalOne [] shadowed (.tree innerS) (.recursive "S") = .ok [] := by
    have : scope [shadowed] "S" = [shadowed] := rfl
    simp only [evalOne, this, e2]; rfl
  rw [eval_eq, s1]
  have : evalInside [] shadowed [.tree innerS] = .ok [some 40] := by
    show concatM _ _ = _
    rw [concatM_cons, concatM_cons, concatM_cons, o1, o2]
    rfl
  rw [Res.bind_ok, this]
  rfl

/-- **C85 is false in general**: a query inside on the same token takes the place of the enclosing
one.  In `(())` the inner `S` has one byte query result and, as it has no inner `S` itself, no result
of the enclosing query; the execution finds two instances because the reference is answered by the
byte query. -/
theorem C85_negation : ∃ (q : Query UInt8) (t : Tree), Scoped q ∧
    (∀ t', Part t t' → ∀ sub env, Path q (sub :: env) → Fine sub.token t') ∧
    Executes q t (.ok ⟨some 2, true, []⟩) ∧
    asAnswer t (eval [] q t) = .ok ⟨some 1, true, []⟩ := by
  refine ⟨shadowed, outerS, shadowed_scoped, ?_, ⟨by simp, 4, ?_⟩, by rw [shadowed_eval]; rfl⟩
  · have inner : ∀ t', Part innerS t' → t' = innerS := by
      intro t' h
      rcases part_head h with h | ⟨l, e, t1, hl, he, hc, _⟩
      · exact h
      · simp only [innerS, node, Tree.block, Rodkina.Ast.Block.successful, Option.some.injEq] at hl
        subst hl
        simp only [TLine.elements, List.mem_cons, List.not_mem_nil, or_false] at he
        rcases he with rfl | rfl <;> simp [byteElement, TElement.contents] at hc
    intro t' h sub env _ l hl
    refine ⟨?_, .inl ?_⟩
    all_goals
      rcases part_head h with rfl | ⟨l', e, t1, hl', he, hc, ht⟩
      · simp only [outerS, node, Tree.block, Rodkina.Ast.Block.successful, Option.some.injEq] at hl
        subst hl
        simp [TLine.elements, byteElement, treeElement, TElement.grammar]
      · have : t' = innerS := by
          simp only [outerS, node, Tree.block, Rodkina.Ast.Block.successful, Option.some.injEq] at hl'
          subst hl'
          simp only [TLine.elements, List.mem_cons, List.not_mem_nil, or_false] at he
          rcases he with rfl | rfl | rfl
          · simp [byteElement, TElement.contents] at hc
          · simp only [treeElement, TElement.contents, List.map_cons, List.map_nil, List.mem_singleton,
              TContent.tree.injEq] at hc
            subst hc
            exact inner t' ht
          · simp [byteElement, TElement.contents] at hc
        subst this
        simp only [innerS, node, Tree.block, Rodkina.Ast.Block.successful, Option.some.injEq] at hl
        subst hl
        simp [TLine.elements, byteElement, TElement.grammar]
  · rfl

/-! ## C86: fetchers for several tokens -/

/-- **C86.** If a query with fetchers succeeds on a tree and selects a tree, every query among the
fetchers is on the token of that tree.  So a query with fetchers on two different tokens fails
whenever it selects a tree. -/
theorem C86_fetchers_all_match (q : Query W) (fs : List (Fetcher W)) (hfs : q.inside = .fetchers fs)
    (t : Tree) (hf : Fine q.token t) (a : Answer W) (h : Executes q t (.ok a))
    (cs : List TContent) (hcs : selection q.token t = .ok cs) (t' : Tree) (ht : .tree t' ∈ cs)
    (q' : Query W) (hq : .query q' ∈ fs) : q'.name = t'.grammar.name := by
  obtain ⟨_, n, hn⟩ := h
  unfold execute answer at hn
  cases hx : fetch n q t [] with
  | ok x =>
    obtain ⟨m, cs', _, hc, hall⟩ := fetch_ok hx
    rw [queryContents_eq hf, hcs] at hc
    cases hc
    obtain ⟨p1, r1, p2, hone⟩ := hall fs hfs _ ht _ hq
    have hone : (fetch m q' t' >>= fun r => pure (if r.2 then [r.1] else [])) p1 = .ok (r1, p2) := hone
    rw [bind_run] at hone
    cases hy : fetch m q' t' p1 with
    | ok y =>
      obtain ⟨_, _, _, hname, _⟩ := fetch_ok hy
      exact queryContents_name hname
    | err => rw [hy] at hone; cases hone
    | panic => rw [hy] at hone; cases hone
    | oof => rw [hy] at hone; cases hone
  | err => rw [hx] at hn; cases hn
  | panic => rw [hx] at hn; cases hn
  | oof => rw [hx] at hn; cases hn

theorem outerS_fine (tok : QToken) : Fine tok outerS := by
  intro l hl
  simp only [outerS, node, Tree.block, Rodkina.Ast.Block.successful, Option.some.injEq] at hl
  subst hl
  exact ⟨by simp [TLine.elements], .inl (by simp [TLine.elements, byteElement, treeElement, TElement.grammar])⟩

/-- In `(())` the query for the inner byte is on the token of the selected tree. -/
example : (bytesQuery "S" "byte" 0).name = innerS.grammar.name :=
  C86_fetchers_all_match shadowed _ rfl outerS (outerS_fine _) ⟨some 2, true, []⟩ ⟨by simp, 4, rfl⟩
    [.tree innerS] shadowed_selects innerS (by simp) _ (by simp)

/-- **C86, consequence.** A query with fetchers on two different tokens fails (error or panic) whenever
it selects a tree. -/
theorem C86_two_tokens_fail (q : Query W) (fs : List (Fetcher W)) (hfs : q.inside = .fetchers fs)
    (t : Tree) (hf : Fine q.token t) (cs : List TContent) (hcs : selection q.token t = .ok cs)
    (t' : Tree) (ht : .tree t' ∈ cs) (q1 q2 : Query W) (h1 : .query q1 ∈ fs) (h2 : .query q2 ∈ fs)
    (hne : q1.name ≠ q2.name) : ∀ a, ¬ Executes q t (.ok a) := by
  intro a ha
  exact hne ((C86_fetchers_all_match q fs hfs t hf a ha cs hcs t' ht q1 h1).trans
    (C86_fetchers_all_match q fs hfs t hf a ha cs hcs t' ht q2 h2).symm)

/-- Fetchers on `S` and on `T` for the inner `S` of `(())`. -/
example : ∀ a, ¬ Executes (.mk ⟨"S", "reverse", "S", 0, none⟩
    (.fetchers [.query (bytesQuery "S" "byte" 0), .query (bytesQuery "T" "byte" 0)]) (.multi countOf))
    outerS (.ok a) :=
  C86_two_tokens_fail _ _ rfl outerS (outerS_fine _) [.tree innerS] shadowed_selects innerS (by simp)
    (bytesQuery "S" "byte" 0) (bytesQuery "T" "byte" 0) (by simp) (by simp)
    (by simp [bytesQuery, Query.name, Query.token])

/-! ## C87: Matches -/

/-- A query on another token than the root of the grammar fails on every tree of the parser. -/
theorem C87_other_token_fails (g : Rodkina.Ast.Grammar) (q : Query W) (hq : q.name ≠ g.root.name)
    (input : Bytes) (hi : input.length < 2 ^ 63) (t : Tree) (h : Parses g input (.ok t)) :
    Executes q t .err := by
  refine ⟨by simp, 1, ?_⟩
  have hc : queryContents q.token t = .err := by
    unfold queryContents
    split
    · rfl
    · rename_i hn
      cases hs : t.block.successful with
      | none => rfl
      | some l =>
        have ht := C42_trees_are_derivations g input hi t h (by simp [Tree.isSuccessful, hs])
        have : t.grammar = g.root := by cases ht; rfl
        rw [this] at hn
        exact absurd hq (by simpa [Query.name] using hn)
  show answer t (fetchBody _ q t []) = _
  unfold fetchBody
  rw [hc]
  rfl

/-- **C87 is false**: `Matches` says that every query matches every grammar, yet a query that is not on the
root token fails on every tree the parser makes for the grammar. -/
theorem C87_negation : ∃ (g : Rodkina.Ast.Grammar) (q : Query UInt8), matches_ g q = .ok true ∧
    (∃ input t, Parses g input (.ok t) ∧ t.isSuccessful = true) ∧
    ∀ input t, input.length < 2 ^ 63 → Parses g input (.ok t) → Executes q t .err := by
  refine ⟨nested, bytesQuery "T" "byte" 0, rfl, ?_, ?_⟩
  · obtain ⟨t, h, hs, _⟩ := nested_run
    exact ⟨_, t, h, hs⟩
  · intro input t hi h
    refine C87_other_token_fails nested _ ?_ input hi t h
    simp [bytesQuery, Query.name, Query.token, nested, Rodkina.Ast.Grammar.root, Token.name]

end Rodkina.Props
