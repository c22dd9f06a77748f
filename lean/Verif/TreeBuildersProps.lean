import Verif.TreeBuildersRun
import Verif.CoverageProps
/-!
# C107–C112: the builders of trees and of coverages
-/

namespace Rodkina.Props

open Rodkina.Ast
open Rodkina.Ast.TreeBuild
open Rodkina.Ast.TreeBuildSpec
open Rodkina.Ast.Build (Builder listBuilder)
open Rodkina.Ast.BuildSpec (since given givenPart givenName)

/-! ## C107: what is built is what was given -/

/-- The grammar of one byte `a`. -/
def lineOfA : GLine := .mk [byteC 97]

/-- An element that holds one byte, for the container of `a`. -/
def elementOf (b : UInt8) : TElement := .mk (some (byteC 97)) [.value [] b]

/-- A token for `a`. -/
def tokenOfA : Token := .mk "A" [lineOfA] []

/-- A line of `tokenOfA` that holds one byte. -/
def tlineOf (b : UInt8) : TLine := .mk 0 lineOfA false [elementOf b]

/-- A tree of `tokenOfA` that holds one byte. -/
def treeOf (b : UInt8) : Tree := .mk tokenOfA (.mk [.mk 0 lineOfA false [], tlineOf b] (some (tlineOf b))) [] [98]

theorem tlineOf_succeeds (b : UInt8) : Succeeds (tlineOf b) :=
  (succeeds_iff _).mp rfl

theorem treeOf_first (b : UInt8) : First Succeeds [.mk 0 lineOfA false [], tlineOf b] (some (tlineOf b)) :=
  ⟨[.mk 0 lineOfA false []], [], rfl, tlineOf_succeeds b, by simp [Succeeds]⟩

theorem treeOf_wf (b : UInt8) : TreeWF (treeOf b) := by
  refine .mk _ _ _ _ (.mk _ _ (by simp) ?_ (treeOf_first b)) (by simp)
  intro l hl
  simp at hl
  rcases hl with rfl | rfl
  · exact .mk _ _ _ _ (by simp)
  · refine .mk _ _ _ _ ?_
    intro e he
    simp at he
    subst he
    refine .mk _ _ (by simp) ?_
    intro c hc
    simp at hc
    subst hc
    exact .value _ _ (by simp)

/-- **C107 (bytes).** -/
theorem C107_value (calls : List (Option (ValueCall))) (v : TVal) :
    valueBuilder.build calls = .ok v ↔
      some v.byte = givenPart ValueCall.content? calls ∧ v.prefix_ = (givenPart ValueCall.prefix_? calls).getD [] :=
  value_build calls v

example : valueBuilder.build [some (.withContent 7), some (.withPrefix (some [treeOf 97])), some (.withContent 9)] = .ok ⟨[treeOf 97], 9⟩ ∧
    valueBuilder.build [some (.withPrefix (some [treeOf 97]))] = .err :=
  ⟨(C107_value _ _).mpr ⟨rfl, rfl⟩, rfl⟩

/-- **C107 (elements).** -/
theorem C107_element (calls : List (Option (ElementCall))) (e : TElement) :
    elementBuilder.build calls = .ok e ↔
      some e.contents = givenPart ElementCall.contents? calls ∧ e.grammar = givenPart ElementCall.grammar? calls :=
  element_build calls e

example : elementBuilder.build [some (.withContents (some [.value [] 98])), some (.withGrammar (some (byteC 97)))] = .ok (elementOf 98) :=
  (C107_element _ _).mpr ⟨rfl, rfl⟩

/-- **C107 (lines).** -/
theorem C107_line (calls : List (Option (LineCall))) (l : TLine) :
    lineBuilder.build calls = .ok l ↔
      some l.index = givenPart LineCall.index? calls ∧ some l.grammar = givenPart LineCall.grammar? calls ∧
        l.isReverse = (given LineCall.isReverse? calls).getD false ∧ l.elements = (givenPart LineCall.elements? calls).getD [] :=
  line_build calls l

example : lineBuilder.build [some .isReverse, none, some (.withElements (some [elementOf 98])), some (.withGrammar (some lineOfA)),
    some (.withIndex 0)] = .ok (tlineOf 98) :=
  (C107_line _ _).mpr ⟨rfl, rfl, rfl, rfl⟩

/-- **C107 (blocks).** The lines last given, at least one, and the first of them that succeeds. -/
theorem C107_block (calls : List (Option (Option (List TLine)))) (b : Block) :
    blockBuilder.build calls = .ok b ↔
      b.lines ≠ [] ∧ some b.lines = givenPart some calls ∧ First Succeeds b.lines b.successful :=
  block_build calls b

example : blockBuilder.build [some none, some (some [.mk 0 lineOfA false [], tlineOf 98])] = .ok (treeOf 98).block :=
  (C107_block _ _).mpr ⟨by simp [treeOf, Tree.block, Block.lines], rfl, treeOf_first 98⟩

/-- **C107 (trees).** -/
theorem C107_tree (calls : List (Option (TreeCall))) (t : Tree) :
    treeBuilder.build calls = .ok t ↔
      some t.grammar = givenPart TreeCall.grammar? calls ∧ some t.block = givenPart TreeCall.block? calls ∧
        t.suffix = (givenPart TreeCall.suffix? calls).getD [] ∧ t.remaining = (givenPart TreeCall.remaining? calls).getD [] :=
  tree_build calls t

example : treeBuilder.build [some (.withSuffix (some [treeOf 97])), some (.withGrammar (some tokenOfA)), some (.withRemaining (some [])),
    some (.withSuffix none), some (.withBlock (some (treeOf 98).block)), some (.withRemaining (some [98]))] = .ok (treeOf 98) :=
  (C107_tree _ _).mpr ⟨rfl, rfl, rfl, rfl⟩

/-- **C107 (executions).** -/
theorem C107_execution (calls : List (Option (ExecutionCall))) (e : Execution) :
    executionBuilder.build calls = .ok e ↔
      some e.expectation = givenPart ExecutionCall.expectation? calls ∧ some e.result = givenPart ExecutionCall.result? calls :=
  execution_build calls e

example : executionBuilder.build [some (.withResult (some none)), some (.withExpectation (some (suiteOf true [97])))] =
    .ok ⟨suiteOf true [97], none⟩ :=
  (C107_execution _ _).mpr ⟨rfl, rfl⟩

/-- **C107 (coverages).** -/
theorem C107_coverage (calls : List (Option (CoverageCall))) (c : Coverage) :
    coverageBuilder.build calls = .ok c ↔
      some c.token = givenPart CoverageCall.token? calls ∧ some c.executions = givenPart CoverageCall.executions? calls :=
  coverage_build calls c

example : coverageBuilder.build [some (.withToken (some tokenOfA)), some (.withExecutions (some [⟨suiteOf true [97], some (treeOf 97)⟩]))] =
    .ok ⟨tokenOfA, [⟨suiteOf true [97], some (treeOf 97)⟩]⟩ :=
  (C107_coverage _ _).mpr ⟨rfl, rfl⟩

/-- **C107 (lists).** Contents, elements, trees, executions and coverages: the list last given, unless it is empty. -/
theorem C107_lists :
    (∀ calls l, contentsBuilder.build calls = .ok l ↔ l ≠ [] ∧ some l = givenPart some calls) ∧
    (∀ calls l, elementsBuilder.build calls = .ok l ↔ l ≠ [] ∧ some l = givenPart some calls) ∧
    (∀ calls l, treesBuilder.build calls = .ok l ↔ l ≠ [] ∧ some l = givenPart some calls) ∧
    (∀ calls l, executionsBuilder.build calls = .ok l ↔ l ≠ [] ∧ some l = givenPart some calls) ∧
    (∀ calls l, coveragesBuilder.build calls = .ok l ↔ l ≠ [] ∧ some l = givenPart some calls) :=
  ⟨Rodkina.Ast.BuildSpec.list_build, Rodkina.Ast.BuildSpec.list_build, Rodkina.Ast.BuildSpec.list_build,
    Rodkina.Ast.BuildSpec.list_build, Rodkina.Ast.BuildSpec.list_build⟩

example : treesBuilder.build [some (some []), some (some [treeOf 97])] = .ok [treeOf 97] ∧
    treesBuilder.build [some (some [treeOf 97]), some (some [])] = .err :=
  ⟨(C107_lists.2.2.1 _ _).mpr ⟨by simp, rfl⟩, rfl⟩

/-- **C107 (errors).** Whatever the calls, no builder panics: the only other outcome is an error. -/
theorem C107_never_panics :
    (∀ calls, valueBuilder.build calls ≠ .panic) ∧
    (∀ calls, contentBuilder.build calls ≠ .panic) ∧
    (∀ calls, elementBuilder.build calls ≠ .panic) ∧
    (∀ calls, lineBuilder.build calls ≠ .panic) ∧
    (∀ calls, treeBuilder.build calls ≠ .panic) ∧
    (∀ calls, resultBuilder.build calls ≠ .panic) ∧
    (∀ calls, executionBuilder.build calls ≠ .panic) ∧
    (∀ calls, coverageBuilder.build calls ≠ .panic) ∧
    (∀ calls, blockBuilder.build calls ≠ .panic) := by
  refine ⟨?_, ?_, ?_, ?_, ?_, ?_, ?_, ?_, ?_⟩
  · intro calls; unfold Builder.build; simp only [valueBuilder]; repeat' split
    all_goals simp
  · intro calls; unfold Builder.build; simp only [contentBuilder]; repeat' split
    all_goals simp
  · intro calls; unfold Builder.build; simp only [elementBuilder]; repeat' split
    all_goals simp
  · intro calls; unfold Builder.build; simp only [lineBuilder]; repeat' split
    all_goals simp
  · intro calls; unfold Builder.build; simp only [treeBuilder]; repeat' split
    all_goals simp
  · intro calls; unfold Builder.build; simp only [resultBuilder]; repeat' split
    all_goals simp
  · intro calls; unfold Builder.build; simp only [executionBuilder]; repeat' split
    all_goals simp
  · intro calls; unfold Builder.build; simp only [coverageBuilder]; repeat' split
    all_goals simp
  · intro calls; unfold Builder.build; simp only [blockBuilder]; repeat' split
    all_goals simp

/-! ## C108: alternatives -/

/-- **C108 (contents, exact result).** -/
theorem C108_content_partial (calls : List (Option (ContentCall))) (c : TContent) :
    contentBuilder.build calls = .ok c ↔
      (∃ v, c = .value v.prefix_ v.byte ∧ givenPart ContentCall.value? calls = some v) ∨
        (∃ t, c = .tree t ∧ givenPart ContentCall.value? calls = none ∧ givenPart ContentCall.tree? calls = some t) :=
  content_build calls c

example : contentBuilder.build [some (.withValue (some ⟨[], 97⟩)), some (.withTree (some (treeOf 97))), some (.withValue none)] =
    .ok (.tree (treeOf 97)) :=
  (C108_content_partial _ _).mpr (.inr ⟨_, rfl, rfl, rfl⟩)

/-- **C108 (results, exact result).** -/
theorem C108_result_partial (calls : List (Option (ResultCall))) (r : Option Tree) :
    resultBuilder.build calls = .ok r ↔
      (∃ t, r = some t ∧ givenPart ResultCall.tree? calls = some t) ∨
        (r = none ∧ givenPart ResultCall.tree? calls = none ∧ givenName ResultCall.error? calls ≠ "") :=
  result_build calls r

example : resultBuilder.build [some (.withError "no"), none, some (.withError "not")] = .ok none :=
  (C108_result_partial _ _).mpr (.inr ⟨rfl, rfl, by decide⟩)

/-- **C108, the claim is false.** With both given, a content is the byte and a result is the tree, even if given first. -/
theorem C108_negation :
    (∃ v t, contentBuilder.build [some (.withValue (some v)), some (.withTree (some t))] = .ok (.value v.prefix_ v.byte)) ∧
    (∃ t, resultBuilder.build [some (.withTree (some t)), some (.withError "failed")] = .ok (some t)) :=
  ⟨⟨⟨[], 97⟩, treeOf 97, rfl⟩, ⟨treeOf 97, rfl⟩⟩

/-! ## C109: what can be built -/

/-- **C109 (trees).** A tree can be built from built parts exactly when all its blocks have a line and keep the first that
succeeds, and all its elements have a content.  The tokens and lines of grammars given are arbitrary. -/
theorem C109_tree_built_iff_wellformed (t : Tree) : TreeBuilt t ↔ TreeWF t := treeBuilt_iff

example : TreeBuilt (treeOf 98) := (C109_tree_built_iff_wellformed _).mpr (treeOf_wf 98)

/-- A tree that claims another line, one without elements, cannot be built. -/
example : ¬ TreeBuilt (.mk tokenOfA (.mk [.mk 0 lineOfA false [], tlineOf 97] (some (.mk 0 lineOfA false []))) [] []) := by
  rw [C109_tree_built_iff_wellformed]
  intro h
  cases h with
  | mk _ _ _ _ hb _ =>
    cases hb with
    | mk _ _ _ _ hf => exact hf.holds.2.1 rfl

/-- **C109 (coverages).** A coverage can be built from built parts exactly when it has an execution and the trees of its
results are well-formed. -/
theorem C109_coverage_built_iff_wellformed (c : Coverage) : CoverageBuilt c ↔ CoverageWF c := coverageBuilt_iff

example : CoverageBuilt ⟨tokenOfA, [⟨suiteOf true [97], some (treeOf 97)⟩, ⟨suiteOf false [98], none⟩]⟩ := by
  refine (C109_coverage_built_iff_wellformed _).mpr ⟨by simp, ?_⟩
  intro e he t ht
  simp at he
  rcases he with rfl | rfl
  · cases ht; exact treeOf_wf 97
  · cases ht

/-! ## C110: what the parser makes can be built by hand -/

/-- **C110 (trees).** Every tree the parser returns can be built with the builders. -/
theorem C110_parsed_is_built (g : Grammar) (input : Bytes) (t : Tree) (h : Parses g input (.ok t)) : TreeBuilt t :=
  (parses_wf h).built

example : ∃ t, Parses nested [40, 32, 40, 41, 41, 32, 120] (.ok t) ∧ TreeBuilt t := by
  obtain ⟨t, h1, _⟩ := nested_run
  exact ⟨t, h1, C110_parsed_is_built nested _ t h1⟩

/-- **C110 (coverages).** Every coverage in a report can be built with the builders, and so can the report unless it is empty. -/
theorem C110_coverages_are_built (n : Nat) (g : Grammar) (cs : List Coverage) (h : coverages n g = .ok cs) :
    (∀ c ∈ cs, CoverageBuilt c) ∧ (cs ≠ [] → ∃ calls, coveragesBuilder.build calls = .ok cs) := by
  refine ⟨fun c hc => ?_, fun hne => Rodkina.Ast.BuildSpec.listBuilt_iff.mpr hne⟩
  obtain ⟨chs, _, hne, hr⟩ := C89_records_suites n g cs h c hc
  have key : ∀ ss es, RunsOf c.token chs ss es → (ss ≠ [] → es ≠ []) ∧ ∀ e ∈ es, ∀ t, e.result = some t → TreeWF t := by
    intro ss es hx
    induction hx with
    | nil => simp
    | cons s ss e es hrun _ ih =>
      refine ⟨by simp, ?_⟩
      intro e' he t ht
      simp only [List.mem_cons] at he
      rcases he with rfl | he
      · obtain ⟨_, m, hm⟩ := hrun
        rw [ht] at hm
        exact parses_wf ⟨trivial, m, hm⟩
      · exact ih.2 e' he t ht
  obtain ⟨h1, h2⟩ := key _ _ hr
  exact (C109_coverage_built_iff_wellformed c).mpr ⟨h1 hne, h2⟩

example : ∃ cs, coverages 4 covG = .ok cs ∧ cs.length = 2 ∧ ∀ c ∈ cs, CoverageBuilt c := by
  obtain ⟨cs, h1, h2⟩ := covG_run
  exact ⟨cs, h1, by simpa using congrArg List.length h2, (C110_coverages_are_built 4 covG cs h1).1⟩

/-! ## C111: what can be built can be read -/

/-- **C111 (bytes).** Reading the bytes of a tree that can be built never panics. -/
theorem C111_bytes (t : Tree) (h : TreeBuilt t) (ch : Bool) : t.readBytes ch = .ok (t.bytes ch) :=
  readBytes_tree ch t h.wf

example : (treeOf 98).readBytes true = .ok [98] := C111_bytes _ (treeOf_wf 98).built true

/-- **C111 (fetching).** Fetching from a tree that can be built never panics: it gives the first node found, or an error. -/
theorem C111_fetch (t : Tree) (h : TreeBuilt t) (name : String) (idx : Nat) :
    t.readFetch name idx = (match fetchTree name idx t with | some f => .ok f | none => .err) := by
  rw [readFetch_tree name idx t h.wf]
  rfl

example : (treeOf 98).readFetch "byte" 0 = .ok (.element (elementOf 98)) ∧ (treeOf 98).readFetch "x" 0 = .err :=
  ⟨(C111_fetch _ (treeOf_wf 98).built _ _).trans rfl, (C111_fetch _ (treeOf_wf 98).built _ _).trans rfl⟩

mutual
theorem coveredTree_ok (name : String) : (t : Tree) → TreeWF t → (m : Positions) → ∃ m', coveredTree name t m = .ok m'
  | .mk g b s r, h, m => by
    cases h with
    | mk _ _ _ _ hb _ => exact coveredBlock_ok name b hb m
termination_by structural x => x

theorem coveredBlock_ok (name : String) : (b : Block) → BlockWF b → (m : Positions) → ∃ m', coveredBlock name b m = .ok m'
  | .mk _ none, _, m => ⟨m, rfl⟩
  | .mk _ (some l), h, m => coveredLine_ok name l h.readable m _
termination_by structural x => x

theorem coveredLine_ok (name : String) : (l : TLine) → LineReadable l → (m : Positions) → (ls : List TLine) →
    ∃ m', coveredBlock name (.mk ls (some l)) m = .ok m'
  | .mk i g r es, h, m, _ => by
    have hne : es ≠ [] := h.1
    rw [coveredBlock, if_neg (by simpa using hne)]
    exact coveredElements_ok name i es 0 h.2 m
termination_by structural x => x

theorem coveredElements_ok (name : String) (i : Nat) : (es : List TElement) → (j : Nat) → (∀ e ∈ es, TElementWF e) →
    (m : Positions) → ∃ m', coveredElements name i j es m = .ok m'
  | [], _, _, m => ⟨m, rfl⟩
  | .mk none _ :: es, j, h, m => coveredElements_ok name i es (j + 1) (fun e he => h e (List.mem_cons_of_mem _ he)) m
  | .mk (some c) xs :: es, j, h, m => by
    have hx : ∀ x ∈ xs, TContentWF x := by
      have := h _ List.mem_cons_self
      cases this with
      | mk _ _ _ hc => exact hc
    obtain ⟨m', h'⟩ := coveredContents_ok c.name xs hx (m.add (name, i, j) c.name)
    obtain ⟨m'', h''⟩ := coveredElements_ok name i es (j + 1) (fun e he => h e (List.mem_cons_of_mem _ he)) m'
    refine ⟨m'', ?_⟩
    rw [coveredElements, h']
    exact h''
termination_by structural x => x

theorem coveredContents_ok (name : String) : (xs : List TContent) → (∀ x ∈ xs, TContentWF x) → (m : Positions) →
    ∃ m', coveredContents name xs m = .ok m'
  | [], _, m => ⟨m, rfl⟩
  | .value _ _ :: xs, h, m => coveredContents_ok name xs (fun x hx => h x (List.mem_cons_of_mem _ hx)) m
  | .tree t :: xs, h, m => by
    have ht : TreeWF t := by
      have := h _ List.mem_cons_self
      cases this with
      | tree _ ht => exact ht
    obtain ⟨m', h'⟩ := coveredTree_ok name t ht m
    obtain ⟨m'', h''⟩ := coveredContents_ok name xs (fun x hx => h x (List.mem_cons_of_mem _ hx)) m'
    refine ⟨m'', ?_⟩
    rw [coveredContents, h']
    exact h''
termination_by structural x => x
end

/-- **C111 (coverages).** `Covered` on coverages that were built never panics and never fails. -/
theorem C111_covered (calls : List (Option (Option (List Coverage)))) (cs : List Coverage)
    (h : coveragesBuilder.build calls = .ok cs) (hc : ∀ c ∈ cs, CoverageBuilt c) : ∃ m, covered cs = .ok m := by
  have hne := (C107_lists.2.2.2.2 _ _).mp h |>.1
  have hex : ∀ (name : String) (es : List Execution) (m : Positions), (∀ e ∈ es, ∀ t, e.result = some t → TreeWF t) →
      ∃ m', coveredExecutions name es m = .ok m' := by
    intro name es
    induction es with
    | nil => exact fun m _ => ⟨m, rfl⟩
    | cons e es ih =>
      intro m he
      cases hr : e.result with
      | none =>
        obtain ⟨m', h'⟩ := ih m (fun x hx => he x (List.mem_cons_of_mem _ hx))
        exact ⟨m', by rw [coveredExecutions, hr]; exact h'⟩
      | some t =>
        obtain ⟨m', h'⟩ := coveredTree_ok name t (he e List.mem_cons_self t hr) m
        obtain ⟨m'', h''⟩ := ih m' (fun x hx => he x (List.mem_cons_of_mem _ hx))
        refine ⟨m'', ?_⟩
        rw [coveredExecutions, hr]
        simp only
        rw [h']
        exact h''
  have hl : ∀ (l : List Coverage) (m : Positions), (∀ c ∈ l, CoverageWF c) → ∃ m', coveredList l m = .ok m' := by
    intro l
    induction l with
    | nil => exact fun m _ => ⟨m, rfl⟩
    | cons c l ih =>
      intro m hw
      obtain ⟨m', h'⟩ := hex c.token.name c.executions m (hw c List.mem_cons_self).2
      obtain ⟨m'', h''⟩ := ih m' (fun x hx => hw x (List.mem_cons_of_mem _ hx))
      refine ⟨m'', ?_⟩
      rw [coveredList, h']
      exact h''
  obtain ⟨m, hm⟩ := hl cs [] (fun c hx => coverageBuilt_iff.mp (hc c hx))
  exact ⟨m, by rw [covered, if_neg (by simpa using hne)]; exact hm⟩

example : ∃ m, covered [⟨tokenOfA, [⟨suiteOf true [97], some (treeOf 97)⟩]⟩] = .ok m :=
  C111_covered [some (some [⟨tokenOfA, [⟨suiteOf true [97], some (treeOf 97)⟩]⟩])] _ rfl (by
    intro c hc
    simp at hc
    subst hc
    refine coverageBuilt_iff.mpr ⟨by simp, ?_⟩
    intro e he t ht
    simp at he
    subst he
    cases ht
    exact treeOf_wf 97)

/-! ## C112: a tree marked successful -/

/-- The claim of C112: a tree that can be built and is marked successful is a derivation of its token. -/
def SuccessfulIsDerivation : Prop := ∀ chs t, TreeBuilt t → t.isSuccessful = true → TreeOK [] chs false t.grammar t

/-- **C112 (the part that holds).** In a tree that can be built, the line marked successful is one of the lines of the block, it is
the first that succeeds, has at least one element, and every element of it has at least one content and a number of contents its
container allows.  Missing: that the bytes, the tokens and the lines are those of the grammar. -/
theorem C112_counts_partial (t : Tree) (h : TreeBuilt t) (l : TLine) (hl : t.block.successful = some l) :
    l ∈ t.block.lines ∧ First Succeeds t.block.lines (some l) ∧ l.elements ≠ [] ∧
      ∀ e ∈ l.elements, e.contents ≠ [] ∧ ElementFits e := by
  cases h.wf with
  | mk g b s r hb hs =>
    cases hb with
    | mk ls o hne hls hf =>
      simp only [Tree.block, Block.successful] at hl
      subst hl
      obtain ⟨hm, hs⟩ := hf.holds
      refine ⟨hm, hf, succeeds_elements hs, ?_⟩
      rcases l with ⟨i, g', rev, es⟩
      intro e he
      have := hls _ hm
      cases this with
      | mk _ _ _ _ hes =>
        have hw := hes e he
        cases hw with
        | mk _ _ hc _ => exact ⟨hc, hs.2.1 _ he⟩

example : ∀ e ∈ (tlineOf 98).elements, e.contents ≠ [] ∧ ElementFits e :=
  (C112_counts_partial (treeOf 98) (treeOf_wf 98).built (tlineOf 98) rfl).2.2.2

/-- **C112, the claim is false.** A tree of the token for `a` that holds the byte `b` can be built, and is successful. -/
theorem C112_negation : TreeBuilt (treeOf 98) ∧ (treeOf 98).isSuccessful = true ∧ ¬ SuccessfulIsDerivation := by
  refine ⟨(treeOf_wf 98).built, rfl, ?_⟩
  intro h
  have ht := h [] _ (treeOf_wf 98).built rfl
  cases ht with
  | forward _ _ _ _ _ _ _ _ _ _ he =>
    cases he with
    | present _ _ _ _ _ _ _ _ _ _ _ _ hx _ =>
      have := hx (.value [] 98) (by simp)
      cases this

end Rodkina.Props
