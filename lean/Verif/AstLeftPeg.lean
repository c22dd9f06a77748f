import Verif.AstPeg

/-!
# A rule with one left-recursive alternative in front, in terms of the reference interpreter
-/

namespace Rodkina.Ast

open M

/-- The element that stands for the rule itself, exactly once
(libs/asts/domain/grammars/element.go:7-49, elementcontent.go:7-92). -/
abbrev selfRef (name : String) : Container := .element 1 (some 1) (.recursive name)

/-- The rule `name: name tail | base…` (libs/asts/domain/grammars/token.go:3-56, line.go:3-20). -/
def leftTok (name : String) (tail : List Container) (base : List GLine) : Token :=
  .mk name (.mk (selfRef name :: tail) :: base) []

/-- One of the alternatives `base`, then `tail` at most once. -/
def onceMore (sk : Bytes → Bytes) (name : String) (tail : List Container) (base : List GLine) (d : Bytes) : Option (Shape × Bytes) :=
  (pegLines sk 1 base d).map (fun x =>
    match pegSeq sk tail (sk x.2.2) with
    | some y => (.node name 0 (.mk name [.node name x.1 x.2.1] :: y.1), sk y.2)
    | none => (.node name x.1 x.2.1, sk x.2.2))

theorem pegSeq_nil (sk : Bytes → Bytes) (cs : List Container) (y : List ShapeElem × Bytes) (h : pegSeq sk cs [] = some y) : y = ([], []) := by
  induction cs generalizing y with
  | nil => simpa [pegSeq] using h.symm
  | cons c cs ih =>
    unfold pegSeq at h
    cases c with
    | compose c => simp [pegContainer] at h
    | element min max c =>
      simp only [pegContainer, greedy, List.length_nil, repeatMatch] at h
      by_cases hm : 0 < min
      · simp [hm] at h
      · simp only [hm, if_false, Option.bind_some] at h
        cases hs : pegSeq sk cs [] with
        | none => simp [hs] at h
        | some z =>
          have := ih z hs
          subst this
          simpa [hs, consElem] using h.symm

theorem pegLines_nil (sk : Bytes → Bytes) (i : Nat) (gs : List GLine) : pegLines sk i gs [] = none := by
  induction gs generalizing i with
  | nil => simp [pegLines]
  | cons g gs ih =>
    rcases g with ⟨cs⟩
    unfold pegLines pegLine
    cases h : pegSeq sk cs [] with
    | none => simpa using ih _
    | some y =>
      have := pegSeq_nil sk cs y h
      subst this
      simpa using ih _

section
variable {n K : Nat} {ctx : Ctx} {sk : Bytes → Bytes} {name : String} {tail : List Container} {base : List GLine}

/-- The end of a token call whose lines ran as given. -/
theorem close_block (hsk : SkipIs (token n) ctx.channels sk) {tok : Token} {prev cur : Bytes} {s s1 : Stk}
    {r : Option (Nat × List ShapeElem × Bytes)} (he : enter tok s = (.ok (), s1))
    (hb : BlockRun tok (blockLoop (token n) tok ctx prev cur 0 tok.lines [] s1) [] [] cur r) :
    Found (token (n + 1) tok ctx prev cur s) [] (r.map (fun x => (.node tok.name x.1 x.2.1, sk x.2.2))) := by
  have hfind : ∀ (a : List TLine), (∀ l ∈ a, l.isSuccessful = false) → a.find? TLine.isSuccessful = none := by
    intro a ha
    rw [List.find?_eq_none]
    intro l hl
    simp [ha l hl]
  have hdel : ∀ e, Stk.del [(tok.name, e)] tok.name = [] := fun e => by simp [Stk.del]
  unfold token tokenBody
  rw [bind_apply, he]
  simp only
  rw [bind_apply]
  unfold M.thenDelete
  unfold BlockRun at hb
  cases r with
  | none =>
    obtain ⟨l, lines, h1, h2⟩ := hb
    rw [h1]
    simp only [List.nil_append, hdel, Option.map_none, Found]
    cases l with
    | nil => exact .inl rfl
    | cons a l =>
      right
      simp only [List.isEmpty_cons, Bool.false_eq_true, if_false]
      rw [bind_apply]
      obtain ⟨ts, hts⟩ := hsk prev cur []
      rw [hts]
      refine ⟨_, rfl, ?_⟩
      simp only [Tree.isSuccessful, Tree.block, mkBlock, Block.successful, hfind _ h2, Option.isSome_none]
  | some x =>
    obtain ⟨l, ln, lines, h1, h2, h3, h4⟩ := hb
    rw [h1]
    simp only [List.nil_append, hdel, Option.map_some, Found]
    have hne : (l ++ [ln]).isEmpty = false := by cases l <;> rfl
    simp only [hne, Bool.false_eq_true, if_false]
    rw [bind_apply]
    obtain ⟨ts, hts⟩ := hsk prev x.2.2 []
    rw [hts]
    have hf : (l ++ [ln]).find? TLine.isSuccessful = some ln := by
      rw [List.find?_append, hfind _ h3]
      simp [h2]
    refine ⟨_, rfl, ?_, ?_, rfl⟩
    · simp [Tree.isSuccessful, Tree.block, mkBlock, Block.successful, hf]
    · simp only [Tree.shape, mkBlock, hf, Block.shape]
      exact h4

/-- Without an entry for the token the lines run as with a fresh one. -/
theorem block_fresh {rec : Rec} {tok : Token} (prev cur : Bytes) (idx : Nat) (g : GLine) (gs : List GLine) (acc : List TLine) :
    blockLoop rec tok ctx prev cur idx (g :: gs) acc [] = blockLoop rec tok ctx prev cur idx (g :: gs) acc [(tok.name, ⟨tok, []⟩)] := by
  unfold blockLoop
  simp only [bind_apply, alreadyTried, Stk.get]
  simp [bind_apply, recordLine, Stk.get, Stk.put, Stk.del]

theorem run_base (hrec : PegRec n K ctx sk) (hsk : SkipIs (token n) ctx.channels sk) (hrev : ctx.reverse = false) (hKn : K ≤ n)
    (hb : PegLines [name] base) (hD : ∀ g ∈ base, lineD g ≤ K) (prev cur : Bytes) (lines : List (Nat × Bytes))
    (hl : ∀ p ∈ lines, p.1 < 1) :
    BlockRun (leftTok name tail base) (blockLoop (token n) (leftTok name tail base) ctx prev cur 1 base []
      [(name, ⟨leftTok name tail base, lines⟩)]) [] [] cur (pegLines sk 1 base cur) :=
  run_blockLoop (path := []) hrec hsk hrev hKn (keysIn_nil []) (tok := leftTok name tail base) (by simp) prev cur base 1
    (fun g hg => mem_pegLines hb hg) hD [] lines hl

/-- The rule called from its own first alternative. -/
theorem run_inner (hrec : PegRec n K ctx sk) (hsk : SkipIs (token n) ctx.channels sk) (hrev : ctx.reverse = false) (hKn : K ≤ n)
    (hb : PegLines [name] base) (hD : ∀ g ∈ base, lineD g ≤ K) (prev cur : Bytes) :
    Found (token (n + 1) (leftTok name tail base) ctx prev cur [(name, ⟨leftTok name tail base, [(0, cur)]⟩)]) []
      ((pegLines sk 1 base cur).map (fun x => (.node name x.1 x.2.1, sk x.2.2))) := by
  refine close_block (tok := leftTok name tail base) hsk (s1 := [(name, ⟨leftTok name tail base, [(0, cur)]⟩)])
    (by simp [enter, leftTok, Token.name, Stk.get]) ?_
  have h := run_base (tail := tail) hrec hsk hrev hKn hb hD prev cur [(0, cur)] (by simp)
  have hskip : blockLoop (token n) (leftTok name tail base) ctx prev cur 0 (leftTok name tail base).lines []
      [(name, ⟨leftTok name tail base, [(0, cur)]⟩)]
      = blockLoop (token n) (leftTok name tail base) ctx prev cur 1 base [] [(name, ⟨leftTok name tail base, [(0, cur)]⟩)] := by
    change blockLoop (token n) (leftTok name tail base) ctx prev cur 0 (.mk (selfRef name :: tail) :: base) [] _ = _
    rw [blockLoop]
    simp only [bind_apply, alreadyTried, Stk.get, leftTok, Token.name]
    simp
  rw [hskip]
  exact h

/-- Outcome of the element that stands for the rule. -/
def SelfOut (o : Out (TContent × Bytes) × Stk) (r : Option (Shape × Bytes)) : Prop :=
  match r with
  | some x => ∃ tc, o = (.ok (tc, x.2), []) ∧ tc.shape = x.1
  | none => o = (.err, [])

/-- Outcome of the first line. -/
def FirstOut (o : Out (TLine × Bytes) × Stk) (cs : List Container) (r : Option (List ShapeElem × Bytes)) : Prop :=
  match r with
  | some z => ∃ es, o = (.ok (.mk 0 (.mk cs) false es, z.2), []) ∧ elementsShape es = z.1 ∧ ElemsFor cs es
  | none => o = (.err, [])

/-- The element that stands for the rule. -/
theorem run_selfRef {m : Nat} {tok : Token} {prev cur : Bytes} {s : Stk} {r : Option (Shape × Bytes)} (hne : cur ≠ [])
    (hs : recursiveToken name s = (.ok tok, s)) (h : Found (token m tok ctx prev cur s) [] r) :
    SelfOut (element (token m) (.recursive name) ctx prev cur s) r := by
  have hne' : cur.isEmpty = false := by cases cur <;> simp_all
  unfold Found at h
  unfold element elementContent
  simp only [hne', Bool.false_eq_true, if_false, bind_apply, hs]
  unfold SelfOut
  cases r with
  | none =>
    simp only at h ⊢
    rcases h with h | ⟨t, h, hs⟩
    · rw [h]
    · rw [h]
      simp only [pure_apply, treeContent, acceptContent, TContent.isSuccessful, hs, Bool.false_eq_true, if_false]
      rfl
  | some x =>
    obtain ⟨t, h, hs, hsh, hr⟩ := h
    rw [h]
    refine ⟨.tree t, ?_, ?_⟩
    · simp only [pure_apply, treeContent, acceptContent, TContent.isSuccessful, hs, if_true, hr]
    · simpa [TContent.shape] using hsh

theorem step_selfRef_ok {rec : Rec} {p0 prev cur r : Bytes} {s s' : Stk} {tc : TContent} (hne : cur ≠ [])
    (h : element rec (.recursive name) ctx prev cur s = (.ok (tc, r), s')) :
    lineStep rec ctx p0 (selfRef name) ⟨[], prev, cur⟩ s = (.ok ⟨[.mk (some (selfRef name)) [tc]], cur, r⟩, s') := by
  obtain ⟨b, d, rfl⟩ := List.exists_cons_of_ne_nil hne
  have hl : elementLoop rec (.recursive name) (some 1) ctx ((b :: d).length + 1) ⟨[], prev, b :: d⟩ s = (.ok ⟨[tc], b :: d, r⟩, s') := by
    rw [List.length_cons]
    unfold elementLoop
    simp only [List.isEmpty_cons, Bool.false_eq_true, if_false, reachedMax, List.length_nil, Nat.reduceLeDiff, decide_false, bind_apply,
      attempt, h, elementNext, List.nil_append]
    unfold elementLoop
    simp [reachedMax]
    try rfl
  unfold lineStep
  simp only [bind_apply]
  rw [hl]
  simp [goMin]
  try rfl

theorem step_selfRef_err {rec : Rec} {p0 prev cur : Bytes} {s s' : Stk} (hne : cur ≠ [])
    (h : element rec (.recursive name) ctx prev cur s = (.err, s')) :
    lineStep rec ctx p0 (selfRef name) ⟨[], prev, cur⟩ s = (.err, s') := by
  obtain ⟨b, d, rfl⟩ := List.exists_cons_of_ne_nil hne
  have hl : elementLoop rec (.recursive name) (some 1) ctx ((b :: d).length + 1) ⟨[], prev, b :: d⟩ s = (.ok ⟨[], prev, b :: d⟩, s') := by
    unfold elementLoop
    simp only [List.isEmpty_cons, Bool.false_eq_true, if_false, reachedMax, List.length_nil, Nat.reduceLeDiff, decide_false, bind_apply,
      attempt, h, elementNext]
    rfl
  unfold lineStep
  simp only [bind_apply]
  rw [hl]
  simp [goMin]
  try rfl

theorem step_selfRef_nil {rec : Rec} {p0 prev : Bytes} {s : Stk} :
    lineStep rec ctx p0 (selfRef name) ⟨[], prev, []⟩ s = (.err, s) := rfl

theorem elemsFor_selfRef (tc : TContent) : ElemsFor [selfRef name] [.mk (some (selfRef name)) [tc]] := by
  refine ⟨?_, ?_⟩
  · intro e he
    simp only [List.mem_singleton] at he
    subst he
    exact ⟨1, some 1, .recursive name, by simp, rfl, by simp [TElement.amount, TElement.contents], by simp [TElement.amount, TElement.contents],
      by simp [withinMax, TElement.amount, TElement.contents]⟩
  · intro c hc
    simp only [List.mem_singleton] at hc
    subst hc
    exact ⟨⟨_, _, _, rfl⟩, fun _ => ⟨_, List.mem_singleton.mpr rfl, rfl⟩⟩

/-- The first alternative, seen from the outer call. -/
theorem run_first (hrec : PegRec n K ctx sk) (hrec1 : PegRec (n + 1) K ctx sk) (hsk : SkipIs (token n) ctx.channels sk)
    (hsk1 : SkipIs (token (n + 1)) ctx.channels sk) (hrev : ctx.reverse = false) (hKn : K ≤ n) (hb : PegLines [name] base)
    (hD : ∀ g ∈ base, lineD g ≤ K) (ht : PegConts [name] tail) (hDt : containersD tail ≤ K) (prev cur : Bytes) (hne : cur ≠ []) :
    FirstOut (line (token (n + 1)) 0 (.mk (selfRef name :: tail)) ctx prev cur [(name, ⟨leftTok name tail base, [(0, cur)]⟩)])
      (selfRef name :: tail) ((pegLines sk 1 base cur).bind (fun x => (pegSeq sk tail (sk x.2.2)).map
        (fun y => (ShapeElem.mk name [.node name x.1 x.2.1] :: y.1, y.2)))) := by
  have hs : recursiveToken name [(name, ⟨leftTok name tail base, [(0, cur)]⟩)]
      = (.ok (leftTok name tail base), [(name, ⟨leftTok name tail base, [(0, cur)]⟩)]) := by
    simp [recursiveToken, Stk.get]
  have hel := run_selfRef hne hs (run_inner (tail := tail) hrec hsk hrev hKn hb hD prev cur)
  unfold line
  rw [bind_apply, GLine.containers, lineLoop, bind_apply]
  cases hp : pegLines sk 1 base cur with
  | none =>
    rw [hp] at hel
    rw [step_selfRef_err hne hel]
    rfl
  | some x =>
    rw [hp] at hel
    obtain ⟨tc, hel, hsh⟩ := hel
    rw [step_selfRef_ok hne hel]
    have hl := run_lineLoop (n := n + 1) (f := pegContent sk) (s := []) hsk1 prev tail
      (fun min max c h => by
        have := mem_pegConts ht h
        unfold PegCont at this
        exact this.1)
      (fun min max c h => by
        have h1 := mem_pegConts ht h
        have h2 := containersD_mem h
        unfold PegCont at h1
        unfold containerD at h2
        exact run_content hrec1 hsk1 hrev h1.2 (by omega) (by omega) (fun _ _ h => by simp at h))
      ⟨[.mk (some (selfRef name)) [tc]], cur, sk x.2.2⟩
    rw [← pegSeq_eq] at hl
    simp only [Option.bind_some] at hl ⊢
    cases hq : pegSeq sk tail (sk x.2.2) with
    | none =>
      rw [hq] at hl
      simp only [LineRun] at hl
      simp only [Option.map_none, hl]
      rfl
    | some y =>
      rw [hq] at hl
      obtain ⟨st', es, h1, h2, h3, h4, h5⟩ := hl
      simp only [Option.map_some, h1, pure_apply]
      refine ⟨st'.list, by rw [h4], ?_, ?_⟩
      · rw [h2, elementsShape_append, h3]
        simp [elementsShape, TElement.shape, Container.name, Content.name, contentsShape, hsh]
      · rw [h2]
        exact ElemsFor.cons (elemsFor_selfRef tc) h5

/-- The outer call. -/
theorem run_left (hrec : PegRec n K ctx sk) (hrec1 : PegRec (n + 1) K ctx sk) (hsk : SkipIs (token n) ctx.channels sk)
    (hsk1 : SkipIs (token (n + 1)) ctx.channels sk) (hrev : ctx.reverse = false) (hKn : K ≤ n) (hb : PegLines [name] base) (hb0 : base ≠ [])
    (hD : ∀ g ∈ base, lineD g ≤ K) (ht : PegConts [name] tail) (hDt : containersD tail ≤ K) (hsn : sameNames (selfRef name :: tail))
    (prev cur : Bytes) :
    Found (token (n + 2) (leftTok name tail base) ctx prev cur []) [] (onceMore sk name tail base cur) := by
  have hent : enter (leftTok name tail base) [] = (.ok (), [(name, ⟨leftTok name tail base, []⟩)]) := rfl
  have hstart : blockLoop (token (n + 1)) (leftTok name tail base) ctx prev cur 0 (leftTok name tail base).lines []
      [(name, ⟨leftTok name tail base, []⟩)]
      = (do let r ← attempt (line (token (n + 1)) 0 (.mk (selfRef name :: tail)) ctx prev cur)
            lineNext [] (blockLoop (token (n + 1)) (leftTok name tail base) ctx prev cur 1 base) r : M _)
        [(name, ⟨leftTok name tail base, [(0, cur)]⟩)] := by
    change blockLoop (token (n + 1)) (leftTok name tail base) ctx prev cur 0 (.mk (selfRef name :: tail) :: base) [] _ = _
    rw [blockLoop]
    simp only [bind_apply, alreadyTried, Stk.get, hrev]
    simp [bind_apply, recordLine, Stk.get, Stk.put, Stk.del, leftTok, Token.name]
  have hbase := fun lines hl => run_base (tail := tail) hrec1 hsk1 hrev (by omega) hb hD prev cur lines hl
  have hfresh : blockLoop (token (n + 1)) (leftTok name tail base) ctx prev cur 1 base [] []
      = blockLoop (token (n + 1)) (leftTok name tail base) ctx prev cur 1 base [] [(name, ⟨leftTok name tail base, []⟩)] := by
    obtain ⟨g, gs, rfl⟩ := List.exists_cons_of_ne_nil hb0
    exact block_fresh prev cur 1 g gs []
  by_cases hne : cur = []
  · subst hne
    have hz : onceMore sk name tail base [] = (none : Option (Nat × List ShapeElem × Bytes)).map
        (fun x => (.node (leftTok name tail base).name x.1 x.2.1, sk x.2.2)) := by
      simp [onceMore, pegLines_nil]
    rw [hz]
    refine close_block hsk1 hent ?_
    rw [hstart, bind_apply]
    have hl : line (token (n + 1)) 0 (.mk (selfRef name :: tail)) ctx prev [] [(name, ⟨leftTok name tail base, [(0, [])]⟩)]
        = (.err, [(name, ⟨leftTok name tail base, [(0, [])]⟩)]) := rfl
    simp only [attempt, hl, lineNext]
    have := hbase [(0, [])] (by simp)
    rwa [pegLines_nil] at this
  · have hf := run_first hrec hrec1 hsk hsk1 hrev hKn hb hD ht hDt prev cur hne
    cases hp : pegLines sk 1 base cur with
    | none =>
      rw [hp] at hf
      simp only [Option.bind_none, FirstOut] at hf
      have hz : onceMore sk name tail base cur = (none : Option (Nat × List ShapeElem × Bytes)).map
          (fun x => (.node (leftTok name tail base).name x.1 x.2.1, sk x.2.2)) := by
        simp [onceMore, hp]
      rw [hz]
      refine close_block hsk1 hent ?_
      rw [hstart, bind_apply]
      simp only [attempt, hf, lineNext]
      rw [hfresh]
      have := hbase [] (by simp)
      rwa [hp] at this
    | some x =>
      rw [hp] at hf
      simp only [Option.bind_some] at hf
      cases hq : pegSeq sk tail (sk x.2.2) with
      | none =>
        rw [hq] at hf
        simp only [Option.map_none, FirstOut] at hf
        have hz : onceMore sk name tail base cur = (some x).map
            (fun x => (.node (leftTok name tail base).name x.1 x.2.1, sk x.2.2)) := by
          simp [onceMore, hp, hq, leftTok, Token.name]
        rw [hz]
        refine close_block hsk1 hent ?_
        rw [hstart, bind_apply]
        simp only [attempt, hf, lineNext]
        rw [hfresh]
        have := hbase [] (by simp)
        rwa [hp] at this
      | some y =>
        rw [hq] at hf
        simp only [Option.map_some] at hf
        obtain ⟨es, h1, h2, h3⟩ := hf
        have hsucc := h3.successful hsn 0
        have hes : es.isEmpty = false := by
          cases es with
          | nil => simp [elementsShape] at h2
          | cons a b => rfl
        rw [hes] at hsucc
        -- the block ends with an empty map: put the entry back to use the same lemma
        have hdel : ∀ s', s' = [] → Stk.del s' name = [] := by rintro _ rfl; rfl
        have hz : onceMore sk name tail base cur = some (.node name 0 (.mk name [.node name x.1 x.2.1] :: y.1), sk y.2) := by
          simp [onceMore, hp, hq]
        rw [hz]
        unfold token tokenBody
        rw [bind_apply, hent]
        simp only
        rw [bind_apply]
        unfold M.thenDelete
        rw [hstart, bind_apply]
        simp only [attempt, h1, lineNext, hsucc, Bool.not_false, if_true, pure_apply, List.nil_append]
        obtain ⟨ts, hts⟩ := hsk1 prev y.2 []
        simp only [List.isEmpty_cons, Bool.false_eq_true, if_false]
        rw [bind_apply]
        have hd0 : Stk.del [] (leftTok name tail base).name = [] := rfl
        rw [hd0, hts]
        refine ⟨_, rfl, ?_, ?_, rfl⟩
        · simp [Tree.isSuccessful, Tree.block, mkBlock, Block.successful, hsucc]
        · simp [Tree.shape, mkBlock, hsucc, Block.shape, TLine.shape, h2, leftTok, Token.name]

end

/-- Grammars whose root is such a rule. -/
theorem left_execute {name : String} {tail : List Container} {base : List GLine} {chs : List Channel} {sk : Bytes → Bytes} {N : Nat}
    (hsk : ∀ m, N ≤ m → SkipIs (token m) chs sk) (hb0 : base ≠ []) (hb : PegLines [name] base) (ht : PegConts [name] tail)
    (hsn : sameNames (selfRef name :: tail)) (input : Bytes) :
    Agrees (.mk (leftTok name tail base) chs) input (onceMore sk name tail base input) := by
  have hK := fun n hn => peg_token (ctx := ⟨none, chs, false⟩) rfl hsk (linesD base + containersD tail) n hn
  have h := run_left (n := N + (linesD base + containersD tail)) (ctx := ⟨none, chs, false⟩) (hK _ (Nat.le_refl _)) (hK _ (by omega))
    (hsk _ (by omega)) (hsk _ (by omega)) rfl (by omega) hb hb0 (fun g hg => by have := linesD_mem hg; omega) ht (by omega) hsn [] input
  unfold Found at h
  unfold Agrees
  cases hp : onceMore sk name tail base input with
  | none =>
    rw [hp] at h
    rcases h with h | ⟨t, h, hs⟩
    · exact .inl ⟨trivial, _, by unfold execute; rw [Grammar.root, Grammar.channels, h]⟩
    · exact .inr ⟨t, ⟨trivial, _, by unfold execute; rw [Grammar.root, Grammar.channels, h]⟩, hs⟩
  | some x =>
    rw [hp] at h
    obtain ⟨t, h, hs, h2, h3⟩ := h
    exact ⟨t, ⟨trivial, _, by unfold execute; rw [Grammar.root, Grammar.channels, h]⟩, hs, h2, h3⟩

end Rodkina.Ast
