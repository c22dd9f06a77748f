import Verif.AstLeftPeg
import Verif.AstMono

/-!
# A rule with two left-recursive alternatives in front
-/

namespace Rodkina.Ast

open M

/-- The rule `name: name t1 | name t2 | base…` (libs/asts/domain/grammars/token.go:3-56, line.go:3-20). -/
def leftTok2 (name : String) (t1 t2 : List Container) (base : List GLine) : Token :=
  .mk name (.mk (selfRef name :: t1) :: .mk (selfRef name :: t2) :: base) []

/-- The alternatives `base`, whose numbers start at `i`. -/
def pegBase (sk : Bytes → Bytes) (name : String) (i : Nat) (base : List GLine) (d : Bytes) : Option (Shape × Bytes) :=
  (pegLines sk i base d).map (fun x => (.node name x.1 x.2.1, sk x.2.2))

/-- Alternative `i`, when its first element is `r` and its other elements are `tail`. -/
def thenTail (sk : Bytes → Bytes) (name : String) (i : Nat) (tail : List Container) (r : Option (Shape × Bytes)) : Option (Shape × Bytes) :=
  r.bind (fun x => (pegSeq sk tail x.2).map (fun y => (.node name i (.mk name [x.1] :: y.1), sk y.2)))

/-- Outcome of a line. -/
def LineOut (o : Out (TLine × Bytes) × Stk) (i : Nat) (cs : List Container) (r : Option (List ShapeElem × Bytes)) : Prop :=
  match r with
  | some z => ∃ es, o = (.ok (.mk i (.mk cs) false es, z.2), []) ∧ elementsShape es = z.1 ∧ ElemsFor cs es
  | none => o = (.err, [])

/-- Outcome of the lines of a token; the map holds nothing but the token. -/
def LinesRun (tok : Token) (o : Out (List TLine × Bytes) × Stk) (cur : Bytes) (r : Option (Shape × Bytes)) : Prop :=
  match r with
  | some x => ∃ ls l s', o = (.ok (ls ++ [l], x.2), s') ∧ s'.del tok.name = [] ∧ l.isSuccessful = true ∧
      (∀ l ∈ ls, l.isSuccessful = false) ∧ TLine.shape tok.name l = x.1
  | none => ∃ ls s', o = (.ok (ls, cur), s') ∧ s'.del tok.name = [] ∧ (∀ l ∈ ls, l.isSuccessful = false)

section
variable {n m K : Nat} {ctx : Ctx} {sk : Bytes → Bytes} {name : String}

theorem linesRun_of {tok : Token} {o : Out (List TLine × Bytes) × Stk} {cur : Bytes} {r : Option (Nat × List ShapeElem × Bytes)}
    (h : BlockRun tok o [] [] cur r) : LinesRun tok o cur (r.map (fun x => (.node tok.name x.1 x.2.1, x.2.2))) := by
  have hdel : ∀ e, Stk.del [(tok.name, e)] tok.name = [] := fun e => by simp [Stk.del]
  unfold BlockRun at h
  cases r with
  | none =>
    obtain ⟨ls, lines, h1, h2⟩ := h
    exact ⟨ls, _, by simpa using h1, hdel _, h2⟩
  | some x =>
    obtain ⟨ls, l, lines, h1, h2, h3, h4⟩ := h
    exact ⟨ls, l, _, by simpa using h1, hdel _, h2, h3, h4⟩

theorem close_lines (hsk : SkipIs (token n) ctx.channels sk) {tok : Token} {prev cur : Bytes} {s s1 : Stk}
    {r : Option (Shape × Bytes)} (he : enter tok s = (.ok (), s1))
    (hb : LinesRun tok (blockLoop (token n) tok ctx prev cur 0 tok.lines [] s1) cur r) :
    Found (token (n + 1) tok ctx prev cur s) [] (r.map (fun x => (x.1, sk x.2))) := by
  have hfind : ∀ (a : List TLine), (∀ l ∈ a, l.isSuccessful = false) → a.find? TLine.isSuccessful = none := by
    intro a ha
    rw [List.find?_eq_none]
    intro l hl
    simp [ha l hl]
  unfold token tokenBody
  rw [bind_apply, he]
  simp only
  rw [bind_apply]
  unfold M.thenDelete
  unfold LinesRun at hb
  cases r with
  | none =>
    obtain ⟨l, s', h1, hd, h2⟩ := hb
    rw [h1]
    simp only [hd, Option.map_none, Found]
    cases l with
    | nil => exact .inl rfl
    | cons a l =>
      right
      simp only [List.isEmpty_cons, Bool.false_eq_true, if_false]
      rw [bind_apply]
      obtain ⟨ts, hts⟩ := hsk prev cur []
      rw [hts]
      refine ⟨_, rfl, ?_⟩
      simp only [Tree.isSuccessful, Tree.block, mkBlock, Block.successful, hfind _ h2, Option.isSome_none]
  | some x =>
    obtain ⟨l, ln, s', h1, hd, h2, h3, h4⟩ := hb
    rw [h1]
    simp only [hd, Option.map_some, Found]
    have hne : (l ++ [ln]).isEmpty = false := by cases l <;> rfl
    simp only [hne, Bool.false_eq_true, if_false]
    rw [bind_apply]
    obtain ⟨ts, hts⟩ := hsk prev x.2 []
    rw [hts]
    have hf : (l ++ [ln]).find? TLine.isSuccessful = some ln := by
      rw [List.find?_append, hfind _ h3]
      simp [h2]
    refine ⟨_, rfl, ?_, ?_, rfl⟩
    · simp [Tree.isSuccessful, Tree.block, mkBlock, Block.successful, hf]
    · simp only [Tree.shape, mkBlock, hf, Block.shape]
      exact h4

/-- A left-recursive line whose first element is `r`. -/
theorem run_leftLine (hrec : PegRec m K ctx sk) (hsk : SkipIs (token m) ctx.channels sk) (hrev : ctx.reverse = false) (hKm : K ≤ m)
    {tail : List Container} (ht : PegConts [name] tail) (hDt : containersD tail ≤ K) {tok : Token} {s : Stk} {prev cur : Bytes}
    {r : Option (Shape × Bytes)} (hne : cur ≠ []) (hs : recursiveToken name s = (.ok tok, s)) (h : Found (token m tok ctx prev cur s) [] r)
    (i : Nat) :
    LineOut (line (token m) i (.mk (selfRef name :: tail)) ctx prev cur s) i (selfRef name :: tail)
      (r.bind (fun x => (pegSeq sk tail x.2).map (fun y => (ShapeElem.mk name [x.1] :: y.1, y.2)))) := by
  have hel := run_selfRef hne hs h
  unfold line
  rw [bind_apply, GLine.containers, lineLoop, bind_apply]
  cases r with
  | none =>
    rw [step_selfRef_err hne hel]
    rfl
  | some x =>
    obtain ⟨tc, hel, hsh⟩ := hel
    rw [step_selfRef_ok hne hel]
    have hl := run_lineLoop (n := m) (f := pegContent sk) (s := []) hsk prev tail
      (fun min max c h => by
        have := mem_pegConts ht h
        unfold PegCont at this
        exact this.1)
      (fun min max c h => by
        have h1 := mem_pegConts ht h
        have h2 := containersD_mem h
        unfold PegCont at h1
        unfold containerD at h2
        exact run_content hrec hsk hrev h1.2 (by omega) hKm (fun _ _ h => by simp at h))
      ⟨[.mk (some (selfRef name)) [tc]], cur, x.2⟩
    rw [← pegSeq_eq] at hl
    simp only [Option.bind_some] at hl ⊢
    cases hq : pegSeq sk tail x.2 with
    | none =>
      rw [hq] at hl
      simp only [LineRun] at hl
      simp only [Option.map_none, hl]
      rfl
    | some y =>
      rw [hq] at hl
      obtain ⟨st', es, h1, h2, h3, h4, h5⟩ := hl
      simp only [Option.map_some, h1, pure_apply]
      refine ⟨st'.list, by rw [h4], ?_, ?_⟩
      · rw [h2, elementsShape_append, h3]
        simp [elementsShape, TElement.shape, Container.name, Content.name, contentsShape, hsh]
      · rw [h2]
        exact ElemsFor.cons (elemsFor_selfRef tc) h5

/-- States in which a line is not under way on these bytes. -/
def Free (tok : Token) (i : Nat) (cur : Bytes) (s : Stk) (ls : List (Nat × Bytes)) : Prop :=
  (s = [] ∧ ls = []) ∨ (s = [(tok.name, ⟨tok, ls⟩)] ∧ ls.lookup i ≠ some cur)

/-- One line of a token, when it is not under way. -/
theorem block_step {rec : Rec} (hrev : ctx.reverse = false) {tok : Token} {prev cur : Bytes} {i : Nat} {s : Stk} {ls : List (Nat × Bytes)}
    (hf : Free tok i cur s ls) (g : GLine) (gs : List GLine) :
    blockLoop rec tok ctx prev cur i (g :: gs) [] s
      = (do let r ← attempt (line rec i g ctx prev cur)
            lineNext [] (blockLoop rec tok ctx prev cur (i + 1) gs) r : M _) [(tok.name, ⟨tok, (i, cur) :: ls⟩)] := by
  rw [blockLoop]
  rcases hf with ⟨rfl, rfl⟩ | ⟨rfl, h⟩
  · simp only [bind_apply, alreadyTried, Stk.get, hrev]
    simp [bind_apply, recordLine, Stk.get, Stk.put, Stk.del]
  · simp only [bind_apply, alreadyTried, Stk.get, hrev]
    simp [bind_apply, recordLine, Stk.get, Stk.put, Stk.del, h]

theorem block_tried {rec : Rec} {tok : Token} {prev cur : Bytes} {i : Nat} {ls : List (Nat × Bytes)} (h : ls.lookup i = some cur)
    (g : GLine) (gs : List GLine) :
    blockLoop rec tok ctx prev cur i (g :: gs) [] [(tok.name, ⟨tok, ls⟩)]
      = blockLoop rec tok ctx prev cur (i + 1) gs [] [(tok.name, ⟨tok, ls⟩)] := by
  rw [blockLoop]
  simp only [bind_apply, alreadyTried, Stk.get]
  simp [h]

theorem block_left (hrec : PegRec m K ctx sk) (hsk : SkipIs (token m) ctx.channels sk) (hrev : ctx.reverse = false) (hKm : K ≤ m)
    {tok : Token} {tail : List Container} (ht : PegConts [tok.name] tail) (hDt : containersD tail ≤ K)
    (hsn : sameNames (selfRef tok.name :: tail)) {s : Stk} {ls : List (Nat × Bytes)} {prev cur : Bytes} {r : Option (Shape × Bytes)}
    (hne : cur ≠ []) {i : Nat} (hf : Free tok i cur s ls)
    (h : Found (token m tok ctx prev cur [(tok.name, ⟨tok, (i, cur) :: ls⟩)]) [] r) (gs : List GLine) :
    match r.bind (fun x => (pegSeq sk tail x.2).map (fun y => (Shape.node tok.name i (ShapeElem.mk tok.name [x.1] :: y.1), y.2))) with
    | some z => LinesRun tok (blockLoop (token m) tok ctx prev cur i (.mk (selfRef tok.name :: tail) :: gs) [] s) cur (some z)
    | none => blockLoop (token m) tok ctx prev cur i (.mk (selfRef tok.name :: tail) :: gs) [] s
        = blockLoop (token m) tok ctx prev cur (i + 1) gs [] [] := by
  have hs : recursiveToken tok.name [(tok.name, ⟨tok, (i, cur) :: ls⟩)] = (.ok tok, [(tok.name, ⟨tok, (i, cur) :: ls⟩)]) := by
    simp [recursiveToken, Stk.get]
  have hl := run_leftLine hrec hsk hrev hKm ht hDt hne hs h i
  rw [block_step hrev hf, bind_apply]
  unfold M.attempt
  cases r with
  | none =>
    simp only [Option.bind_none, LineOut] at hl ⊢
    simp only [hl, lineNext]
  | some x =>
    simp only [Option.bind_some] at hl ⊢
    cases hq : pegSeq sk tail x.2 with
    | none =>
      simp only [hq, Option.map_none, LineOut] at hl ⊢
      simp only [hl, lineNext]
    | some y =>
      simp only [hq, Option.map_some, LineOut] at hl ⊢
      obtain ⟨es, h1, h2, h3⟩ := hl
      have hsucc := h3.successful hsn i
      have hes : es.isEmpty = false := by
        cases es with
        | nil => simp [elementsShape] at h2
        | cons a b => rfl
      rw [hes] at hsucc
      simp only [h1, lineNext, hsucc, Bool.not_false, if_true, pure_apply]
      exact ⟨[], _, [], rfl, rfl, hsucc, by simp, by simp [TLine.shape, h2]⟩

/-- A token called on itself without end. -/
theorem block_left_oof {rec : Rec} (hrev : ctx.reverse = false) {tok : Token} {tail : List Container} {s : Stk} {ls : List (Nat × Bytes)}
    {prev cur : Bytes} (hne : cur ≠ []) {i : Nat} (hf : Free tok i cur s ls)
    (h : (rec tok ctx prev cur [(tok.name, ⟨tok, (i, cur) :: ls⟩)]).1 = .oof) (gs : List GLine) :
    (blockLoop rec tok ctx prev cur i (.mk (selfRef tok.name :: tail) :: gs) [] s).1 = .oof := by
  have hs : recursiveToken tok.name [(tok.name, ⟨tok, (i, cur) :: ls⟩)] = (.ok tok, [(tok.name, ⟨tok, (i, cur) :: ls⟩)]) := by
    simp [recursiveToken, Stk.get]
  obtain ⟨b, d, rfl⟩ := List.exists_cons_of_ne_nil hne
  obtain ⟨s', hr⟩ : ∃ s', rec tok ctx prev (b :: d) [(tok.name, ⟨tok, (i, b :: d) :: ls⟩)] = (.oof, s') := ⟨_, Prod.ext h rfl⟩
  have he : element rec (.recursive tok.name) ctx prev (b :: d) [(tok.name, ⟨tok, (i, b :: d) :: ls⟩)] = (.oof, s') := by
    unfold element elementContent
    simp only [List.isEmpty_cons, Bool.false_eq_true, if_false, bind_apply, hs, hr]
  have hl : elementLoop rec (.recursive tok.name) (some 1) ctx ((b :: d).length + 1) ⟨[], prev, b :: d⟩ [(tok.name, ⟨tok, (i, b :: d) :: ls⟩)]
      = (.oof, s') := by
    unfold elementLoop
    simp only [List.isEmpty_cons, Bool.false_eq_true, if_false, reachedMax, List.length_nil, Nat.reduceLeDiff, decide_false, bind_apply,
      attempt, he]
  have hst : ∀ p0, lineStep rec ctx p0 (selfRef tok.name) ⟨[], prev, b :: d⟩ [(tok.name, ⟨tok, (i, b :: d) :: ls⟩)] = (.oof, s') := by
    intro p0
    unfold lineStep
    simp only [bind_apply]
    rw [hl]
  rw [block_step hrev hf, bind_apply]
  unfold M.attempt line
  simp only [bind_apply, GLine.containers, lineLoop, hst]

theorem token_oof_of {tok : Token} {prev cur : Bytes} {s s1 : Stk} (he : enter tok s = (.ok (), s1))
    (h : (blockLoop (token n) tok ctx prev cur 0 tok.lines [] s1).1 = .oof) : (token (n + 1) tok ctx prev cur s).1 = .oof := by
  obtain ⟨s', hr⟩ : ∃ s', blockLoop (token n) tok ctx prev cur 0 tok.lines [] s1 = (.oof, s') := ⟨_, Prod.ext h rfl⟩
  unfold token tokenBody
  simp only [bind_apply, he, M.thenDelete, hr]

end

end Rodkina.Ast
