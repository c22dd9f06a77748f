import Verif.AstLeftTwoRun

/-!
# Two rules that refer to each other at the left
-/

namespace Rodkina.Ast

open M

/-- The rule `nB: nA u | baseB…` (libs/asts/domain/grammars/token.go:3-56, line.go:3-20). -/
def lowerTok (nA nB : String) (u : List Container) (baseB : List GLine) : Token :=
  .mk nB (.mk (selfRef nA :: u) :: baseB) []

/-- The rule `nA: nB t | baseA…`, where `nB` is the rule above (libs/asts/domain/grammars/token.go:3-56, line.go:3-20). -/
def upperTok (nA nB : String) (t u : List Container) (baseA baseB : List GLine) : Token :=
  .mk nA (.mk (.element 1 (some 1) (.token (lowerTok nA nB u baseB)) :: t) :: baseA) []

/-- Alternative `i` of `name`: its first element, called `el`, is `r`; its other elements are `tail`. -/
def elemTail (sk : Bytes → Bytes) (name : String) (i : Nat) (el : String) (tail : List Container) (r : Option (Shape × Bytes)) :
    Option (Shape × Bytes) :=
  r.bind (fun x => (pegSeq sk tail x.2).map (fun y => (.node name i (.mk el [x.1] :: y.1), sk y.2)))

/-- As `elemTail`, before skipping. -/
def elemRaw (sk : Bytes → Bytes) (name : String) (i : Nat) (el : String) (tail : List Container) (r : Option (Shape × Bytes)) :
    Option (Shape × Bytes) :=
  r.bind (fun x => (pegSeq sk tail x.2).map (fun y => (.node name i (.mk el [x.1] :: y.1), y.2)))

theorem elemRaw_map {sk : Bytes → Bytes} {name el : String} (i : Nat) (tail : List Container) (r : Option (Shape × Bytes)) :
    (elemRaw sk name i el tail r).map (fun x => (x.1, sk x.2)) = elemTail sk name i el tail r := by
  unfold elemRaw elemTail
  cases r with
  | none => rfl
  | some x => cases h : pegSeq sk tail x.2 <;> simp [h]

/-- The lower rule, called from the first alternative of the upper one: the base of the upper rule and `u`, else the own base. -/
def lowerRead (sk : Bytes → Bytes) (nA nB : String) (u : List Container) (baseA baseB : List GLine) (d : Bytes) : Option (Shape × Bytes) :=
  (elemTail sk nB 0 nA u (pegBase sk nA 1 baseA d)).or (pegBase sk nB 1 baseB d)

/-- The upper rule: what the lower one reads and `t`, else the own base. -/
def upperRead (sk : Bytes → Bytes) (nA nB : String) (t u : List Container) (baseA baseB : List GLine) (d : Bytes) : Option (Shape × Bytes) :=
  (elemTail sk nA 0 nB t (lowerRead sk nA nB u baseA baseB d)).or (pegBase sk nA 1 baseA d)

/-- Outcome of an element, with the map after it. -/
def ElemOut (o : Out (TContent × Bytes) × Stk) (s : Stk) (r : Option (Shape × Bytes)) : Prop :=
  match r with
  | some x => ∃ tc, o = (.ok (tc, x.2), s) ∧ tc.shape = x.1
  | none => o = (.err, s)

/-- Outcome of a line, with the map after it. -/
def LineEnd (o : Out (TLine × Bytes) × Stk) (s : Stk) (i : Nat) (cs : List Container) (r : Option (List ShapeElem × Bytes)) : Prop :=
  match r with
  | some z => ∃ es, o = (.ok (.mk i (.mk cs) false es, z.2), s) ∧ elementsShape es = z.1 ∧ ElemsFor cs es
  | none => o = (.err, s)

/-- Outcome of the lines of a token; without the token the map is `s`. -/
def LinesEnd (tok : Token) (o : Out (List TLine × Bytes) × Stk) (s : Stk) (cur : Bytes) (r : Option (Shape × Bytes)) : Prop :=
  match r with
  | some x => ∃ ls l s', o = (.ok (ls ++ [l], x.2), s') ∧ s'.del tok.name = s ∧ l.isSuccessful = true ∧
      (∀ l ∈ ls, l.isSuccessful = false) ∧ TLine.shape tok.name l = x.1
  | none => ∃ ls s', o = (.ok (ls, cur), s') ∧ s'.del tok.name = s ∧ (∀ l ∈ ls, l.isSuccessful = false)

section
variable {n m K : Nat} {ctx : Ctx} {sk : Bytes → Bytes}

theorem linesEnd_of {tok : Token} {o : Out (List TLine × Bytes) × Stk} {s : Stk} {cur : Bytes} {r : Option (Nat × List ShapeElem × Bytes)}
    {path : List String} (hs : KeysIn path s) (hk : tok.name ∉ path)
    (h : BlockRun tok o s [] cur r) : LinesEnd tok o s cur (r.map (fun x => (.node tok.name x.1 x.2.1, x.2.2))) := by
  have hdel : ∀ e, Stk.del ((tok.name, e) :: s) tok.name = s := fun e => by
    have := del_eq_self hs hk
    unfold Stk.del at this ⊢
    simpa using this
  unfold BlockRun at h
  cases r with
  | none =>
    obtain ⟨ls, lines, h1, h2⟩ := h
    exact ⟨ls, _, by simpa using h1, hdel _, h2⟩
  | some x =>
    obtain ⟨ls, l, lines, h1, h2, h3, h4⟩ := h
    exact ⟨ls, l, _, by simpa using h1, hdel _, h2, h3, h4⟩

theorem close_end (hsk : SkipIs (token n) ctx.channels sk) {tok : Token} {prev cur : Bytes} {s s1 s2 : Stk}
    {r : Option (Shape × Bytes)} (he : enter tok s = (.ok (), s1))
    (hb : LinesEnd tok (blockLoop (token n) tok ctx prev cur 0 tok.lines [] s1) s2 cur r) :
    Found (token (n + 1) tok ctx prev cur s) s2 (r.map (fun x => (x.1, sk x.2))) := by
  have hfind : ∀ (a : List TLine), (∀ l ∈ a, l.isSuccessful = false) → a.find? TLine.isSuccessful = none := by
    intro a ha
    rw [List.find?_eq_none]
    intro l hl
    simp [ha l hl]
  unfold token tokenBody
  rw [bind_apply, he]
  simp only
  rw [bind_apply]
  unfold M.thenDelete
  unfold LinesEnd at hb
  cases r with
  | none =>
    obtain ⟨l, s', h1, hd, h2⟩ := hb
    rw [h1]
    simp only [hd, Option.map_none, Found]
    cases l with
    | nil => exact .inl rfl
    | cons a l =>
      right
      simp only [List.isEmpty_cons, Bool.false_eq_true, if_false]
      rw [bind_apply]
      obtain ⟨ts, hts⟩ := hsk prev cur s2
      rw [hts]
      refine ⟨_, rfl, ?_⟩
      simp only [Tree.isSuccessful, Tree.block, mkBlock, Block.successful, hfind _ h2, Option.isSome_none]
  | some x =>
    obtain ⟨l, ln, s', h1, hd, h2, h3, h4⟩ := hb
    rw [h1]
    simp only [hd, Option.map_some, Found]
    have hne : (l ++ [ln]).isEmpty = false := by cases l <;> rfl
    simp only [hne, Bool.false_eq_true, if_false]
    rw [bind_apply]
    obtain ⟨ts, hts⟩ := hsk prev x.2 s2
    rw [hts]
    have hf : (l ++ [ln]).find? TLine.isSuccessful = some ln := by
      rw [List.find?_append, hfind _ h3]
      simp [h2]
    refine ⟨_, rfl, ?_, ?_, rfl⟩
    · simp [Tree.isSuccessful, Tree.block, mkBlock, Block.successful, hf]
    · simp only [Tree.shape, mkBlock, hf, Block.shape]
      exact h4

/-- An element that calls a token. -/
theorem run_called {c : Content} {tok : Token} {prev cur : Bytes} {s s' : Stk} {r : Option (Shape × Bytes)} (hne : cur ≠ [])
    (hc : elementContent (token m) c ctx prev cur s = (do let t ← token m tok ctx prev cur; pure (treeContent t) : M _) s)
    (h : Found (token m tok ctx prev cur s) s' r) : ElemOut (element (token m) c ctx prev cur s) s' r := by
  have hne' : cur.isEmpty = false := by cases cur <;> simp_all
  unfold Found at h
  unfold element
  simp only [hne', Bool.false_eq_true, if_false, bind_apply, hc]
  unfold ElemOut
  cases r with
  | none =>
    simp only at h ⊢
    rcases h with h | ⟨t, h, hs⟩
    · rw [h]
    · rw [h]
      simp only [pure_apply, treeContent, acceptContent, TContent.isSuccessful, hs, Bool.false_eq_true, if_false]
      rfl
  | some x =>
    obtain ⟨t, h, hs, hsh, hr⟩ := h
    rw [h]
    refine ⟨.tree t, ?_, ?_⟩
    · simp only [pure_apply, treeContent, acceptContent, TContent.isSuccessful, hs, if_true, hr]
    · simpa [TContent.shape] using hsh

theorem step_once_ok {rec : Rec} {c : Content} {p0 prev cur r : Bytes} {s s' : Stk} {tc : TContent} (hne : cur ≠ [])
    (h : element rec c ctx prev cur s = (.ok (tc, r), s')) :
    lineStep rec ctx p0 (.element 1 (some 1) c) ⟨[], prev, cur⟩ s = (.ok ⟨[.mk (some (.element 1 (some 1) c)) [tc]], cur, r⟩, s') := by
  obtain ⟨b, d, rfl⟩ := List.exists_cons_of_ne_nil hne
  have hl : elementLoop rec c (some 1) ctx ((b :: d).length + 1) ⟨[], prev, b :: d⟩ s = (.ok ⟨[tc], b :: d, r⟩, s') := by
    rw [List.length_cons]
    unfold elementLoop
    simp only [List.isEmpty_cons, Bool.false_eq_true, if_false, reachedMax, List.length_nil, Nat.reduceLeDiff, decide_false, bind_apply,
      attempt, h, elementNext, List.nil_append]
    unfold elementLoop
    simp [reachedMax]
    try rfl
  unfold lineStep
  simp only [bind_apply]
  rw [hl]
  simp [goMin]
  try rfl

theorem step_once_err {rec : Rec} {c : Content} {p0 prev cur : Bytes} {s s' : Stk} (hne : cur ≠ [])
    (h : element rec c ctx prev cur s = (.err, s')) :
    lineStep rec ctx p0 (.element 1 (some 1) c) ⟨[], prev, cur⟩ s = (.err, s') := by
  obtain ⟨b, d, rfl⟩ := List.exists_cons_of_ne_nil hne
  have hl : elementLoop rec c (some 1) ctx ((b :: d).length + 1) ⟨[], prev, b :: d⟩ s = (.ok ⟨[], prev, b :: d⟩, s') := by
    unfold elementLoop
    simp only [List.isEmpty_cons, Bool.false_eq_true, if_false, reachedMax, List.length_nil, Nat.reduceLeDiff, decide_false, bind_apply,
      attempt, h, elementNext]
    rfl
  unfold lineStep
  simp only [bind_apply]
  rw [hl]
  simp [goMin]
  try rfl

theorem elemsFor_once (c : Content) (tc : TContent) : ElemsFor [.element 1 (some 1) c] [.mk (some (.element 1 (some 1) c)) [tc]] := by
  refine ⟨?_, ?_⟩
  · intro e he
    simp only [List.mem_singleton] at he
    subst he
    exact ⟨1, some 1, c, by simp, rfl, by simp [TElement.amount, TElement.contents], by simp [TElement.amount, TElement.contents],
      by simp [withinMax, TElement.amount, TElement.contents]⟩
  · intro c hc
    simp only [List.mem_singleton] at hc
    subst hc
    exact ⟨⟨_, _, _, rfl⟩, fun _ => ⟨_, List.mem_singleton.mpr rfl, rfl⟩⟩

/-- A line whose first element is `r`. -/
theorem run_elemLine (hrec : PegRec m K ctx sk) (hsk : SkipIs (token m) ctx.channels sk) (hrev : ctx.reverse = false) (hKm : K ≤ m)
    {path : List String} {tail : List Container} (ht : PegConts path tail) (hDt : containersD tail ≤ K) {c : Content} {s s' : Stk}
    (hs' : KeysIn path s') {prev cur : Bytes} {r : Option (Shape × Bytes)} (hne : cur ≠ [])
    (hel : ElemOut (element (token m) c ctx prev cur s) s' r) (i : Nat) :
    LineEnd (line (token m) i (.mk (.element 1 (some 1) c :: tail)) ctx prev cur s) s' i (.element 1 (some 1) c :: tail)
      (r.bind (fun x => (pegSeq sk tail x.2).map (fun y => (ShapeElem.mk c.name [x.1] :: y.1, y.2)))) := by
  unfold line
  rw [bind_apply, GLine.containers, lineLoop, bind_apply]
  cases r with
  | none =>
    rw [step_once_err hne hel]
    rfl
  | some x =>
    obtain ⟨tc, hel, hsh⟩ := hel
    rw [step_once_ok hne hel]
    have hl := run_lineLoop (n := m) (f := pegContent sk) (s := s') hsk prev tail
      (fun min max c h => by
        have := mem_pegConts ht h
        unfold PegCont at this
        exact this.1)
      (fun min max c h => by
        have h1 := mem_pegConts ht h
        have h2 := containersD_mem h
        unfold PegCont at h1
        unfold containerD at h2
        exact run_content hrec hsk hrev h1.2 (by omega) hKm hs')
      ⟨[.mk (some (.element 1 (some 1) c)) [tc]], cur, x.2⟩
    rw [← pegSeq_eq] at hl
    simp only [Option.bind_some] at hl ⊢
    cases hq : pegSeq sk tail x.2 with
    | none =>
      rw [hq] at hl
      simp only [LineRun] at hl
      simp only [Option.map_none, hl]
      rfl
    | some y =>
      rw [hq] at hl
      obtain ⟨st', es, h1, h2, h3, h4, h5⟩ := hl
      simp only [Option.map_some, h1, pure_apply]
      refine ⟨st'.list, by rw [h4], ?_, ?_⟩
      · rw [h2, elementsShape_append, h3]
        simp [elementsShape, TElement.shape, Container.name, contentsShape, hsh]
      · rw [h2]
        exact ElemsFor.cons (elemsFor_once c tc) h5

/-- The first line of a token, which ran as given: its lines, when those after it run as given. -/
theorem block_first (hrev : ctx.reverse = false) {tok : Token} {prev cur : Bytes} {s s0 s' s2 : Stk} {c : Content} {tail : List Container}
    (hsn : sameNames (.element 1 (some 1) c :: tail)) {gs : List GLine} {r z : Option (Shape × Bytes)}
    (htry : s.get tok.name = some ⟨tok, []⟩) (hput : s.put tok.name ⟨tok, [(0, cur)]⟩ = s0)
    (hl : LineEnd (line (token m) 0 (.mk (.element 1 (some 1) c :: tail)) ctx prev cur s0) s' 0 (.element 1 (some 1) c :: tail)
      (r.bind (fun x => (pegSeq sk tail x.2).map (fun y => (ShapeElem.mk c.name [x.1] :: y.1, y.2)))))
    (hdel : s'.del tok.name = s2)
    (hnext : LinesEnd tok (blockLoop (token m) tok ctx prev cur 1 gs [] s') s2 cur z) :
    LinesEnd tok (blockLoop (token m) tok ctx prev cur 0 (.mk (.element 1 (some 1) c :: tail) :: gs) [] s) s2 cur
      ((elemRaw sk tok.name 0 c.name tail r).or z) := by
  have hstart : blockLoop (token m) tok ctx prev cur 0 (.mk (.element 1 (some 1) c :: tail) :: gs) [] s
      = (do let r ← attempt (line (token m) 0 (.mk (.element 1 (some 1) c :: tail)) ctx prev cur)
            lineNext [] (blockLoop (token m) tok ctx prev cur 1 gs) r : M _) s0 := by
    rw [blockLoop]
    simp only [bind_apply, alreadyTried, htry, hrev]
    simp [bind_apply, recordLine, htry, hput]
  rw [hstart, bind_apply]
  unfold M.attempt
  cases r with
  | none =>
    simp only [Option.bind_none, LineEnd] at hl
    simp only [hl, lineNext, elemRaw, Option.bind_none, Option.none_or]
    exact hnext
  | some x =>
    simp only [Option.bind_some] at hl
    cases hq : pegSeq sk tail x.2 with
    | none =>
      simp only [hq, Option.map_none, LineEnd] at hl
      simp only [hl, lineNext, elemRaw, Option.bind_some, hq, Option.map_none, Option.none_or]
      exact hnext
    | some y =>
      simp only [hq, Option.map_some, LineEnd] at hl
      obtain ⟨es, h1, h2, h3⟩ := hl
      have hsucc := h3.successful hsn 0
      have hes : es.isEmpty = false := by
        cases es with
        | nil => simp [elementsShape] at h2
        | cons a b => rfl
      rw [hes] at hsucc
      simp only [h1, lineNext, hsucc, Bool.not_false, if_true, pure_apply, elemRaw, Option.bind_some, hq, Option.map_some, Option.some_or]
      exact ⟨[], _, s', rfl, hdel, hsucc, by simp, by simp [TLine.shape, h2]⟩

end

end Rodkina.Ast
