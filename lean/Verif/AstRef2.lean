import Verif.AstRef

/-!
# The reference interpreter: exceptions, alternatives, channels, tokens
-/

namespace Rodkina.Ast

open M

/-! ### Everything except -/

/-- The escape token of the parser is the matcher of the reference interpreter. -/
def EscR (n : Nat) (ctx : Ctx) (s : Stk) (esc : Option (Matcher Shape)) : Prop :=
  match ctx.escape, esc with
  | none, none => True
  | some e, some f => ∀ prev cur,
      FoundR (token n e ⟨none, ctx.channels, false⟩ prev cur s) s (f prev cur)
  | _, _ => False

section
variable {n : Nat} {ctx : Ctx} {s : Stk} {idx : Nat} {cs : List Container}
  {esc : Option (Matcher Shape)} {ex : Matcher (List ShapeElem)}

theorem line_rest {prev cur : Bytes} {l : TLine} {rem : Bytes}
    (h : line (token n) idx (.mk cs) ctx prev cur s = (.ok (l, rem), s)) :
    rem <:+ cur := by
  have hg : ∀ c ∈ (GLine.mk cs).containers, c.All (lineAllowed Flags.any) ∧
      containerAllowed Flags.any c := fun c hc =>
    ⟨Container.All_of lineAllowed_any c, lineAllowed_any (.mk cs) c hc⟩
  have := (ens_line (token_good Flags.any n) (any_ctx ctx) idx hg prev cur s (any_stk s)).2.1
  rw [h] at this
  exact (this _ rfl).1.1.1

theorem suffix_parts {a b : Bytes} (h : a <:+ b) :
    a.length ≤ b.length ∧ b.drop (b.length - a.length) = a := by
  obtain ⟨t, rfl⟩ := h
  simp

theorem refRun_escape (hsame : sameNames cs) (hesc : EscR n ctx s esc)
    (hline : ∀ prev cur, LnR (line (token n) idx (.mk cs) ctx prev cur s) s idx cs (ex prev cur))
    (st : RvState) :
    match escaped esc ex st.prev st.rem with
    | .found x => escapeStep (token n) idx (.mk cs) ctx st s
        = (.ok ⟨st.list ++ byteContents x.1, x.2.1, x.2.2⟩, s) ∧ x.2.2.length ≤ st.rem.length
    | _ => (escapeStep (token n) idx (.mk cs) ctx st s).1 = .panic := by
  unfold EscR at hesc
  unfold escapeStep escaped
  cases hc : ctx.escape with
  | none =>
    rw [hc] at hesc
    cases he : esc with
    | none => exact ⟨by simp [byteContents], Nat.le_refl _⟩
    | some f => rw [he] at hesc; exact hesc.elim
  | some e =>
    rw [hc] at hesc
    cases he : esc with
    | none => rw [he] at hesc; exact hesc.elim
    | some f =>
      rw [he] at hesc
      have hf := hesc st.prev st.rem
      have hgood := (token_good Flags.any n e ⟨none, ctx.channels, false⟩ st.prev st.rem (any_tok e)
        (any_ctx _) s (any_stk s)).2.1
      have same : (⟨st.list ++ byteContents [], st.prev, st.rem⟩ : RvState) = st := by
        simp [byteContents]
      simp only
      cases hr : f st.prev st.rem with
      | crash =>
        rw [hr] at hf
        exact bind_panic (attempt_panic hf)
      | refused =>
        rw [hr] at hf
        simp only [FoundR] at hf
        refine ⟨?_, Nat.le_refl _⟩
        rw [bind_apply]
        unfold M.attempt
        rw [hf]
        simp only [same]
        rfl
      | blank =>
        rw [hr] at hf
        obtain ⟨t, h, hs⟩ := hf
        refine ⟨?_, Nat.le_refl _⟩
        rw [bind_apply]
        unfold M.attempt
        rw [h]
        simp only [escapeLine, hs, Bool.false_and, Bool.false_eq_true, if_false, same]
        rfl
      | found x =>
        rw [hr] at hf
        obtain ⟨t, h, hs, _, hrem⟩ := hf
        rw [h] at hgood
        have hlt := ((hgood t rfl).2 hs).2
        have hstep : (do
            let r ← attempt (token n e ⟨none, ctx.channels, false⟩ st.prev st.rem)
            escapeLine (token n) idx (.mk cs) ctx st r : M RvState) s
            = escapeLine (token n) idx (.mk cs) ctx st (some t) s := by
          rw [bind_apply]
          unfold M.attempt
          rw [h]
        rw [hstep]
        unfold escapeLine
        simp only [hs, hrem, Bool.true_and]
        by_cases hx : x.2 = []
        · rw [if_pos hx, if_neg (by simp [hx])]
          exact ⟨by simp only [same]; rfl, Nat.le_refl _⟩
        · have hne : (!x.2.isEmpty) = true := by cases hh : x.2 <;> simp_all
          rw [if_neg hx, if_pos hne]
          have hl := hline st.rem x.2
          cases hex : ex st.rem x.2 with
          | crash =>
            rw [hex] at hl
            exact bind_panic (attempt_panic hl)
          | refused =>
            rw [hex] at hl
            simp only [LnR] at hl
            refine ⟨?_, Nat.le_refl _⟩
            rw [bind_apply]
            unfold M.attempt
            rw [hl]
            simp only [escapeApply, same]
            rfl
          | blank =>
            rw [hex] at hl
            obtain ⟨rem, hl⟩ := hl
            refine ⟨?_, Nat.le_refl _⟩
            rw [bind_apply]
            unfold M.attempt
            rw [hl]
            simp only [escapeApply, same, TLine.isSuccessful, List.isEmpty_nil, Bool.not_true,
              Bool.false_and, Bool.false_eq_true, if_false]
            rfl
          | found y =>
            rw [hex] at hl
            obtain ⟨es, hl, _, hne', hel⟩ := hl
            have hsuf := suffix_parts (line_rest hl)
            have hsucc := hel.successful hsame idx
            have : es.isEmpty = false := by cases es <;> simp_all
            rw [this] at hsucc
            rw [hrem] at hlt
            refine ⟨?_, by simp only; omega⟩
            rw [bind_apply]
            unfold M.attempt
            rw [hl]
            simp only [escapeApply, hsucc, Bool.not_false, if_true, hsuf.1, hsuf.2]
            rfl

theorem refRun_reverseLoop (hsame : sameNames cs) (hesc : EscR n ctx s esc)
    (hline : ∀ prev cur, LnR (line (token n) idx (.mk cs) ctx prev cur s) s idx cs (ex prev cur))
    (k : Nat) (st : RvState) (hk : st.rem.length < k) :
    match upTo esc ex k st.prev st.rem with
    | .found x => ∃ prev', reverseLoop (token n) idx (.mk cs) ctx k st s
        = (.ok ⟨st.list ++ byteContents x.1, prev', x.2⟩, s)
    | .crash => (reverseLoop (token n) idx (.mk cs) ctx k st s).1 = .panic
    | _ => False := by
  induction k generalizing st with
  | zero => omega
  | succ k ih =>
    unfold reverseLoop upTo
    by_cases hemp : st.rem = []
    · rw [if_pos hemp]
      have : List.isEmpty st.rem = true := by rw [hemp]; rfl
      simp only [this, if_true]
      exact ⟨st.prev, by simp [byteContents]⟩
    · have hemp' : st.rem.isEmpty = false := by cases h : st.rem <;> simp_all
      rw [if_neg hemp]
      simp only [hemp', Bool.false_eq_true, if_false]
      have he := refRun_escape hsame hesc hline st
      cases hr : escaped esc ex st.prev st.rem with
      | refused => 
        unfold escaped at hr
        repeat' split at hr
        all_goals simp at hr
      | blank =>
        unfold escaped at hr
        repeat' split at hr
        all_goals simp at hr
      | crash =>
        rw [hr] at he
        exact bind_panic he
      | found x =>
        rw [hr] at he
        obtain ⟨hstep, hle⟩ := he
        simp only [Ans.bind]
        have hrun : (do
            let st' ← escapeStep (token n) idx (.mk cs) ctx st
            let r ← attempt (line (token n) idx (.mk cs) ctx st'.prev st'.rem)
            reverseNext st' (reverseLoop (token n) idx (.mk cs) ctx k) r : M RvState) s
            = (do
              let r ← attempt (line (token n) idx (.mk cs) ctx x.2.1 x.2.2)
              reverseNext ⟨st.list ++ byteContents x.1, x.2.1, x.2.2⟩
                (reverseLoop (token n) idx (.mk cs) ctx k) r : M RvState) s := by
          rw [bind_apply, hstep]
        rw [hrun]
        have hl := hline x.2.1 x.2.2
        cases hex : ex x.2.1 x.2.2 with
        | crash =>
          rw [hex] at hl
          exact bind_panic (attempt_panic hl)
        | found y =>
          rw [hex] at hl
          obtain ⟨es, hl, _⟩ := hl
          simp only
          rw [bind_apply]
          unfold M.attempt
          rw [hl]
          exact ⟨x.2.1, rfl⟩
        | blank =>
          rw [hex] at hl
          obtain ⟨rem, hl⟩ := hl
          simp only
          rw [bind_apply]
          unfold M.attempt
          rw [hl]
          exact ⟨x.2.1, rfl⟩
        | refused =>
          rw [hex] at hl
          simp only [LnR] at hl
          simp only
          have hnext : (do
              let r ← attempt (line (token n) idx (.mk cs) ctx x.2.1 x.2.2)
              reverseNext ⟨st.list ++ byteContents x.1, x.2.1, x.2.2⟩
                (reverseLoop (token n) idx (.mk cs) ctx k) r : M RvState) s
              = reverseNext ⟨st.list ++ byteContents x.1, x.2.1, x.2.2⟩
                (reverseLoop (token n) idx (.mk cs) ctx k) none s := by
            rw [bind_apply]
            unfold M.attempt
            rw [hl]
          rw [hnext]
          unfold reverseNext
          cases hd : x.2.2 with
          | nil => rfl
          | cons b r =>
            rw [hd] at hle
            have ih' := ih ⟨st.list ++ byteContents x.1 ++ [.value [] b], b :: r, r⟩
              (by simp only [List.length_cons] at hle ⊢; omega)
            simp only at ih' ⊢
            cases hu : upTo esc ex k (b :: r) r with
            | crash => rw [hu] at ih'; exact ih'
            | blank => rw [hu] at ih'; exact ih'
            | refused => rw [hu] at ih'; exact ih'
            | found y =>
              rw [hu] at ih'
              obtain ⟨prev', h⟩ := ih'
              exact ⟨prev', by rw [h]; simp [byteContents]⟩

end

/-! ### Alternatives and tokens -/

/-- `block` in terms of the reference interpreter. -/
def BlockR (tok : Token) (o : Out (List TLine × Bytes) × Stk) (s : Stk) (acc : List TLine)
    (cur : Bytes) (r : Ans ((Nat × List ShapeElem) × Bytes)) : Prop :=
  match r with
  | .found x => ∃ ls l lines, o = (.ok (acc ++ ls ++ [l], x.2), (tok.name, ⟨tok, lines⟩) :: s) ∧
      l.isSuccessful = true ∧ (∀ l ∈ ls, l.isSuccessful = false) ∧
      TLine.shape tok.name l = .node tok.name x.1.1 x.1.2
  | .blank => ∃ ls lines, o = (.ok (acc ++ ls, cur), (tok.name, ⟨tok, lines⟩) :: s) ∧ ls ≠ [] ∧
      (∀ l ∈ ls, l.isSuccessful = false)
  | .refused => ∃ lines, o = (.ok (acc, cur), (tok.name, ⟨tok, lines⟩) :: s)
  | .crash => o.1 = .panic

/-- All alternatives of a token are run as the reference interpreter does. -/
def LinesR (n : Nat) (ctx : Ctx) (m : Mode) (tok : Token) (s : Stk) (gs : List GLine) : Prop :=
  ∀ g ∈ gs, sameNames g.containers ∧ ∀ e idx prev cur,
    LnR (line (token n) idx g ctx prev cur ((tok.name, e) :: s)) ((tok.name, e) :: s) idx
      g.containers (refLine m g prev cur)

theorem refRun_blockLoop {n : Nat} {ctx : Ctx} {m : Mode} {path : List String} {s : Stk}
    {tok : Token} (hrev : ctx.reverse = false) (hs : KeysIn path s) (hk : tok.name ∉ path)
    (prev cur : Bytes) (gs : List GLine) (idx : Nat) (hgs : LinesR n ctx m tok s gs)
    (acc : List TLine) (lines : List (Nat × Bytes)) (hlines : ∀ p ∈ lines, p.1 < idx) :
    BlockR tok (blockLoop (token n) tok ctx prev cur idx gs acc ((tok.name, ⟨tok, lines⟩) :: s))
      s acc cur (firstOf (refLines m gs) idx prev cur) := by
  induction gs generalizing idx acc lines with
  | nil =>
    simp only [refLines, firstOf, BlockR, blockLoop, pure_apply]
    exact ⟨lines, rfl⟩
  | cons g gs ih =>
    rcases g with ⟨cs⟩
    obtain ⟨hsame, hrun⟩ := hgs (.mk cs) (by simp)
    simp only [GLine.containers] at hsame hrun
    have hlook : lines.lookup idx = none := by
      rw [List.lookup_eq_none_iff]
      intro p hp
      have := hlines p hp
      simp only [beq_eq_false_iff_ne, ne_eq, bne_iff_ne]
      omega
    have hlines' : ∀ p ∈ (idx, cur) :: lines, p.1 < idx + 1 := by
      intro p hp
      rcases List.mem_cons.mp hp with rfl | hp
      · simp
      · have := hlines p hp; omega
    have ih' := fun acc => ih (idx + 1) (fun g h => hgs g (by simp [h])) acc ((idx, cur) :: lines)
      hlines'
    have hl := hrun ⟨tok, (idx, cur) :: lines⟩ idx prev cur
    have hstep : blockLoop (token n) tok ctx prev cur idx (.mk cs :: gs) acc
        ((tok.name, ⟨tok, lines⟩) :: s) = (do
          let r ← attempt (line (token n) idx (.mk cs) ctx prev cur)
          lineNext acc (blockLoop (token n) tok ctx prev cur (idx + 1) gs) r : M _)
          ((tok.name, ⟨tok, (idx, cur) :: lines⟩) :: s) := by
      conv_lhs => unfold blockLoop
      rw [bind_apply, tried_run _ idx cur hlook]
      simp only [Bool.false_eq_true, if_false]
      rw [bind_apply, record_run hs hk]
      simp only [hrev, Bool.false_eq_true, if_false]
    rw [hstep, refLines, firstOf]
    have hnext : ∀ (r : Out (TLine × Bytes)) (r' : Option (TLine × Bytes)),
        line (token n) idx (.mk cs) ctx prev cur ((tok.name, ⟨tok, (idx, cur) :: lines⟩) :: s)
          = (r, (tok.name, ⟨tok, (idx, cur) :: lines⟩) :: s) →
        (r = .err ∧ r' = none ∨ ∃ x, r = .ok x ∧ r' = some x) →
        (do
          let r ← attempt (line (token n) idx (.mk cs) ctx prev cur)
          lineNext acc (blockLoop (token n) tok ctx prev cur (idx + 1) gs) r : M _)
          ((tok.name, ⟨tok, (idx, cur) :: lines⟩) :: s)
        = lineNext acc (blockLoop (token n) tok ctx prev cur (idx + 1) gs) r'
          ((tok.name, ⟨tok, (idx, cur) :: lines⟩) :: s) := by
      intro r r' h1 h2
      rw [bind_apply]
      unfold M.attempt
      rw [h1]
      rcases h2 with ⟨rfl, rfl⟩ | ⟨x, rfl, rfl⟩ <;> rfl
    cases hx : refLine m (.mk cs) prev cur with
    | crash =>
      rw [hx] at hl
      exact bind_panic (attempt_panic hl)
    | refused =>
      rw [hx] at hl
      simp only [LnR] at hl
      rw [hnext _ _ hl (.inl ⟨rfl, rfl⟩)]
      exact ih' acc
    | blank =>
      rw [hx] at hl
      obtain ⟨rem, hl⟩ := hl
      rw [hnext _ _ hl (.inr ⟨_, rfl, rfl⟩)]
      have hsucc : (TLine.mk idx (.mk cs) false []).isSuccessful = false := by
        simp [TLine.isSuccessful]
      simp only [lineNext, hsucc, Bool.false_eq_true, if_false]
      have := ih' (acc ++ [.mk idx (.mk cs) false []])
      cases hp : firstOf (refLines m gs) (idx + 1) prev cur with
      | crash => rw [hp] at this; exact this
      | refused =>
        rw [hp] at this
        obtain ⟨lines', e⟩ := this
        exact ⟨[.mk idx (.mk cs) false []], lines', e, by simp, by simp [hsucc]⟩
      | blank =>
        rw [hp] at this
        obtain ⟨ls, lines', e1, e2, e3⟩ := this
        refine ⟨.mk idx (.mk cs) false [] :: ls, lines', by rw [e1]; simp, by simp, ?_⟩
        intro l hl
        rcases List.mem_cons.mp hl with rfl | hl
        · exact hsucc
        · exact e3 l hl
      | found x =>
        rw [hp] at this
        obtain ⟨ls, l, lines', e1, e2, e3, e4⟩ := this
        refine ⟨.mk idx (.mk cs) false [] :: ls, l, lines', by rw [e1]; simp, e2, ?_, e4⟩
        intro l hl
        rcases List.mem_cons.mp hl with rfl | hl
        · exact hsucc
        · exact e3 l hl
    | found y =>
      rw [hx] at hl
      obtain ⟨es, hl, h2, hne, hel⟩ := hl
      rw [hnext _ _ hl (.inr ⟨_, rfl, rfl⟩)]
      have hsucc := hel.successful hsame idx
      have hemp : es.isEmpty = false := by cases es <;> simp_all
      rw [hemp] at hsucc
      simp only [lineNext, hsucc, Bool.not_false, if_true, BlockR]
      exact ⟨[], .mk idx (.mk cs) false es, (idx, cur) :: lines, by simp, by simp [hsucc], by simp,
        by simp [TLine.shape, h2]⟩

theorem refRun_token {n : Nat} {ctx : Ctx} {m : Mode} {path : List String} {s : Stk} {tok : Token}
    (hrev : m.reverse = ctx.reverse) (hs : KeysIn path s) (hk : tok.name ∉ path)
    (hsk : SkipR (token n) ctx.channels m.skip)
    (hesc : ∀ e, EscR n ctx ((tok.name, e) :: s) m.escape)
    (hlines : LinesR n ctx m tok s tok.lines) (prev cur : Bytes) :
    FoundR (token (n + 1) tok ctx prev cur s) s (refToken m tok prev cur) := by
  have hfind : ∀ (a : List TLine), (∀ l ∈ a, l.isSuccessful = false) →
      a.find? TLine.isSuccessful = none := by
    intro a ha
    rw [List.find?_eq_none]
    intro l hl
    simp [ha l hl]
  rcases tok with ⟨name, ls, suites⟩
  unfold token tokenBody
  rw [bind_apply, enter_run hs hk, refToken]
  simp only [tokenOf, hrev]
  simp only [Token.lines, Token.name] at hlines hesc hk ⊢
  have hblock : ∀ (o : Out (List TLine × Bytes)) (e : Entry) (cont : List TLine × Bytes → M Tree),
      blockLoop (token n) (.mk name ls suites) ctx prev cur 0 ls [] ((name, ⟨.mk name ls suites, []⟩) :: s)
        = (o, (name, e) :: s) →
      (thenDelete name (blockLoop (token n) (.mk name ls suites) ctx prev cur 0 ls []) >>= cont)
        ((name, ⟨.mk name ls suites, []⟩) :: s) =
      match o with
      | .ok x => cont x s
      | .err => (.err, s)
      | .panic => (.panic, s)
      | .oof => (.oof, s) := by
    intro o e cont h
    rw [bind_apply]
    unfold M.thenDelete
    rw [h]
    have : Stk.del ((name, e) :: s) name = s := del_cons_self hs hk e
    cases o <;> simp only [this]
  have hpanic : ∀ (cont : List TLine × Bytes → M Tree),
      (blockLoop (token n) (.mk name ls suites) ctx prev cur 0 ls []
        ((name, ⟨.mk name ls suites, []⟩) :: s)).1 = .panic →
      ((thenDelete name (blockLoop (token n) (.mk name ls suites) ctx prev cur 0 ls []) >>= cont)
        ((name, ⟨.mk name ls suites, []⟩) :: s)).1 = .panic := by
    intro cont h
    exact bind_panic h
  cases hr : ctx.reverse with
  | false =>
    simp only [Bool.false_eq_true, if_false]
    have hblk := refRun_blockLoop (tok := .mk name ls suites) hr hs hk prev cur ls 0 hlines [] [] (by simp)
    simp only [Token.name] at hblk
    cases hp : firstOf (refLines m ls) 0 prev cur with
    | crash =>
      rw [hp] at hblk
      exact hpanic _ hblk
    | refused =>
      rw [hp] at hblk
      obtain ⟨lines, h1⟩ := hblk
      simp only [Token.name] at h1
      rw [hblock _ _ _ h1]
      simp only [List.isEmpty_nil, if_true, Ans.map, FoundR]
      rfl
    | blank =>
      rw [hp] at hblk
      obtain ⟨l, lines, h1, hne, h2⟩ := hblk
      simp only [Token.name] at h1
      rw [hblock _ _ _ h1]
      have : l.isEmpty = false := by cases l <;> simp_all
      simp only [List.nil_append, this, Bool.false_eq_true, if_false, Ans.map, FoundR]
      rw [bind_apply]
      obtain ⟨ts, hts⟩ := hsk prev cur s
      rw [hts]
      refine ⟨_, rfl, ?_⟩
      simp only [Tree.isSuccessful, Tree.block, mkBlock, Block.successful, hfind _ h2,
        Option.isSome_none]
    | found x =>
      rw [hp] at hblk
      obtain ⟨l, ln, lines, h1, h2, h3, h4⟩ := hblk
      simp only [Token.name] at h1
      rw [hblock _ _ _ h1]
      have hne : (l ++ [ln]).isEmpty = false := by cases l <;> rfl
      simp only [List.nil_append, hne, Bool.false_eq_true, if_false, Ans.map, FoundR]
      rw [bind_apply]
      obtain ⟨ts, hts⟩ := hsk prev x.2 s
      rw [hts]
      have hf : (l ++ [ln]).find? TLine.isSuccessful = some ln := by
        rw [List.find?_append, hfind _ h3]
        simp [h2]
      refine ⟨_, rfl, ?_, ?_, rfl⟩
      · simp [Tree.isSuccessful, Tree.block, mkBlock, Block.successful, hf]
      · simp only [Tree.shape, mkBlock, hf, Block.shape]
        exact h4
  | true =>
    simp only [if_true]
    cases hl : ls with
    | nil =>
      subst hl
      have h1 : blockLoop (token n) (.mk name [] suites) ctx prev cur 0 [] []
          ((name, ⟨.mk name [] suites, []⟩) :: s) = (.ok ([], cur), (name, ⟨.mk name [] suites, []⟩) :: s) := rfl
      rw [hblock _ _ _ h1]
      simp only [refLines, FoundR, List.isEmpty_nil, if_true]
      rfl
    | cons g gs =>
      rcases g with ⟨cs⟩
      rw [← hl]
      obtain ⟨hsame, hrun⟩ := hlines (.mk cs) (by rw [hl]; simp)
      simp only [GLine.containers] at hsame hrun
      have hloop := refRun_reverseLoop (n := n) (ctx := ctx)
        (s := (name, ⟨.mk name ls suites, [(0, cur)]⟩) :: s) (idx := 0) (ex := refLine m (.mk cs))
        hsame (hesc _) (hrun _ 0) (cur.length + 1) ⟨[], prev, cur⟩ (by simp)
      simp only [List.nil_append] at hloop
      have hrecord : recordLine (.mk name ls suites) 0 cur ((name, ⟨.mk name ls suites, []⟩) :: s)
          = (.ok (), (name, ⟨.mk name ls suites, [(0, cur)]⟩) :: s) :=
        record_run hs (tok := .mk name ls suites) hk ⟨.mk name ls suites, []⟩ 0 cur
      have htried : alreadyTried (.mk name ls suites) 0 cur
          ((name, ⟨.mk name ls suites, []⟩) :: s)
          = (.ok false, (name, ⟨.mk name ls suites, []⟩) :: s) :=
        tried_run (tok := .mk name ls suites) ⟨.mk name ls suites, []⟩ 0 cur rfl
      have hb : blockLoop (token n) (.mk name ls suites) ctx prev cur 0 ls []
          ((name, ⟨.mk name ls suites, []⟩) :: s) =
          reverseLine (token n) 0 (.mk cs) ctx prev cur []
            ((name, ⟨.mk name ls suites, [(0, cur)]⟩) :: s) := by
        conv_lhs => rw [hl]; unfold blockLoop
        rw [← hl, bind_apply, htried]
        simp only [Bool.false_eq_true, if_false]
        rw [bind_apply, hrecord]
        simp only [hr, if_true]
      have hfs : refLines m ls = refLine m (.mk cs) :: refLines m gs := by rw [hl, refLines]
      rw [hfs]
      simp only
      cases hu : upTo m.escape (refLine m (.mk cs)) (cur.length + 1) prev cur with
      | crash =>
        rw [hu] at hloop
        refine hpanic _ ?_
        rw [hb]
        exact bind_panic hloop
      | blank => rw [hu] at hloop; exact hloop.elim
      | refused => rw [hu] at hloop; exact hloop.elim
      | found x =>
        rw [hu] at hloop
        obtain ⟨prev', hloop⟩ := hloop
        have hrl : reverseLine (token n) 0 (.mk cs) ctx prev cur []
            ((name, ⟨.mk name ls suites, [(0, cur)]⟩) :: s) =
            if x.1 = [] then (.err, (name, ⟨.mk name ls suites, [(0, cur)]⟩) :: s)
            else (.ok ([.mk 0 (.mk cs) true [.mk none (byteContents x.1)]], x.2),
              (name, ⟨.mk name ls suites, [(0, cur)]⟩) :: s) := by
          unfold reverseLine
          rw [bind_apply, hloop]
          by_cases hx : x.1 = []
          · simp only [hx, byteContents, List.map_nil, List.isEmpty_nil, if_true]
            rfl
          · have : (byteContents x.1).isEmpty = false := by
              cases h : x.1 <;> simp_all [byteContents]
            simp only [this, Bool.false_eq_true, if_false, hx, List.nil_append]
            rfl
        rw [hrl] at hb
        simp only [Ans.bind]
        by_cases hx : x.1 = []
        · rw [if_pos hx] at hb
          rw [hblock _ _ _ hb, if_pos hx]
          rfl
        · rw [if_neg hx] at hb
          rw [hblock _ _ _ hb, if_neg hx]
          simp only [List.isEmpty_cons, Bool.false_eq_true, if_false, FoundR]
          rw [bind_apply]
          obtain ⟨ts, hts⟩ := hsk prev x.2 s
          rw [hts]
          have hsucc : (TLine.mk 0 (.mk cs) true [.mk none (byteContents x.1)]).isSuccessful = true := by
            simp [TLine.isSuccessful, TElement.isSuccessful]
          refine ⟨_, rfl, ?_, ?_, rfl⟩
          · simp [Tree.isSuccessful, Tree.block, mkBlock, Block.successful, hsucc]
          · simp only [Tree.shape, mkBlock, List.find?_cons, hsucc]
            simp only [Block.shape, TLine.shape, elementsShape, TElement.shape,
              Option.map_none, Option.getD_none, byteContents_shape, Token.name]

end Rodkina.Ast
