import Verif.AstRefSpec
import Verif.AstSkip

/-!
# The parser agrees with the reference interpreter of AstRefSpec.lean

For all grammars without references by name whose tokens have different names along every nesting
path.
-/

namespace Rodkina.Ast

open M

mutual
/-- Names of a token and of the tokens nested in it (external grammars and channels have their own
map). -/
def tokenNames : Token → List String
  | .mk name ls _ => name :: linesNames ls
/-- Names below lines. -/
def linesNames : List GLine → List String
  | [] => []
  | g :: gs => lineNames g ++ linesNames gs
/-- Names below a line. -/
def lineNames : GLine → List String
  | .mk cs => containersNames cs
/-- Names below containers. -/
def containersNames : List Container → List String
  | [] => []
  | c :: cs => containerNames c ++ containersNames cs
/-- Names below a container. -/
def containerNames : Container → List String
  | .element _ _ c => contentNames c
  | .compose _ => []
/-- Names below a content. -/
def contentNames : Content → List String
  | .value _ _ => []
  | .token t => tokenNames t
  | .everything _ ex esc => tokenNames ex ++ optNames esc
  | .external _ _ => []
  | .recursive _ => []
/-- Names of an optional token. -/
def optNames : Option Token → List String
  | none => []
  | some t => tokenNames t
end

/-- External grammars but no escape tokens. -/
def Flags.noEscape : Flags := ⟨False, True⟩

mutual
/-- The grammars covered by the reference interpreter; `path` are the names of the enclosing tokens.
An escape token is read inside every token of its exception. -/
def RefTok (path : List String) : Token → Prop
  | .mk name ls _ => name ∉ path ∧ RefLines (name :: path) ls
/-- All lines. -/
def RefLines (path : List String) : List GLine → Prop
  | [] => True
  | g :: gs => RefLine path g ∧ RefLines path gs
/-- One line. -/
def RefLine (path : List String) : GLine → Prop
  | .mk cs => sameNames cs ∧ RefConts path cs
/-- All containers. -/
def RefConts (path : List String) : List Container → Prop
  | [] => True
  | c :: cs => RefCont path c ∧ RefConts path cs
/-- One container. -/
def RefCont (path : List String) : Container → Prop
  | .element m _ c => m < 2 ^ 63 ∧ RefContent path c
  | .compose _ => True
/-- One content. -/
def RefContent (path : List String) : Content → Prop
  | .value _ _ => True
  | .token t => RefTok path t
  | .everything _ ex esc => RefTok path ex ∧ RefOpt (tokenNames ex ++ path) esc
  | .external _ g => RefGrammar g
  | .recursive _ => False
/-- An optional token. -/
def RefOpt (path : List String) : Option Token → Prop
  | none => True
  | some t => RefTok path t
/-- A grammar. -/
def RefGrammar : Grammar → Prop
  | .mk root chs => RefTok [] root ∧ RefChans chs
/-- All channels. -/
def RefChans : List Channel → Prop
  | [] => True
  | c :: cs => RefChan c ∧ RefChans cs
/-- One channel: its token has neither escape tokens nor external grammars, its conditions no escape
tokens. -/
def RefChan : Channel → Prop
  | .mk t a b => (RefTok [] t ∧ TokOK Flags.none t) ∧
      (RefOpt [] a ∧ ∀ e, a = some e → TokOK Flags.noEscape e) ∧
      (RefOpt [] b ∧ ∀ e, b = some e → TokOK Flags.noEscape e)
end

/-- The outcome of a token call is the one of the reference interpreter, the map is unchanged. -/
def FoundR (o : Out Tree × Stk) (s : Stk) (r : Ans (Shape × Bytes)) : Prop :=
  match r with
  | .found x => ∃ t, o = (.ok t, s) ∧ t.isSuccessful = true ∧ t.shape = x.1 ∧ t.remaining = x.2
  | .blank => ∃ t, o = (.ok t, s) ∧ t.isSuccessful = false
  | .refused => o = (.err, s)
  | .crash => o.1 = .panic

/-- Skipping channels computes `sk` and leaves the map alone. -/
def SkipR (rec : Rec) (chs : List Channel) (sk : Bytes → Bytes → Bytes) : Prop :=
  ∀ prev cur s, ∃ ts, skipChannels rec chs prev cur s = (.ok (ts, sk prev cur), s)

theorem skipR_nil (rec : Rec) : SkipR rec [] (fun _ d => d) := by
  intro prev cur s
  exact ⟨[], rfl⟩

/-- `element` in terms of a matcher. -/
def ElemR (rec : Rec) (c : Content) (ctx : Ctx) (f : Matcher Shape) (s : Stk) : Prop :=
  ∀ prev cur, cur ≠ [] → match f prev cur with
    | .found x => ∃ tc, element rec c ctx prev cur s = (.ok (tc, x.2), s) ∧ tc.shape = x.1
    | .crash => (element rec c ctx prev cur s).1 = .panic
    | _ => element rec c ctx prev cur s = (.err, s)

theorem bind_panic {α β : Type} {m : M α} {f : α → M β} {s : Stk} (h : (m s).1 = .panic) :
    ((m >>= f) s).1 = .panic := by
  rw [bind_apply]
  generalize m s = r at *
  obtain ⟨o, s'⟩ := r
  subst h
  rfl

theorem attempt_panic {α : Type} {m : M α} {s : Stk} (h : (m s).1 = .panic) :
    (attempt m s).1 = .panic := by
  unfold M.attempt
  generalize m s = r at *
  obtain ⟨o, s'⟩ := r
  subst h
  rfl

theorem manyOf_le_max {α : Type} (f : Matcher α) {m : Nat} (k n : Nat) (p d : Bytes) (h : n ≤ m)
    {x : List α × Bytes × Bytes} (hx : manyOf f (some m) k n p d = .found x) :
    n + x.1.length ≤ m := by
  induction k generalizing n p d x with
  | zero => simp [manyOf] at hx; subst hx; simpa using h
  | succ k ih =>
    unfold manyOf at hx
    split at hx
    · simp at hx; subst hx; simpa using h
    · rename_i hn
      cases hf : f p d with
      | found y =>
        rw [hf] at hx
        simp only at hx
        cases hm : manyOf f (some m) k (n + 1) d y.2 with
        | found z =>
          rw [hm] at hx
          simp only [Ans.map, Ans.found.injEq] at hx
          subst hx
          have hne : n ≠ m := fun e => hn (.inr (by rw [e]))
          have := ih (n + 1) d y.2 (by omega) hm
          simp only [List.length_cons]
          omega
        | blank => rw [hm] at hx; simp [Ans.map] at hx
        | refused => rw [hm] at hx; simp [Ans.map] at hx
        | crash => rw [hm] at hx; simp [Ans.map] at hx
      | blank => rw [hf] at hx; simp at hx; subst hx; simpa using h
      | refused => rw [hf] at hx; simp at hx; subst hx; simpa using h
      | crash => rw [hf] at hx; simp at hx

theorem manyOf_cases {α : Type} (f : Matcher α) (max : Option Nat) (k n : Nat) (p d : Bytes) :
    (∃ x, manyOf f max k n p d = .found x) ∨ manyOf f max k n p d = .crash := by
  induction k generalizing n p d with
  | zero => exact .inl ⟨_, rfl⟩
  | succ k ih =>
    unfold manyOf
    split
    · exact .inl ⟨_, rfl⟩
    · cases f p d with
      | found y =>
        simp only
        rcases ih (n + 1) d y.2 with ⟨x, h⟩ | h
        · exact .inl ⟨_, by rw [h]; rfl⟩
        · exact .inr (by rw [h]; rfl)
      | blank => exact .inl ⟨_, rfl⟩
      | refused => exact .inl ⟨_, rfl⟩
      | crash => exact .inr rfl

section
variable {n : Nat} {ctx : Ctx} {sk : Bytes → Bytes → Bytes} {path : List String}

theorem refRun_value (hsk : SkipR (token n) ctx.channels sk) (name : String) (b : UInt8) (s : Stk) :
    ElemR (token n) (.value name b) ctx (oneByte sk b) s := by
  intro prev cur hne
  have hne' : cur.isEmpty = false := by cases cur <;> simp_all
  obtain ⟨ts, hts⟩ := hsk prev cur s
  have he : elementContent (token n) (.value name b) ctx prev cur s
      = matchByte b ts (sk prev cur) s := by
    simp only [elementContent, hne', Bool.false_eq_true, if_false, elementValue]
    rw [bind_apply, hts]
  unfold oneByte
  unfold element
  simp only [hne', Bool.false_eq_true, if_false]
  rw [bind_apply, he]
  unfold matchByte
  cases hd : sk prev cur with
  | nil => rfl
  | cons b' r =>
    simp only
    by_cases hb : b = b'
    · subst hb
      simp only [if_true]
      exact ⟨.value ts b, rfl, rfl⟩
    · simp only [hb, if_false]
      rfl

/-- A content that is a tree. -/
theorem refRun_tree {f : Matcher Shape} {c : Content} {run : Bytes → Bytes → M Tree} {s : Stk}
    (hc : ∀ prev cur, elementContent (token n) c ctx prev cur
      = (do let t ← run prev cur; pure (treeContent t)))
    (h : ∀ prev cur, FoundR (run prev cur s) s (f prev cur)) :
    ElemR (token n) c ctx (fun p d => (f p d).strict) s := by
  intro prev cur hne
  have hne' : cur.isEmpty = false := by cases cur <;> simp_all
  have := h prev cur
  unfold FoundR at this
  unfold element
  simp only [hne', Bool.false_eq_true, if_false, Ans.strict]
  cases hf : f prev cur with
  | refused =>
    rw [hf] at this
    simp only at this ⊢
    rw [bind_apply, hc, bind_apply, this]
  | crash =>
    rw [hf] at this
    simp only at this ⊢
    rw [hc]
    exact bind_panic (bind_panic this)
  | blank =>
    rw [hf] at this
    obtain ⟨t, h, hs⟩ := this
    simp only
    rw [bind_apply, hc, bind_apply, h]
    simp only [pure_apply, treeContent, acceptContent, TContent.isSuccessful, hs,
      Bool.false_eq_true, if_false]
    rfl
  | found x =>
    rw [hf] at this
    obtain ⟨t, h, hs, hsh, hr⟩ := this
    simp only
    rw [bind_apply, hc, bind_apply, h]
    refine ⟨.tree t, ?_, ?_⟩
    · simp only [pure_apply, treeContent, acceptContent, TContent.isSuccessful, hs, if_true, hr]
    · simpa [TContent.shape] using hsh

/-- The element loop and `manyOf`. -/
theorem refRun_elementLoop {c : Content} {f : Matcher Shape} {s : Stk}
    (he : ElemR (token n) c ctx f s) (max : Option Nat) (k j : Nat) (st : ElState)
    (hk : st.rem.length < k) (hj : st.rem.length ≤ j)
    (hm : ∀ m, max = some m → st.list.length ≤ m) :
    match manyOf f max j st.list.length st.prev st.rem with
    | .found x => ∃ xs, elementLoop (token n) c max ctx k st s
        = (.ok ⟨st.list ++ xs, x.2.1, x.2.2⟩, s) ∧ contentsShape xs = x.1
    | _ => (elementLoop (token n) c max ctx k st s).1 = .panic := by
  induction k generalizing j st with
  | zero => omega
  | succ k ih =>
    unfold elementLoop
    by_cases hemp : st.rem = []
    · have hmany : manyOf f max j st.list.length st.prev st.rem = .found ([], st.prev, st.rem) := by
        cases j <;> simp [manyOf, hemp]
      rw [hmany]
      refine ⟨[], ?_, rfl⟩
      rw [if_pos (by rw [hemp]; rfl), List.append_nil]
      rfl
    · have hemp' : st.rem.isEmpty = false := by cases h : st.rem <;> simp_all
      simp only [hemp', Bool.false_eq_true, if_false]
      obtain ⟨j', rfl⟩ : ∃ j', j = j' + 1 := by
        cases j with
        | zero =>
          exfalso
          cases h : st.rem with
          | nil => exact hemp h
          | cons a b => rw [h] at hj; simp at hj
        | succ j' => exact ⟨j', rfl⟩
      unfold manyOf
      by_cases hmax : reachedMax max st.list.length = true
      · have : max = some st.list.length := by
          cases max with
          | none => simp [reachedMax] at hmax
          | some m =>
            simp [reachedMax] at hmax
            have := hm m rfl
            congr 1
            omega
        rw [if_pos (.inr this), if_pos hmax]
        exact ⟨[], by simp, rfl⟩
      · have hnm : max ≠ some st.list.length := by
          intro h
          subst h
          simp [reachedMax] at hmax
        rw [if_neg hmax, if_neg (by simp [hemp, hnm])]
        have hrun := he st.prev st.rem hemp
        have ha : containerAllowed Flags.any (.element 0 none c) :=
          lineAllowed_any (.mk [.element 0 none c]) _ (by simp [GLine.containers])
        have hlt := (ens_element (token_good Flags.any n) (any_ctx ctx)
          (Content.All_of lineAllowed_any c) ha st.prev st.rem s (any_stk s)).2.1
        cases hf : f st.prev st.rem with
        | crash =>
          rw [hf] at hrun
          exact bind_panic (attempt_panic hrun)
        | blank =>
          rw [hf] at hrun
          simp only at hrun ⊢
          rw [bind_apply]
          unfold M.attempt
          rw [hrun]
          exact ⟨[], by simp [elementNext], rfl⟩
        | refused =>
          rw [hf] at hrun
          simp only at hrun ⊢
          rw [bind_apply]
          unfold M.attempt
          rw [hrun]
          exact ⟨[], by simp [elementNext], rfl⟩
        | found x =>
          rw [hf] at hrun
          obtain ⟨tc, htc, hsh⟩ := hrun
          rw [htc] at hlt
          have hlt' := (hlt (tc, x.2) rfl).2.2
          simp only at hlt'
          have ih' := ih j' ⟨st.list ++ [tc], st.rem, x.2⟩
            (by simp only; omega) (by simp only; omega) (by
              intro m hmm
              have := hm m hmm
              have : st.list.length ≠ m := fun e => hnm (by rw [e, hmm])
              simp only [List.length_append, List.length_singleton]
              omega)
          simp only [List.length_append, List.length_singleton] at ih'
          have hstep : (do
              let r ← attempt (element (token n) c ctx st.prev st.rem)
              elementNext st (elementLoop (token n) c max ctx k) r : M ElState) s
              = elementLoop (token n) c max ctx k ⟨st.list ++ [tc], st.rem, x.2⟩ s := by
            rw [bind_apply]
            unfold M.attempt
            rw [htc]
            rfl
          rw [hstep]
          rcases manyOf_cases f max j' (st.list.length + 1) st.rem x.2 with ⟨y, hy⟩ | hy
          · rw [hy] at ih'
            simp only [hy, Ans.map]
            obtain ⟨xs, h1, h2⟩ := ih'
            exact ⟨tc :: xs, by rw [h1]; simp, by simp [contentsShape, hsh, h2]⟩
          · rw [hy] at ih'
            simp only [hy, Ans.map]
            exact ih'

theorem refErr_composeLoop (hsk : SkipR (token n) ctx.channels sk) (prev : Bytes) (s : Stk)
    (es : List (UInt8 × Nat)) (rem : Bytes) :
    composeLoop (token n) ctx prev es rem s = (.ok (), s) ∨
      composeLoop (token n) ctx prev es rem s = (.err, s) := by
  induction es generalizing rem with
  | nil => exact .inl rfl
  | cons e es ih =>
    unfold composeLoop
    rw [bind_apply]
    obtain ⟨ts, hts⟩ := hsk prev rem s
    have : elementValue (token n) e.1 ctx prev rem s = matchByte e.1 ts (sk prev rem) s := by
      unfold elementValue
      rw [bind_apply, hts]
    rw [this]
    unfold matchByte
    cases sk prev rem with
    | nil => exact .inr rfl
    | cons b r =>
      by_cases hb : e.1 = b
      · simp only [hb, if_true]
        exact ih r
      · simp only [hb, if_false]
        exact .inr rfl

/-- `lineLoop` in terms of the reference interpreter. -/
def LineR (o : Out LnState × Stk) (s : Stk) (cs : List Container) (st : LnState)
    (r : Ans (List ShapeElem × Bytes)) : Prop :=
  match r with
  | .found y => ∃ st' es, o = (.ok st', s) ∧ st'.list = st.list ++ es ∧ elementsShape es = y.1 ∧
      st'.rem = y.2 ∧ ElemsFor cs es
  | .crash => o.1 = .panic
  | .refused => o = (.err, s)
  | .blank => False

theorem refRun_lineLoop {m : Mode} {s : Stk}
    (hsk : SkipR (token n) ctx.channels sk) (prev0 : Bytes) (cs : List Container)
    (hmin : ∀ min max c, Container.element min max c ∈ cs → min < 2 ^ 63)
    (hc : ∀ min max c, Container.element min max c ∈ cs →
      ElemR (token n) c ctx (refContent m c) s)
    (st : LnState) :
    LineR (lineLoop (token n) ctx prev0 cs st s) s cs st (refSeq m cs st.prev st.rem) := by
  induction cs generalizing st with
  | nil =>
    rw [refSeq]
    exact ⟨st, [], rfl, by simp, rfl, rfl, ⟨by simp, by simp⟩⟩
  | cons c cs ih =>
    unfold lineLoop
    rw [refSeq]
    cases c with
    | compose cmp =>
      rw [bind_apply]
      simp only [refContainer, Ans.bind, LineR, lineStep]
      rw [bind_apply]
      rcases refErr_composeLoop hsk prev0 s cmp.list st.rem with h | h
      · rw [h]; rfl
      · rw [h]
    | element min max content =>
      have hg : goMin min = min := by
        have := hmin min max content (by simp)
        simp [goMin, this]
      have hloop := refRun_elementLoop (hc min max content (by simp)) max
        (st.rem.length + 1) st.rem.length ⟨[], st.prev, st.rem⟩ (by simp) (by simp)
        (by simp)
      simp only [List.length_nil, List.nil_append] at hloop
      simp only [refContainer, timesOf]
      rcases manyOf_cases (refContent m content) max st.rem.length 0 st.prev st.rem with
        ⟨x, hx⟩ | hx
      · rw [hx] at hloop
        obtain ⟨xs, h1, h3⟩ := hloop
        rw [hx]
        simp only [Ans.bind]
        have hlen : xs.length = x.1.length := by
          rw [← h3, contentsShape_eq, List.length_map]
        rw [bind_apply]
        simp only [lineStep]
        rw [bind_apply, h1]
        simp only [hg, ← hlen]
        by_cases hlt : xs.length < min
        · simp only [hlt, if_true, LineR]
          rfl
        · simp only [hlt, if_false, pure_apply]
          have hxs : ∀ k, max = some k → xs.length ≤ k := by
            intro k hk
            subst hk
            have := manyOf_le_max (refContent m content) st.rem.length 0 st.prev st.rem
              (Nat.zero_le k) hx
            omega
          have ih' := ih (fun a b c h => hmin a b c (by simp [h]))
            (fun a b c h => hc a b c (by simp [h]))
            ⟨if xs.isEmpty then st.list else
              st.list ++ [.mk (some (.element min max content)) xs], x.2.1, x.2.2⟩
          simp only at ih'
          cases hseq : refSeq m cs x.2.1 x.2.2 with
          | refused =>
            rw [hseq] at ih'
            exact ih'
          | blank =>
            rw [hseq] at ih'
            exact ih'.elim
          | crash =>
            rw [hseq] at ih'
            exact ih'
          | found y =>
            rw [hseq] at ih'
            obtain ⟨st'', es, e1, e2, e3, e4, e5⟩ := ih'
            simp only [Ans.map, LineR]
            refine ⟨st'', (if xs.isEmpty then [] else
              [.mk (some (.element min max content)) xs]) ++ es, e1, ?_, ?_, e4, ?_⟩
            · rw [e2]
              cases xs <;> simp
            · rw [elementsShape_append, e3, ← h3]
              cases xs with
              | nil => simp [elementsShape, consElem, contentsShape]
              | cons x xs => simp [elementsShape, consElem, contentsShape, TElement.shape,
                  Container.name]
            · refine ElemsFor.cons ⟨?_, ?_⟩ e5
              · intro e he
                cases hx : xs with
                | nil => simp [hx] at he
                | cons x rest =>
                  rw [hx] at he
                  simp only [List.isEmpty_cons, Bool.false_eq_true, if_false,
                    List.mem_singleton] at he
                  subst he
                  rw [hx] at hxs hlt
                  refine ⟨min, max, content, by simp, rfl, ?_, by simp [TElement.amount,
                    TElement.contents], ?_⟩
                  · simpa [TElement.amount, TElement.contents] using hlt
                  · cases hmx : max with
                    | none => rfl
                    | some m =>
                      exact decide_eq_true (hxs m hmx)
              · intro c' hc'
                simp only [List.mem_singleton] at hc'
                subst hc'
                refine ⟨⟨_, _, _, rfl⟩, ?_⟩
                intro hp
                simp only [Container.min] at hp
                cases xs with
                | nil => simp at hlt; omega
                | cons x rest =>
                  exact ⟨.mk (some (.element min max content)) (x :: rest), by simp, rfl⟩
      · rw [hx] at hloop
        rw [hx]
        simp only [Ans.bind, LineR]
        refine bind_panic ?_
        simp only [lineStep]
        exact bind_panic hloop

/-- `line` in terms of a matcher. -/
def LnR (o : Out (TLine × Bytes) × Stk) (s : Stk) (idx : Nat) (cs : List Container)
    (r : Ans (List ShapeElem × Bytes)) : Prop :=
  match r with
  | .found y => ∃ es, o = (.ok (.mk idx (.mk cs) false es, y.2), s) ∧ elementsShape es = y.1 ∧
      es ≠ [] ∧ ElemsFor cs es
  | .blank => ∃ rem, o = (.ok (.mk idx (.mk cs) false [], rem), s)
  | .refused => o = (.err, s)
  | .crash => o.1 = .panic

theorem refRun_line {m : Mode} {s : Stk}
    (hsk : SkipR (token n) ctx.channels sk) (prev cur : Bytes) (cs : List Container)
    (hmin : ∀ min max c, Container.element min max c ∈ cs → min < 2 ^ 63)
    (hc : ∀ min max c, Container.element min max c ∈ cs →
      ElemR (token n) c ctx (refContent m c) s)
    (idx : Nat) :
    LnR (line (token n) idx (.mk cs) ctx prev cur s) s idx cs (refLine m (.mk cs) prev cur) := by
  have h := refRun_lineLoop hsk prev cs hmin hc ⟨[], prev, cur⟩
  simp only at h
  rw [refLine]
  beta_reduce
  cases hs : refSeq m cs prev cur with
  | refused =>
    rw [hs] at h
    simp only [LineR] at h
    unfold line
    simp only [Ans.bind, LnR]
    rw [bind_apply]
    simp only [GLine.containers, h]
  | blank => rw [hs] at h; exact h.elim
  | crash =>
    rw [hs] at h
    exact bind_panic h
  | found y =>
    rw [hs] at h
    obtain ⟨st', es, h1, h2, h3, h4, h5⟩ := h
    have hrun : line (token n) idx (.mk cs) ctx prev cur s = (.ok (.mk idx (.mk cs) false es, y.2), s) := by
      unfold line
      rw [bind_apply]
      simp only [GLine.containers, h1, pure_apply, h2, h4, List.nil_append]
    simp only [Ans.bind]
    cases es with
    | nil =>
      have : y.1.isEmpty = true := by rw [← h3]; rfl
      rw [if_pos this]
      exact ⟨_, hrun⟩
    | cons e es =>
      have : y.1.isEmpty = false := by rw [← h3]; rfl
      rw [if_neg (by simp [this])]
      exact ⟨e :: es, hrun, h3, by simp, h5⟩

end

end Rodkina.Ast
