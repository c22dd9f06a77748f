import Verif.AstJust

/-!
# The parser agrees with the ordered-choice reference interpreter

For grammars without references by name, external grammars, composes' contents and escapes, whose
tokens have different names along every nesting path, the parser computes exactly `pegToken`.
-/

namespace Rodkina.Ast

open M

/-- Minimum number of occurrences asked by a container. -/
def Container.min : Container → Nat
  | .element m _ _ => m
  | .compose _ => 0

/-- Containers of one line with the same name do not ask for more than the others guarantee (the
elements of a matched line are looked up by name, the last one wins). -/
def sameNames (cs : List Container) : Prop :=
  ∀ c ∈ cs, ∀ c' ∈ cs, c.name = c'.name → c.min ≤ Nat.max 1 c'.min

/-- A repeated byte. -/
def Container.isBytes : Container → Prop
  | .element m _ (.value _ _) => m < 2 ^ 63
  | _ => False

mutual
/-- The grammars covered by the reference interpreter; `path` are the names of the enclosing
tokens. -/
def PegTok (path : List String) : Token → Prop
  | .mk name ls _ => name ∉ path ∧ PegLines (name :: path) ls
/-- All lines. -/
def PegLines (path : List String) : List GLine → Prop
  | [] => True
  | g :: gs => PegLine path g ∧ PegLines path gs
/-- One line. -/
def PegLine (path : List String) : GLine → Prop
  | .mk cs => sameNames cs ∧ PegConts path cs
/-- All containers. -/
def PegConts (path : List String) : List Container → Prop
  | [] => True
  | c :: cs => PegCont path c ∧ PegConts path cs
/-- One container. -/
def PegCont (path : List String) : Container → Prop
  | .element m _ c => m < 2 ^ 63 ∧ PegContent path c
  | .compose _ => True
/-- One content. -/
def PegContent (path : List String) : Content → Prop
  | .value _ _ => True
  | .token t => PegTok path t
  | .everything _ ex esc => esc = none ∧ ex.name ∉ path ∧
      ∀ g, ex.lines.head? = some g → ∀ c ∈ g.containers, c.isBytes
  | .external _ _ => False
  | .recursive _ => False
end

/-- All names of the map are in `path`. -/
def KeysIn (path : List String) (s : Stk) : Prop := ∀ k e, (k, e) ∈ s → k ∈ path

theorem keysIn_nil (path : List String) : KeysIn path [] := by simp [KeysIn]

/-- The result of a token call is the one of the reference interpreter, the map is unchanged. -/
def Found (o : Out Tree × Stk) (s : Stk) (r : Option (Shape × Bytes)) : Prop :=
  match r with
  | some x => ∃ t, o = (.ok t, s) ∧ t.isSuccessful = true ∧ t.shape = x.1 ∧ t.remaining = x.2
  | none => o = (.err, s) ∨ ∃ t, o = (.ok t, s) ∧ t.isSuccessful = false

/-- Skipping channels computes `sk` and leaves the map alone. -/
def SkipIs (rec : Rec) (chs : List Channel) (sk : Bytes → Bytes) : Prop :=
  ∀ prev cur s, ∃ ts, skipChannels rec chs prev cur s = (.ok (ts, sk cur), s)

theorem skipIs_nil (rec : Rec) : SkipIs rec [] id := by
  intro prev cur s
  exact ⟨[], rfl⟩

theorem contentsShape_eq (cs : List TContent) : contentsShape cs = cs.map TContent.shape := by
  induction cs with
  | nil => rfl
  | cons c cs ih => simp [contentsShape, ih]

theorem elementsShape_append (a b : List TElement) :
    elementsShape (a ++ b) = elementsShape a ++ elementsShape b := by
  induction a with
  | nil => rfl
  | cons c cs ih => simp [elementsShape, ih]

theorem repeatMatch_le_max {α : Type} (f : Bytes → Option (α × Bytes)) {m : Nat} (k n : Nat)
    (d : Bytes) (h : n ≤ m) : n + (repeatMatch f (some m) k n d).1.length ≤ m := by
  induction k generalizing n d with
  | zero => simpa [repeatMatch] using h
  | succ k ih =>
    unfold repeatMatch
    split
    · simpa using h
    · rename_i hn
      split
      · simpa using h
      · rename_i x _
        have hne : n ≠ m := fun e => hn (.inr (by rw [e]))
        have := ih (n + 1) x.2 (by omega)
        simp only [List.length_cons]
        omega

section
variable {n : Nat} {ctx : Ctx} {sk : Bytes → Bytes} {path : List String}

/-- `element` in terms of a function on bytes. -/
def ElemRun (rec : Rec) (c : Content) (ctx : Ctx) (f : Bytes → Option (Shape × Bytes)) (s : Stk) :
    Prop :=
  ∀ prev cur, cur ≠ [] → match f cur with
    | some x => ∃ tc, element rec c ctx prev cur s = (.ok (tc, x.2), s) ∧ tc.shape = x.1
    | none => element rec c ctx prev cur s = (.err, s)

theorem run_value (hsk : SkipIs (token n) ctx.channels sk) (name : String) (b : UInt8) (s : Stk) :
    ElemRun (token n) (.value name b) ctx (byteMatch sk b) s := by
  intro prev cur hne
  have hne' : cur.isEmpty = false := by cases cur <;> simp_all
  obtain ⟨ts, hts⟩ := hsk prev cur s
  have he : elementContent (token n) (.value name b) ctx prev cur s
      = matchByte b ts (sk cur) s := by
    simp only [elementContent, hne', Bool.false_eq_true, if_false, elementValue]
    rw [bind_apply, hts]
  unfold byteMatch
  unfold element
  simp only [hne', Bool.false_eq_true, if_false]
  rw [bind_apply, he]
  unfold matchByte
  cases hd : sk cur with
  | nil => rfl
  | cons b' r =>
    simp only
    by_cases hb : b = b'
    · subst hb
      simp only [if_true]
      exact ⟨.value ts b, rfl, rfl⟩
    · simp only [hb, if_false]
      rfl

theorem run_tree {t : Token} {f : Bytes → Option (Shape × Bytes)} {c : Content} {ctx' : Ctx}
    {s : Stk}
    (hc : ∀ prev cur, elementContent (token n) c ctx prev cur
      = (do let t ← token n t ctx' prev cur; pure (treeContent t)))
    (h : ∀ prev cur, Found (token n t ctx' prev cur s) s (f cur)) :
    ElemRun (token n) c ctx f s := by
  intro prev cur hne
  have hne' : cur.isEmpty = false := by cases cur <;> simp_all
  have := h prev cur
  unfold Found at this
  unfold element
  simp only [hne', Bool.false_eq_true, if_false]
  rw [bind_apply, hc, bind_apply]
  cases hf : f cur with
  | none =>
    rw [hf] at this
    simp only at this ⊢
    rcases this with h | ⟨t, h, hs⟩
    · rw [h]
    · rw [h]
      simp only [pure_apply, treeContent, acceptContent, TContent.isSuccessful, hs,
        Bool.false_eq_true, if_false]
      rfl
  | some x =>
    rw [hf] at this
    obtain ⟨t, h, hs, hsh, hr⟩ := this
    rw [h]
    refine ⟨.tree t, ?_, ?_⟩
    · simp only [pure_apply, treeContent, acceptContent, TContent.isSuccessful, hs, if_true, hr]
    · simpa [TContent.shape] using hsh

theorem run_elementLoop {c : Content} {f : Bytes → Option (Shape × Bytes)} {s : Stk}
    (he : ElemRun (token n) c ctx f s) (max : Option Nat) (k j : Nat) (st : ElState)
    (hk : st.rem.length < k) (hj : st.rem.length ≤ j)
    (hm : ∀ m, max = some m → st.list.length ≤ m) :
    ∃ st' xs, elementLoop (token n) c max ctx k st s = (.ok st', s) ∧ st'.list = st.list ++ xs ∧
      contentsShape xs = (repeatMatch f max j st.list.length st.rem).1 ∧
      st'.rem = (repeatMatch f max j st.list.length st.rem).2 := by
  induction k generalizing j st with
  | zero => omega
  | succ k ih =>
    unfold elementLoop
    by_cases hemp : st.rem = []
    · refine ⟨st, [], by simp [hemp], by simp, ?_, ?_⟩
      · cases j <;> simp [repeatMatch, hemp, contentsShape]
      · cases j <;> simp [repeatMatch, hemp]
    · have hemp' : st.rem.isEmpty = false := by cases h : st.rem <;> simp_all
      simp only [hemp', Bool.false_eq_true, if_false]
      obtain ⟨j', rfl⟩ : ∃ j', j = j' + 1 := by
        cases j with
        | zero =>
          exfalso
          cases h : st.rem with
          | nil => exact hemp h
          | cons a b => rw [h] at hj; simp at hj
        | succ j' => exact ⟨j', rfl⟩
      by_cases hmax : reachedMax max st.list.length = true
      · have : max = some st.list.length := by
          cases max with
          | none => simp [reachedMax] at hmax
          | some m =>
            simp [reachedMax] at hmax
            have := hm m rfl
            congr 1
            omega
        refine ⟨st, [], by simp [hmax], by simp, ?_, ?_⟩
        · simp [repeatMatch, this, contentsShape]
        · simp [repeatMatch, this]
      · have hnm : max ≠ some st.list.length := by
          intro h
          subst h
          simp [reachedMax] at hmax
        simp only [hmax, Bool.false_eq_true, if_false]
        have hrun := he st.prev st.rem hemp
        have ha : containerAllowed Flags.any (.element 0 none c) :=
          lineAllowed_any (.mk [.element 0 none c]) _ (by simp [GLine.containers])
        have hlt := (ens_element (token_good Flags.any n) (any_ctx ctx)
          (Content.All_of lineAllowed_any c) ha st.prev st.rem s (any_stk s)).2.1
        rw [bind_apply]
        unfold M.attempt
        unfold repeatMatch
        have hcond : ¬ (st.rem = [] ∨ max = some st.list.length) := by simp [hemp, hnm]
        rw [if_neg hcond]
        cases hf : f st.rem with
        | none =>
          rw [hf] at hrun
          simp only at hrun ⊢
          rw [hrun]
          exact ⟨st, [], rfl, by simp, rfl, rfl⟩
        | some x =>
          rw [hf] at hrun
          obtain ⟨tc, htc, hsh⟩ := hrun
          rw [htc] at hlt
          have hlt' := (hlt (tc, x.2) rfl).2.2
          simp only at hlt'
          simp only [htc, elementNext]
          obtain ⟨st', xs, h1, h2, h3, h4⟩ := ih j' ⟨st.list ++ [tc], st.rem, x.2⟩
            (by simp only; omega) (by simp only; omega) (by
              intro m hmm
              have := hm m hmm
              have : st.list.length ≠ m := fun e => hnm (by rw [e, hmm])
              simp only [List.length_append, List.length_singleton]
              omega)
          refine ⟨st', tc :: xs, h1, by simp [h2], ?_, ?_⟩
          · simp only [contentsShape, hsh, h3, List.length_append, List.length_singleton]
          · simpa only [List.length_append, List.length_singleton] using h4

/-- The elements collected by `line` for containers `cs`. -/
structure ElemsFor (cs : List Container) (es : List TElement) : Prop where
  from_ : ∀ e ∈ es, ∃ min max c, Container.element min max c ∈ cs ∧
    e.grammar = some (.element min max c) ∧ min ≤ e.amount ∧ 1 ≤ e.amount ∧
      withinMax max e.amount = true
  all : ∀ c ∈ cs, (∃ min max ct, c = Container.element min max ct) ∧
    (0 < c.min → ∃ e ∈ es, e.key = some c.name)

theorem ElemsFor.cons {c : Container} {cs : List Container} {es es' : List TElement}
    (h1 : ElemsFor [c] es) (h2 : ElemsFor cs es') : ElemsFor (c :: cs) (es ++ es') := by
  refine ⟨?_, ?_⟩
  · intro e he
    rcases List.mem_append.mp he with h | h
    · obtain ⟨a, b, d, hm, r⟩ := h1.from_ e h
      simp only [List.mem_singleton] at hm
      exact ⟨a, b, d, by simp [hm], r⟩
    · obtain ⟨a, b, d, hm, r⟩ := h2.from_ e h
      exact ⟨a, b, d, by simp [hm], r⟩
  · intro c' hc'
    rcases List.mem_cons.mp hc' with h | h
    · have := h1.all c' (by simp [h])
      refine ⟨this.1, fun hp => ?_⟩
      obtain ⟨e, he, hk⟩ := this.2 hp
      exact ⟨e, by simp [he], hk⟩
    · have := h2.all c' h
      refine ⟨this.1, fun hp => ?_⟩
      obtain ⟨e, he, hk⟩ := this.2 hp
      exact ⟨e, by simp [he], hk⟩

theorem ElemsFor.successful {cs : List Container} {es : List TElement} (h : ElemsFor cs es)
    (hn : sameNames cs) (idx : Nat) :
    (TLine.mk idx (.mk cs) false es).isSuccessful = !es.isEmpty := by
  unfold TLine.isSuccessful
  have h1 : es.all TElement.isSuccessful = true := by
    rw [List.all_eq_true]
    intro e he
    obtain ⟨min, max, c, _, hg, hmin, _, hmax⟩ := h.from_ e he
    rcases e with ⟨g, xs⟩
    simp only [TElement.grammar] at hg
    subst hg
    simp only [TElement.isSuccessful, Bool.and_eq_true, decide_eq_true_eq]
    exact ⟨hmin, hmax⟩
  have h2 : cs.all (containerSatisfied es) = true := by
    rw [List.all_eq_true]
    intro c hc
    obtain ⟨⟨min, max, ct, rfl⟩, hex⟩ := h.all c hc
    simp only [containerSatisfied, Bool.or_eq_true, decide_eq_true_eq]
    by_cases h0 : min = 0
    · exact .inl h0
    · right
      obtain ⟨e, he, hk⟩ := hex (by simp only [Container.min]; omega)
      rw [Option.any_eq_true]
      cases hf : fetchElement es ct.name with
      | none =>
        exfalso
        unfold fetchElement at hf
        rw [List.find?_eq_none] at hf
        have := hf e (by simpa using he)
        simp [hk, Container.name] at this
      | some e' =>
        refine ⟨e', rfl, ?_⟩
        unfold fetchElement at hf
        have hm := List.mem_of_find?_eq_some hf
        have hkey := List.find?_some hf
        obtain ⟨min', max', ct', hc', hg', hmin', hone, _⟩ := h.from_ e' (by simpa using hm)
        have hname : ct'.name = ct.name := by
          simp only [TElement.key, hg', Option.map_some, Container.name, beq_iff_eq,
            Option.some.injEq] at hkey
          exact hkey
        have := hn _ hc _ hc' (by simp [Container.name, hname])
        simp only [Container.min] at this
        simp only [decide_eq_true_eq]
        rcases Nat.le_or_eq_of_le_succ (Nat.le_succ_of_le this) with h | h <;>
          (simp only [Nat.max_def] at this; split at this <;> omega)
  simp only [h1, h2, GLine.containers, Bool.or_true, Bool.and_true]

/-- `lineLoop` in terms of the reference interpreter. -/
def LineRun (o : Out LnState × Stk) (s : Stk) (cs : List Container) (st : LnState)
    (r : Option (List ShapeElem × Bytes)) : Prop :=
  match r with
  | some y => ∃ st' es, o = (.ok st', s) ∧ st'.list = st.list ++ es ∧ elementsShape es = y.1 ∧
      st'.rem = y.2 ∧ ElemsFor cs es
  | none => o = (.err, s)

theorem err_composeLoop (hsk : SkipIs (token n) ctx.channels sk) (prev : Bytes) (s : Stk)
    (es : List (UInt8 × Nat)) (rem : Bytes) :
    composeLoop (token n) ctx prev es rem s = (.ok (), s) ∨
      composeLoop (token n) ctx prev es rem s = (.err, s) := by
  induction es generalizing rem with
  | nil => exact .inl rfl
  | cons e es ih =>
    unfold composeLoop
    rw [bind_apply]
    obtain ⟨ts, hts⟩ := hsk prev rem s
    have : elementValue (token n) e.1 ctx prev rem s = matchByte e.1 ts (sk rem) s := by
      unfold elementValue
      rw [bind_apply, hts]
    rw [this]
    unfold matchByte
    cases sk rem with
    | nil => exact .inr rfl
    | cons b r =>
      by_cases hb : e.1 = b
      · simp only [hb, if_true]
        exact ih r
      · simp only [hb, if_false]
        exact .inr rfl

/-- The sequence of containers, given the function for each content. -/
def seqWith (f : Content → Bytes → Option (Shape × Bytes)) :
    List Container → Bytes → Option (List ShapeElem × Bytes)
  | [], d => some ([], d)
  | .compose _ :: _, _ => none
  | .element min max c :: cs, d => (greedy (f c) min max d).bind (fun x =>
      (seqWith f cs x.2).map (fun y => (consElem c.name x.1 y.1, y.2)))

theorem pegSeq_eq (sk : Bytes → Bytes) (cs : List Container) (d : Bytes) :
    pegSeq sk cs d = seqWith (pegContent sk) cs d := by
  induction cs generalizing d with
  | nil => rfl
  | cons c cs ih =>
    unfold pegSeq
    cases c with
    | compose c => rfl
    | element min max c =>
      simp only [pegContainer, seqWith, ih, Container.name]

theorem run_lineLoop {f : Content → Bytes → Option (Shape × Bytes)} {s : Stk}
    (hsk : SkipIs (token n) ctx.channels sk) (prev0 : Bytes) (cs : List Container)
    (hmin : ∀ min max c, Container.element min max c ∈ cs → min < 2 ^ 63)
    (hc : ∀ min max c, Container.element min max c ∈ cs → ElemRun (token n) c ctx (f c) s)
    (st : LnState) :
    LineRun (lineLoop (token n) ctx prev0 cs st s) s cs st (seqWith f cs st.rem) := by
  induction cs generalizing st with
  | nil =>
    exact ⟨st, [], rfl, by simp, rfl, rfl, ⟨by simp, by simp⟩⟩
  | cons c cs ih =>
    unfold lineLoop
    rw [bind_apply]
    cases c with
    | compose cmp =>
      simp only [seqWith, LineRun, lineStep]
      rw [bind_apply]
      rcases err_composeLoop hsk prev0 s cmp.list st.rem with h | h
      · rw [h]; rfl
      · rw [h]
    | element min max content =>
      have hg : goMin min = min := by
        have := hmin min max content (by simp)
        simp [goMin, this]
      obtain ⟨st', xs, h1, h2, h3, h4⟩ := run_elementLoop (hc min max content (by simp)) max
        (st.rem.length + 1) st.rem.length ⟨[], st.prev, st.rem⟩ (by simp) (by simp)
        (by simp)
      simp only [List.nil_append, List.length_nil] at h2 h3 h4
      have hlen : xs.length = (repeatMatch (f content) max st.rem.length 0 st.rem).1.length := by
        rw [← h3, contentsShape_eq, List.length_map]
      simp only [seqWith, lineStep]
      rw [bind_apply, h1]
      simp only [hg, h2]
      unfold greedy
      rw [← hlen]
      by_cases hlt : xs.length < min
      · simp only [hlt, if_true, Option.bind_none, LineRun]
        rfl
      · simp only [hlt, if_false, Option.bind_some, pure_apply]
        have hxs : ∀ m, max = some m → xs.length ≤ m := by
          intro m hm
          subst hm
          have := repeatMatch_le_max (f content) st.rem.length 0 st.rem (Nat.zero_le m)
          omega
        rw [← h3, ← h4]
        have ih' := ih (fun a b c h => hmin a b c (by simp [h]))
          (fun a b c h => hc a b c (by simp [h]))
          ⟨if xs.isEmpty then st.list else
            st.list ++ [.mk (some (.element min max content)) xs], st'.prev, st'.rem⟩
        simp only at ih'
        cases hseq : seqWith f cs st'.rem with
        | none =>
          rw [hseq] at ih'
          simp only [Option.map_none, LineRun] at ih' ⊢
          exact ih'
        | some y =>
          rw [hseq] at ih'
          obtain ⟨st'', es, e1, e2, e3, e4, e5⟩ := ih'
          simp only [Option.map_some, LineRun]
          refine ⟨st'', (if xs.isEmpty then [] else
            [.mk (some (.element min max content)) xs]) ++ es, e1, ?_, ?_, e4, ?_⟩
          · rw [e2]
            cases xs <;> simp
          · rw [elementsShape_append, e3]
            cases xs with
            | nil => simp [elementsShape, consElem, contentsShape]
            | cons x xs => simp [elementsShape, consElem, contentsShape, TElement.shape,
                Container.name]
          · refine ElemsFor.cons ⟨?_, ?_⟩ e5
            · intro e he
              cases hx : xs with
              | nil => simp [hx] at he
              | cons x rest =>
                rw [hx] at he
                simp only [List.isEmpty_cons, Bool.false_eq_true, if_false,
                  List.mem_singleton] at he
                subst he
                rw [hx] at hxs hlt
                refine ⟨min, max, content, by simp, rfl, ?_, by simp [TElement.amount,
                  TElement.contents], ?_⟩
                · simpa [TElement.amount, TElement.contents] using hlt
                · cases hmx : max with
                  | none => rfl
                  | some m =>
                    exact decide_eq_true (hxs m hmx)
            · intro c' hc'
              simp only [List.mem_singleton] at hc'
              subst hc'
              refine ⟨⟨_, _, _, rfl⟩, ?_⟩
              intro hp
              simp only [Container.min] at hp
              cases xs with
              | nil => simp at hlt; omega
              | cons x rest =>
                exact ⟨.mk (some (.element min max content)) (x :: rest), by simp, rfl⟩

theorem run_line {f : Content → Bytes → Option (Shape × Bytes)} {s : Stk}
    (hsk : SkipIs (token n) ctx.channels sk) (prev cur : Bytes) (cs : List Container)
    (hmin : ∀ min max c, Container.element min max c ∈ cs → min < 2 ^ 63)
    (hc : ∀ min max c, Container.element min max c ∈ cs → ElemRun (token n) c ctx (f c) s)
    (idx : Nat) :
    match seqWith f cs cur with
    | some y => ∃ es, line (token n) idx (.mk cs) ctx prev cur s = (.ok (.mk idx (.mk cs) false es, y.2), s) ∧
        elementsShape es = y.1 ∧ ElemsFor cs es
    | none => line (token n) idx (.mk cs) ctx prev cur s = (.err, s) := by
  have h := run_lineLoop hsk prev cs hmin hc ⟨[], prev, cur⟩
  simp only at h
  unfold line
  rw [bind_apply]
  cases hs : seqWith f cs cur with
  | none =>
    rw [hs] at h
    simp only [LineRun] at h
    simp only [GLine.containers, h]
  | some y =>
    rw [hs] at h
    obtain ⟨st', es, h1, h2, h3, h4, h5⟩ := h
    refine ⟨es, ?_, h3, h5⟩
    simp only [GLine.containers, h1, pure_apply, h2, h4, List.nil_append]

end

/-! ### The map -/

theorem get_eq_none {path : List String} {s : Stk} (hs : KeysIn path s) {k : String}
    (hk : k ∉ path) : s.get k = none := by
  cases h : s.get k with
  | none => rfl
  | some e => exact absurd (hs k e (get_mem h)) hk

theorem del_eq_self {path : List String} {s : Stk} (hs : KeysIn path s) {k : String}
    (hk : k ∉ path) : s.del k = s := by
  unfold Stk.del
  rw [List.filter_eq_self]
  rintro ⟨a, e⟩ h
  have := hs a e h
  simp only [bne_iff_ne, ne_eq]
  exact fun h => hk (h ▸ this)

theorem del_cons_self {path : List String} {s : Stk} (hs : KeysIn path s) {k : String}
    (hk : k ∉ path) (e : Entry) : Stk.del ((k, e) :: s) k = s := by
  have := del_eq_self hs hk
  unfold Stk.del at this ⊢
  simp [this]

theorem keysIn_cons {path : List String} {s : Stk} (hs : KeysIn path s) (k : String) (e : Entry) :
    KeysIn (k :: path) ((k, e) :: s) := by
  intro a b h
  rcases List.mem_cons.mp h with h | h
  · cases h; simp
  · exact List.mem_cons_of_mem _ (hs a b h)

theorem enter_run {path : List String} {s : Stk} (hs : KeysIn path s) {tok : Token}
    (hk : tok.name ∉ path) : enter tok s = (.ok (), (tok.name, ⟨tok, []⟩) :: s) := by
  unfold enter
  rw [get_eq_none hs hk]
  simp only [Stk.put, del_eq_self hs hk]

theorem record_run {path : List String} {s : Stk} (hs : KeysIn path s) {tok : Token}
    (hk : tok.name ∉ path) (e : Entry) (idx : Nat) (cur : Bytes) :
    recordLine tok idx cur ((tok.name, e) :: s)
      = (.ok (), (tok.name, ⟨e.token, (idx, cur) :: e.lines⟩) :: s) := by
  unfold recordLine
  have : Stk.get ((tok.name, e) :: s) tok.name = some e := by simp [Stk.get]
  simp only [this, Option.getD_some, Stk.put, del_cons_self hs hk]

theorem tried_run {s : Stk} {tok : Token} (e : Entry) (idx : Nat) (cur : Bytes)
    (h : e.lines.lookup idx = none) :
    alreadyTried tok idx cur ((tok.name, e) :: s) = (.ok false, (tok.name, e) :: s) := by
  unfold alreadyTried
  have : Stk.get ((tok.name, e) :: s) tok.name = some e := by simp [Stk.get]
  simp [this, h]

/-! ### Everything except -/

/-- The byte matcher of a value, nothing for other contents. -/
def valueOnly : Content → Bytes → Option (Shape × Bytes)
  | .value _ b, d => byteMatch id b d
  | _, _ => none

theorem byteSeq_eq (cs : List Container) (h : ∀ c ∈ cs, c.isBytes) (d : Bytes) :
    byteSeq cs d = (seqWith valueOnly cs d).map (fun y => y.2) := by
  induction cs generalizing d with
  | nil => rfl
  | cons c cs ih =>
    have hc := h c (by simp)
    have ih' := ih (fun c hc => h c (by simp [hc]))
    match c, hc with
    | .element min max (.value name b), _ =>
      unfold byteSeq seqWith
      have : (valueOnly (.value name b)) = byteMatch id b := rfl
      rw [this]
      cases greedy (byteMatch id b) min max d with
      | none => rfl
      | some x => simp [ih', Option.map_map, Function.comp_def]

theorem byteContents_shape (bs : Bytes) : contentsShape (byteContents bs) = bs.map Shape.byte := by
  rw [contentsShape_eq]
  simp [byteContents, TContent.shape, Function.comp_def]

theorem run_bytesLine {m : Nat} {s : Stk} (prev cur : Bytes) (cs : List Container)
    (h : ∀ c ∈ cs, c.isBytes) (idx : Nat) :
    match byteSeq cs cur with
    | some _ => ∃ x, line (token m) idx (.mk cs) ⟨none, [], true⟩ prev cur s = (.ok x, s)
    | none => line (token m) idx (.mk cs) ⟨none, [], true⟩ prev cur s = (.err, s) := by
  have hl := run_line (ctx := ⟨none, [], true⟩) (f := valueOnly) (s := s) (skipIs_nil (token m))
    prev cur cs ?_ ?_ idx
  · rw [byteSeq_eq cs h]
    cases hs : seqWith valueOnly cs cur with
    | none => rw [hs] at hl; exact hl
    | some y =>
      rw [hs] at hl
      obtain ⟨es, h1, _⟩ := hl
      exact ⟨_, h1⟩
  · intro min max c hc
    have := h _ hc
    cases c <;> simp_all [Container.isBytes]
  · intro min max c hc
    have := h _ hc
    match c, this with
    | .value name b, _ => exact run_value (skipIs_nil (token m)) name b s

theorem run_reverseLoop {m : Nat} {s : Stk} (cs : List Container)
    (h : ∀ c ∈ cs, c.isBytes) (idx k : Nat) (st : RvState) (hk : st.rem.length < k) :
    ∃ st', reverseLoop (token m) idx (.mk cs) ⟨none, [], true⟩ k st s = (.ok st', s) ∧
      st'.list = st.list ++
        byteContents (textUntil (fun x => (byteSeq cs x).isSome) st.rem).1 ∧
      st'.rem = (textUntil (fun x => (byteSeq cs x).isSome) st.rem).2 := by
  induction k generalizing st with
  | zero => omega
  | succ k ih =>
    unfold reverseLoop
    cases hrem : st.rem with
    | nil => exact ⟨st, by simp, by simp [textUntil, byteContents], by simp [textUntil, hrem]⟩
    | cons b rest =>
      simp only [List.isEmpty_cons, Bool.false_eq_true, if_false]
      have hesc : escapeStep (token m) idx (.mk cs) ⟨none, [], true⟩ st = pure st := rfl
      rw [bind_apply, hesc, pure_apply]
      simp only
      rw [bind_apply]
      unfold M.attempt
      have hl := run_bytesLine (m := m) (s := s) st.prev st.rem cs h idx
      unfold textUntil
      rw [hrem] at hl ⊢
      cases hb : byteSeq cs (b :: rest) with
      | some r =>
        rw [hb] at hl
        obtain ⟨x, hx⟩ := hl
        rw [hx]
        simp only [Option.isSome_some, if_true]
        exact ⟨st, rfl, by simp [byteContents], by simp [hrem]⟩
      | none =>
        rw [hb] at hl
        simp only at hl
        rw [hl]
        simp only [Option.isSome_none, Bool.false_eq_true, if_false, reverseNext, hrem]
        obtain ⟨st', h1, h2, h3⟩ := ih ⟨st.list ++ [.value [] b], b :: rest, rest⟩
          (by rw [hrem] at hk; simp at hk ⊢; omega)
        refine ⟨st', h1, ?_, h3⟩
        rw [h2]
        simp [byteContents]

theorem run_everything {m : Nat} {s : Stk} {path : List String} (hs : KeysIn path s) {ex : Token}
    (hk : ex.name ∉ path) (hg : ∀ g, ex.lines.head? = some g → ∀ c ∈ g.containers, c.isBytes)
    (prev cur : Bytes) :
    Found (token (m + 1) ex ⟨none, [], true⟩ prev cur s) s (everythingMatch ex cur) := by
  unfold token tokenBody
  rw [bind_apply, enter_run hs hk]
  simp only
  rw [bind_apply]
  unfold M.thenDelete everythingMatch
  cases hl : ex.lines with
  | nil =>
    simp only [blockLoop, pure_apply, del_cons_self hs hk, List.isEmpty_nil, if_true, Found]
    exact .inl rfl
  | cons g gs =>
    rcases g with ⟨cs⟩
    have hcs : ∀ c ∈ cs, c.isBytes := hg (.mk cs) (by simp [hl])
    simp only [blockLoop, GLine.containers]
    rw [bind_apply, tried_run _ 0 cur rfl]
    simp only [Bool.false_eq_true, if_false]
    rw [bind_apply, record_run hs hk]
    simp only [if_true, reverseLine]
    rw [bind_apply]
    obtain ⟨st', h1, h2, h3⟩ := run_reverseLoop (m := m)
      (s := (ex.name, ⟨ex, [(0, cur)]⟩) :: s) cs hcs 0 (cur.length + 1) ⟨[], prev, cur⟩
      (by simp)
    simp only [List.nil_append] at h2 h3
    rw [h1]
    simp only
    by_cases hemp : (textUntil (fun x => (byteSeq cs x).isSome) cur).1 = []
    · have : st'.list = [] := by rw [h2, hemp]; rfl
      simp only [hemp, if_true, this, List.isEmpty_nil, Found]
      left
      exact congrArg (Prod.mk Out.err) (del_cons_self hs hk _)
    · have hne : st'.list.isEmpty = false := by
        rw [h2]
        cases hx : (textUntil (fun x => (byteSeq cs x).isSome) cur).1 with
        | nil => exact absurd hx hemp
        | cons a b => rfl
      simp only [hemp, if_false, hne, Bool.false_eq_true, pure_apply, del_cons_self hs hk,
        List.nil_append, List.isEmpty_cons, Found]
      refine ⟨_, rfl, ?_, ?_, ?_⟩
      · simp [Tree.isSuccessful, Tree.block, mkBlock, Block.successful, TLine.isSuccessful,
          TElement.isSuccessful]
      · have : (TLine.mk 0 (.mk cs) true [.mk none st'.list]).isSuccessful = true := by
          simp [TLine.isSuccessful, TElement.isSuccessful]
        simp only [Tree.shape, mkBlock, List.find?_cons, this]
        simp only [Block.shape, TLine.shape, elementsShape, TElement.shape,
          Option.map_none, Option.getD_none, h2, byteContents_shape]
      · simp only [Tree.remaining, h3]

/-! ### Blocks and tokens -/

theorem mem_pegLines {path : List String} {g : GLine} {gs : List GLine} (h : PegLines path gs)
    (hg : g ∈ gs) : PegLine path g := by
  induction gs with
  | nil => simp at hg
  | cons a gs ih =>
    unfold PegLines at h
    rcases List.mem_cons.mp hg with rfl | hg
    · exact h.1
    · exact ih h.2 hg

theorem mem_pegConts {path : List String} {c : Container} {cs : List Container}
    (h : PegConts path cs) (hc : c ∈ cs) : PegCont path c := by
  induction cs with
  | nil => simp at hc
  | cons a cs ih =>
    unfold PegConts at h
    rcases List.mem_cons.mp hc with rfl | hc
    · exact h.1
    · exact ih h.2 hc

/-- Hypothesis about the recursive call. -/
def PegRec (n K : Nat) (ctx : Ctx) (sk : Bytes → Bytes) : Prop :=
  ∀ t path, PegTok path t → tokenD t ≤ K → ∀ prev cur s, KeysIn path s →
    Found (token n t ctx prev cur s) s (pegToken sk t cur)

section
variable {n K : Nat} {ctx : Ctx} {sk : Bytes → Bytes} {path : List String}

theorem run_content (hrec : PegRec n K ctx sk) (hsk : SkipIs (token n) ctx.channels sk)
    (hrev : ctx.reverse = false) {c : Content} (hc : PegContent path c) (hD : contentD c ≤ K)
    (hKn : K ≤ n) {s : Stk} (hs : KeysIn path s) :
    ElemRun (token n) c ctx (pegContent sk c) s := by
  cases c with
  | value name b =>
    have : pegContent sk (.value name b) = byteMatch sk b := by funext d; simp [pegContent]
    rw [this]
    exact run_value hsk name b s
  | token t =>
    have : pegContent sk (.token t) = pegToken sk t := by funext d; simp [pegContent]
    rw [this]
    exact run_tree (t := t) (ctx' := ctx) (fun _ _ => rfl)
      (fun prev cur => hrec t path hc hD prev cur s hs)
  | everything name ex esc =>
    unfold PegContent at hc
    obtain ⟨rfl, hk, hg⟩ := hc
    have : pegContent sk (.everything name ex none) = everythingMatch ex := by
      funext d; simp [pegContent]
    rw [this]
    have h1 : 1 ≤ contentD (.everything name ex none) := tokenD_pos ex
    obtain ⟨m, rfl⟩ : ∃ m, n = m + 1 := ⟨n - 1, by omega⟩
    refine run_tree (t := ex) (ctx' := ⟨none, [], true⟩) ?_
      (fun prev cur => run_everything hs hk hg prev cur)
    intro prev cur
    simp [elementContent, hrev]
  | external name g => exact absurd hc (by simp [PegContent])
  | recursive name => exact absurd hc (by simp [PegContent])

/-- `block` in terms of the reference interpreter. -/
def BlockRun (tok : Token) (o : Out (List TLine × Bytes) × Stk) (s : Stk) (acc : List TLine)
    (cur : Bytes) (r : Option (Nat × List ShapeElem × Bytes)) : Prop :=
  match r with
  | some x => ∃ ls l lines, o = (.ok (acc ++ ls ++ [l], x.2.2), (tok.name, ⟨tok, lines⟩) :: s) ∧
      l.isSuccessful = true ∧ (∀ l ∈ ls, l.isSuccessful = false) ∧
      TLine.shape tok.name l = .node tok.name x.1 x.2.1
  | none => ∃ ls lines, o = (.ok (acc ++ ls, cur), (tok.name, ⟨tok, lines⟩) :: s) ∧
      (∀ l ∈ ls, l.isSuccessful = false)

theorem run_blockLoop (hrec : PegRec n K ctx sk) (hsk : SkipIs (token n) ctx.channels sk)
    (hrev : ctx.reverse = false) (hKn : K ≤ n) {s : Stk} (hs : KeysIn path s) {tok : Token}
    (hk : tok.name ∉ path) (prev cur : Bytes) (gs : List GLine) (idx : Nat)
    (hgs : ∀ g ∈ gs, PegLine (tok.name :: path) g) (hD : ∀ g ∈ gs, lineD g ≤ K)
    (acc : List TLine) (lines : List (Nat × Bytes)) (hlines : ∀ p ∈ lines, p.1 < idx) :
    BlockRun tok (blockLoop (token n) tok ctx prev cur idx gs acc ((tok.name, ⟨tok, lines⟩) :: s))
      s acc cur (pegLines sk idx gs cur) := by
  induction gs generalizing idx acc lines with
  | nil =>
    simp only [pegLines, BlockRun, blockLoop, pure_apply]
    exact ⟨[], lines, by simp, by simp⟩
  | cons g gs ih =>
    rcases g with ⟨cs⟩
    have hg := hgs (.mk cs) (by simp)
    unfold PegLine at hg
    have hd := hD (.mk cs) (by simp)
    simp only [lineD] at hd
    have hlook : lines.lookup idx = none := by
      rw [List.lookup_eq_none_iff]
      intro p hp
      have := hlines p hp
      simp only [beq_eq_false_iff_ne, ne_eq, bne_iff_ne]
      omega
    have hlines' : ∀ p ∈ (idx, cur) :: lines, p.1 < idx + 1 := by
      intro p hp
      rcases List.mem_cons.mp hp with rfl | hp
      · simp
      · have := hlines p hp; omega
    have ih' := fun acc => ih (idx + 1) (fun g h => hgs g (by simp [h]))
      (fun g h => hD g (by simp [h])) acc ((idx, cur) :: lines) hlines'
    unfold blockLoop
    rw [bind_apply, tried_run _ idx cur hlook]
    simp only [Bool.false_eq_true, if_false]
    rw [bind_apply, record_run hs hk]
    simp only [hrev, Bool.false_eq_true, if_false]
    rw [bind_apply]
    unfold M.attempt
    have hline := run_line (sk := sk) (f := pegContent sk)
      (s := (tok.name, ⟨tok, (idx, cur) :: lines⟩) :: s) hsk prev cur cs
      (fun min max c h => by
        have := mem_pegConts hg.2 h
        unfold PegCont at this
        exact this.1)
      (fun min max c h => by
        have h1 := mem_pegConts hg.2 h
        have h2 := containersD_mem h
        unfold PegCont at h1
        unfold containerD at h2
        exact run_content hrec hsk hrev h1.2 (by omega) hKn (keysIn_cons hs _ _)) idx
    unfold pegLines pegLine
    rw [pegSeq_eq]
    cases hseq : seqWith (pegContent sk) cs cur with
    | none =>
      rw [hseq] at hline
      simp only at hline
      rw [hline]
      simp only [lineNext, Option.bind_none, Option.map_none, Option.orElse_none]
      exact ih' acc
    | some y =>
      rw [hseq] at hline
      obtain ⟨es, h1, h2, h3⟩ := hline
      rw [h1]
      simp only [lineNext, Option.bind_some]
      have hsucc := h3.successful hg.1 idx
      cases es with
      | nil =>
        simp only [List.isEmpty_nil, Bool.not_true] at hsucc
        have : y.1.isEmpty = true := by rw [← h2]; rfl
        simp only [hsucc, Bool.false_eq_true, if_false, this, if_true, Option.map_none,
          Option.orElse_none]
        have := ih' (acc ++ [.mk idx (.mk cs) false []])
        unfold BlockRun at this ⊢
        cases hp : pegLines sk (idx + 1) gs cur with
        | none =>
          rw [hp] at this
          obtain ⟨ls, lines', e1, e2⟩ := this
          refine ⟨.mk idx (.mk cs) false [] :: ls, lines', by rw [e1]; simp, ?_⟩
          intro l hl
          rcases List.mem_cons.mp hl with rfl | hl
          · exact hsucc
          · exact e2 l hl
        | some x =>
          rw [hp] at this
          obtain ⟨ls, l, lines', e1, e2, e3, e4⟩ := this
          refine ⟨.mk idx (.mk cs) false [] :: ls, l, lines', by rw [e1]; simp, e2, ?_, e4⟩
          intro l hl
          rcases List.mem_cons.mp hl with rfl | hl
          · exact hsucc
          · exact e3 l hl
      | cons e es =>
        simp only [List.isEmpty_cons, Bool.not_false] at hsucc
        have : y.1.isEmpty = false := by rw [← h2]; rfl
        simp only [hsucc, if_true, this, Bool.false_eq_true, if_false, Option.map_some,
          Option.orElse_some, BlockRun]
        exact ⟨[], .mk idx (.mk cs) false (e :: es), (idx, cur) :: lines, by simp, hsucc, by simp,
          by simp [TLine.shape, h2]⟩

theorem pegRec_succ (hrec : PegRec n K ctx sk) (hsk : SkipIs (token n) ctx.channels sk)
    (hrev : ctx.reverse = false) (hKn : K ≤ n) : PegRec (n + 1) (K + 1) ctx sk := by
  intro t path ht hD prev cur s hs
  rcases t with ⟨name, ls, suites⟩
  unfold PegTok at ht
  unfold tokenD at hD
  have hblk := run_blockLoop hrec hsk hrev hKn hs (tok := .mk name ls suites) ht.1 prev cur ls 0
    (fun g hg => mem_pegLines ht.2 hg) (fun g hg => by have := linesD_mem hg; omega) [] []
    (by simp)
  have hk : (Token.mk name ls suites).name ∉ path := ht.1
  unfold token tokenBody
  rw [bind_apply, enter_run hs hk]
  simp only
  rw [bind_apply]
  unfold M.thenDelete pegToken
  simp only [Token.lines] at *
  have hfind : ∀ (a : List TLine), (∀ l ∈ a, l.isSuccessful = false) →
      a.find? TLine.isSuccessful = none := by
    intro a ha
    rw [List.find?_eq_none]
    intro l hl
    simp [ha l hl]
  unfold BlockRun at hblk
  cases hp : pegLines sk 0 ls cur with
  | none =>
    rw [hp] at hblk
    obtain ⟨l, lines, h1, h2⟩ := hblk
    rw [h1]
    simp only [List.nil_append, del_cons_self hs hk, Option.map_none, Found]
    cases l with
    | nil => exact .inl rfl
    | cons a l =>
      right
      simp only [List.isEmpty_cons, Bool.false_eq_true, if_false]
      rw [bind_apply]
      obtain ⟨ts, hts⟩ := hsk prev cur s
      rw [hts]
      refine ⟨_, rfl, ?_⟩
      simp only [Tree.isSuccessful, Tree.block, mkBlock, Block.successful, hfind _ h2,
        Option.isSome_none]
  | some x =>
    rw [hp] at hblk
    obtain ⟨l, ln, lines, h1, h2, h3, h4⟩ := hblk
    rw [h1]
    simp only [List.nil_append, del_cons_self hs hk, Option.map_some, Found]
    have hne : (l ++ [ln]).isEmpty = false := by cases l <;> rfl
    simp only [hne, Bool.false_eq_true, if_false]
    rw [bind_apply]
    obtain ⟨ts, hts⟩ := hsk prev x.2.2 s
    rw [hts]
    have hf : (l ++ [ln]).find? TLine.isSuccessful = some ln := by
      rw [List.find?_append, hfind _ h3]
      simp [h2]
    refine ⟨_, rfl, ?_, ?_, rfl⟩
    · simp [Tree.isSuccessful, Tree.block, mkBlock, Block.successful, hf]
    · simp only [Tree.shape, mkBlock, hf, Block.shape]
      exact h4

end

/-- The parser computes the reference interpretation, at every nesting depth that suffices for the
token and its channels. -/
theorem peg_token {ctx : Ctx} {sk : Bytes → Bytes} {N : Nat} (hrev : ctx.reverse = false)
    (hsk : ∀ m, N ≤ m → SkipIs (token m) ctx.channels sk) (K : Nat) :
    ∀ n, N + K ≤ n → PegRec n K ctx sk := by
  induction K with
  | zero =>
    intro n _ t path _ hD
    have := tokenD_pos t
    omega
  | succ K ih =>
    intro n hn
    obtain ⟨m, rfl⟩ : ∃ m, n = m + 1 := ⟨n - 1, by omega⟩
    exact pegRec_succ (ih m (by omega)) (hsk m (by omega)) hrev (by omega)

/-- Outcome of parsing predicted by the reference interpreter. -/
def Agrees (g : Grammar) (input : Bytes) (r : Option (Shape × Bytes)) : Prop :=
  match r with
  | some x => ∃ t, Parses g input (.ok t) ∧ t.isSuccessful = true ∧ t.shape = x.1 ∧
      t.remaining = x.2
  | none => Parses g input .err ∨ ∃ t, Parses g input (.ok t) ∧ t.isSuccessful = false

theorem peg_execute {g : Grammar} {sk : Bytes → Bytes} {N : Nat}
    (hsk : ∀ m, N ≤ m → SkipIs (token m) g.channels sk) (hg : PegTok [] g.root) (input : Bytes) :
    Agrees g input (pegToken sk g.root input) := by
  have h := peg_token (ctx := ⟨none, g.channels, false⟩) rfl hsk (tokenD g.root) _ (Nat.le_refl _)
    g.root [] hg (Nat.le_refl _) [] input [] (keysIn_nil [])
  unfold Found at h
  unfold Agrees
  cases hp : pegToken sk g.root input with
  | none =>
    rw [hp] at h
    rcases h with h | ⟨t, h, hs⟩
    · exact .inl ⟨trivial, _, by unfold execute; rw [h]⟩
    · exact .inr ⟨t, ⟨trivial, _, by unfold execute; rw [h]⟩, hs⟩
  | some x =>
    rw [hp] at h
    obtain ⟨t, h, hs, h2, h3⟩ := h
    exact ⟨t, ⟨trivial, _, by unfold execute; rw [h]⟩, hs, h2, h3⟩

end Rodkina.Ast
