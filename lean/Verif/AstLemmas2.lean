import Verif.AstLemmas

/-!
# Bytes accounting of the parser

`token_good`: for every grammar, what a returned tree covers is bounded by the input, the reported
remaining bytes are a suffix of it, and progress is made; without external grammars and escape
tokens the accounting is exact; without escape tokens there is no panic.
-/

namespace Rodkina.Ast

open M

/-- What a grammar may contain: escape tokens, external grammars. -/
structure Flags where
  esc : Prop
  ext : Prop

/-- Neither escape tokens nor external grammars. -/
def Flags.exact (F : Flags) : Prop := ¬ F.esc ∧ ¬ F.ext

/-- One container respects the flags. -/
def containerAllowed (F : Flags) : Container → Prop
  | .element _ _ (.external _ _) => F.ext
  | .element _ _ (.everything _ _ (some _)) => F.esc
  | _ => True

/-- Every container of the line respects the flags. -/
def lineAllowed (F : Flags) (g : GLine) : Prop := ∀ c ∈ g.containers, containerAllowed F c

/-- Every line of the token, at any depth, respects the flags. -/
def TokOK (F : Flags) (t : Token) : Prop := t.All (lineAllowed F)

/-- The parameters respect the flags. -/
structure CtxOK (F : Flags) (ctx : Ctx) : Prop where
  esc : ∀ t, ctx.escape = some t → F.esc ∧ TokOK F t
  chs : ∀ c ∈ ctx.channels, c.All (lineAllowed F)

theorem ctxOK_plain (F : Flags) : CtxOK F Ctx.plain := ⟨by simp [Ctx.plain], by simp [Ctx.plain]⟩

/-- Bytes, remaining bytes and input: a bound in general, equality when exact. -/
def Acc (F : Flags) (bs rem cur : Bytes) : Prop :=
  rem <:+ cur ∧ bs.length + rem.length ≤ cur.length ∧ (F.exact → bs ++ rem = cur)

theorem Acc.refl (F : Flags) (cur : Bytes) : Acc F [] cur cur :=
  ⟨List.suffix_refl _, by simp, by simp⟩

theorem Acc.trans {F : Flags} {a b r1 r2 cur : Bytes} (h1 : Acc F a r1 cur) (h2 : Acc F b r2 r1) :
    Acc F (a ++ b) r2 cur := by
  refine ⟨h2.1.trans h1.1, ?_, ?_⟩
  · have := h1.2.1; have := h2.2.1; simp; omega
  · intro he
    rw [List.append_assoc, h2.2.2 he, h1.2.2 he]

/-- What is guaranteed of a returned tree. -/
def GoodTree (F : Flags) (cur : Bytes) (t : Tree) : Prop :=
  t.remaining <:+ cur ∧
  (t.isSuccessful = true →
    Acc F (t.bytes true) t.remaining cur ∧ t.remaining.length < cur.length)

/-- What is guaranteed of a content and the bytes left. -/
def GoodContent (F : Flags) (cur : Bytes) (x : TContent × Bytes) : Prop :=
  x.2 <:+ cur ∧
  (x.1.isSuccessful = true → Acc F (x.1.bytes true) x.2 cur ∧ x.2.length < cur.length)

/-- The hypothesis on the recursive call. -/
def GoodRec (F : Flags) (rec : Rec) : Prop :=
  ∀ t ctx prev cur, TokOK F t → CtxOK F ctx →
    Ens (StkAll (TokOK F)) F.esc (rec t ctx prev cur) (GoodTree F cur)

variable {F : Flags} {rec : Rec}

/-- The parser's invariant on the map. -/
abbrev SI (F : Flags) : Stk → Prop := StkAll (TokOK F)

theorem ens_condMatch (hr : GoodRec F rec) {o : Option Token} (ho : optAll (lineAllowed F) o)
    (data : Bytes) : Ens (SI F) F.esc (condMatch rec o data) (fun _ => True) := by
  unfold condMatch
  cases o with
  | none => exact Ens.pure trivial
  | some t =>
    refine Ens.bind (Ens.fresh (stkAll_nil _) (hr t Ctx.plain [] data (ho t rfl) (ctxOK_plain F))) ?_
    intro _ _
    exact Ens.pure trivial

theorem ens_channel (hr : GoodRec F rec) {c : Channel} (hc : c.All (lineAllowed F))
    (prev cur : Bytes) :
    Ens (SI F) F.esc (channel rec c prev cur) (fun r => ∀ t, r = some t → GoodTree F cur t) := by
  rw [Channel.All_iff] at hc
  unfold channel
  refine Ens.bind (Ens.fresh (stkAll_nil _) (hr _ Ctx.plain prev cur hc.1 (ctxOK_plain F))) ?_
  intro t ht
  refine Ens.bind (V := fun _ => True) ?_ ?_
  · unfold channelCondition
    refine Ens.bind (ens_condMatch hr hc.2.1 _) ?_
    intro _ _
    refine Ens.bind (ens_condMatch hr hc.2.2 _) ?_
    intro _ _
    exact Ens.pure trivial
  · intro b _
    apply Ens.pure
    intro t' h
    cases b
    · simp at h
    · simp at h; exact h ▸ ht

/-- The accounting of a channel state. -/
def ChOK (F : Flags) (cur : Bytes) (st : ChState) : Prop :=
  Acc F (treesBytes true st.list) st.rem cur ∧
  (st.list ≠ [] → st.rem.length < cur.length)

/-- A later channel state: more trees, and a byte less per tree. -/
def ChStep (F : Flags) (cur : Bytes) (st st' : ChState) : Prop :=
  ChOK F cur st' ∧
  (st'.list.length + st'.rem.length ≤ st.list.length + st.rem.length) ∧
  st.list.length ≤ st'.list.length

theorem ens_sliceFrom {I : Stk → Prop} {pan : Prop} {l : Bytes} {k : Nat} (h : k ≤ l.length) :
    Ens I pan (sliceFrom l k) (fun r => r = l.drop k) := by
  unfold sliceFrom
  rw [if_pos h]
  exact Ens.pure rfl

theorem ens_channelApply {cur : Bytes} {st : ChState} (hst : ChOK F cur st)
    {r : Option (Option Tree)} (h : ∀ a, r = some a → ∀ t, a = some t → GoodTree F st.rem t) :
    Ens (SI F) F.esc (channelApply st r) (ChStep F cur st) := by
  unfold channelApply
  have hself : ChStep F cur st st := ⟨hst, Nat.le_refl _, Nat.le_refl _⟩
  rcases r with _ | _ | t
  · exact Ens.pure hself
  · exact Ens.pure hself
  · have hg := h _ rfl t rfl
    cases hs : t.isSuccessful with
    | false =>
      simp only [Tree.bytes_of_not_successful hs, List.length_nil]
      refine Ens.bind (ens_sliceFrom (Nat.zero_le _)) ?_
      intro a ha
      subst ha
      simp only [List.drop_zero, if_true]
      exact Ens.pure hself
    | true =>
      obtain ⟨hacc, _⟩ := hg.2 hs
      have hle : (t.bytes true).length ≤ st.rem.length := by
        have := hacc.2.1; omega
      refine Ens.bind (ens_sliceFrom hle) ?_
      intro a ha
      subst ha
      refine Ens.ite (fun _ => Ens.pure hself) ?_
      intro hne
      apply Ens.pure
      have hpos : 0 < (t.bytes true).length := by
        rcases Nat.eq_zero_or_pos (t.bytes true).length with h0 | h0
        · exfalso; apply hne; simp [h0]
        · exact h0
      have hacc' : Acc F (t.bytes true) (st.rem.drop (t.bytes true).length) st.rem := by
        refine ⟨List.drop_suffix _ _, ?_, ?_⟩
        · simp; omega
        · intro he
          have := hacc.2.2 he
          conv_rhs => rw [← this]
          conv_lhs => rw [← this]
          simp
      refine ⟨⟨?_, ?_⟩, ?_, ?_⟩
      · simp only [treesBytes_append, treesBytes, List.append_nil]
        exact hst.1.trans hacc'
      · intro _
        have := hst.1.2.1
        simp
        omega
      · simp; omega
      · simp

theorem ens_channelRound (hr : GoodRec F rec) {cur : Bytes} (chs : List Channel)
    (hc : ∀ c ∈ chs, c.All (lineAllowed F)) (st : ChState) (hst : ChOK F cur st) :
    Ens (SI F) F.esc (channelRound rec chs st) (ChStep F cur st) := by
  induction chs generalizing st with
  | nil =>
    unfold channelRound
    exact Ens.pure ⟨hst, Nat.le_refl _, Nat.le_refl _⟩
  | cons c cs ih =>
    unfold channelRound
    refine Ens.bind (Ens.attempt (ens_channel hr (hc c (by simp)) _ _)) ?_
    intro r hr'
    refine Ens.bind (ens_channelApply hst hr') ?_
    intro st' hst'
    refine Ens.weaken (ih (fun c hc' => hc c (by simp [hc'])) st' hst'.1) ?_
    intro st'' h''
    exact ⟨h''.1, Nat.le_trans h''.2.1 hst'.2.1, Nat.le_trans hst'.2.2 h''.2.2⟩

theorem ens_channelLoop (hr : GoodRec F rec) {cur : Bytes} (chs : List Channel)
    (hc : ∀ c ∈ chs, c.All (lineAllowed F)) (k : Nat) (st : ChState) (hst : ChOK F cur st) :
    Ens (SI F) F.esc (channelLoop rec chs k st) (ChStep F cur st) := by
  induction k generalizing st with
  | zero => exact Ens.oof
  | succ k ih =>
    unfold channelLoop
    refine Ens.bind (ens_channelRound hr chs hc st hst) ?_
    intro st' hst'
    refine Ens.ite (fun _ => Ens.pure hst') ?_
    intro _
    refine Ens.weaken (ih st' hst'.1) ?_
    intro st'' h''
    exact ⟨h''.1, Nat.le_trans h''.2.1 hst'.2.1, Nat.le_trans hst'.2.2 h''.2.2⟩

theorem ens_skipChannels (hr : GoodRec F rec) {chs : List Channel}
    (hc : ∀ c ∈ chs, c.All (lineAllowed F)) (prev cur : Bytes) :
    Ens (SI F) F.esc (skipChannels rec chs prev cur)
      (fun r => Acc F (treesBytes true r.1) r.2 cur) := by
  unfold skipChannels
  refine Ens.ite (fun _ => Ens.pure (Acc.refl F cur)) (fun _ => ?_)
  refine Ens.bind (Ens.attempt (V := fun r => Acc F (treesBytes true r.1) r.2 cur) ?_) ?_
  · unfold channels
    refine Ens.bind (ens_channelLoop hr chs hc _ _ (cur := cur) ?_) ?_
    · exact ⟨Acc.refl F cur, by simp⟩
    · intro st hst
      refine Ens.ite (fun _ => Ens.fail) (fun _ => Ens.pure hst.1.1)
  · intro r hr'
    apply Ens.pure
    cases r with
    | none => exact Acc.refl F cur
    | some x => exact hr' x rfl

theorem ens_elementValue (hr : GoodRec F rec) {ctx : Ctx} (hctx : CtxOK F ctx) (number : UInt8)
    (prev cur : Bytes) :
    Ens (SI F) F.esc (elementValue rec number ctx prev cur)
      (fun r => ∀ x, r = some x → GoodContent F cur x) := by
  unfold elementValue
  refine Ens.bind (ens_skipChannels hr hctx.chs prev cur) ?_
  rintro ⟨pre, rem⟩ hacc
  unfold matchByte
  cases rem with
  | nil => exact Ens.fail
  | cons b rest =>
    refine Ens.ite (fun _ => Ens.pure ?_) (fun _ => Ens.pure (by simp))
    intro x hx
    simp at hx
    subst hx
    simp only at hacc
    refine ⟨(List.suffix_cons b rest).trans hacc.1, fun _ => ⟨?_, ?_⟩⟩
    · have h2 : Acc F [b] rest (b :: rest) := ⟨List.suffix_cons _ _, by simp; omega, by simp⟩
      have := hacc.trans h2
      simpa [TContent.bytes] using this
    · have := hacc.2.1
      simp at this ⊢
      omega

theorem goodContent_tree {cur : Bytes} {t : Tree} (h : GoodTree F cur t) :
    ∀ x, treeContent t = some x → GoodContent F cur x := by
  intro x hx
  simp only [treeContent, Option.some.injEq] at hx
  subst hx
  refine ⟨h.1, ?_⟩
  intro hs
  have := h.2 hs
  simpa [TContent.bytes] using this

theorem ens_elementContent (hr : GoodRec F rec) {ctx : Ctx} (hctx : CtxOK F ctx) {c : Content}
    (hc : c.All (lineAllowed F)) {min : Nat} {max : Option Nat}
    (ha : containerAllowed F (.element min max c)) (prev cur : Bytes) (hne : cur ≠ []) :
    Ens (SI F) F.esc (elementContent rec c ctx prev cur)
      (fun r => ∀ x, r = some x → GoodContent F cur x) := by
  cases c with
  | value n number =>
    unfold elementContent
    exact Ens.ite (fun _ => Ens.fail) (fun _ => ens_elementValue hr hctx number prev cur)
  | external name g =>
    simp only [Content.All, Grammar.All_iff] at hc
    unfold elementContent external
    have hext : F.ext := ha
    refine Ens.bind (V := fun t => GoodTree F cur t) ?_ ?_
    · refine Ens.bind (Ens.fresh (stkAll_nil _) (hr _ _ prev cur hc.1 ⟨by simp, hc.2⟩)) ?_
      intro t ht
      apply Ens.pure
      refine ⟨List.nil_suffix, ?_⟩
      intro hs
      have hs' : t.isSuccessful = true := hs
      obtain ⟨hacc, hlt⟩ := ht.2 hs'
      refine ⟨⟨List.nil_suffix, ?_, ?_⟩, ?_⟩
      · rcases t with ⟨tg, ⟨ls, _ | l⟩, suf, r⟩
        · simp [Tree.isSuccessful, Tree.block, Block.successful] at hs'
        · have := hacc.2.1
          simp only [Tree.block, Tree.bytes_true, treesBytes, List.length_append, Tree.remaining,
            List.length_nil] at this ⊢
          omega
      · intro he; exact absurd hext he.2
      · simp only [Tree.remaining, List.length_nil]
        exact List.length_pos_iff.mpr hne
    · intro t ht
      exact Ens.pure (goodContent_tree ht)
  | token t =>
    unfold elementContent
    simp only [Content.All] at hc
    refine Ens.bind (hr t ctx prev cur hc hctx) ?_
    intro t ht
    exact Ens.pure (goodContent_tree ht)
  | everything n ex esc =>
    unfold elementContent
    rw [Content.All_everything] at hc
    refine Ens.bind (hr ex _ prev cur hc.1 ⟨?_, by simp⟩) ?_
    · intro t ht
      simp only at ht
      subst ht
      exact ⟨ha, hc.2 t rfl⟩
    · intro t ht
      exact Ens.pure (goodContent_tree ht)
  | recursive n =>
    unfold elementContent
    refine Ens.bind ens_recursiveToken ?_
    intro tok htok
    refine Ens.bind (hr tok ctx prev cur htok hctx) ?_
    intro t ht
    exact Ens.pure (goodContent_tree ht)

/-- The result of `element`: a successful content. -/
def ElemOK (F : Flags) (cur : Bytes) (x : TContent × Bytes) : Prop :=
  x.1.isSuccessful = true ∧ Acc F (x.1.bytes true) x.2 cur ∧ x.2.length < cur.length

theorem ens_element (hr : GoodRec F rec) {ctx : Ctx} (hctx : CtxOK F ctx) {c : Content}
    (hc : c.All (lineAllowed F)) {min : Nat} {max : Option Nat}
    (ha : containerAllowed F (.element min max c)) (prev cur : Bytes) :
    Ens (SI F) F.esc (element rec c ctx prev cur) (ElemOK F cur) := by
  unfold element
  refine Ens.ite (fun _ => Ens.fail) (fun hne => ?_)
  have hne' : cur ≠ [] := by simpa using hne
  refine Ens.bind (ens_elementContent hr hctx hc ha prev cur hne') ?_
  intro r hr'
  unfold acceptContent
  cases r with
  | none => exact Ens.fail
  | some x =>
    refine Ens.ite (fun hs => Ens.pure ?_) (fun _ => Ens.fail)
    have := (hr' x rfl).2 hs
    exact ⟨hs, this.1, this.2⟩

/-- The accounting of the element loop. -/
def ElOK (F : Flags) (cur : Bytes) (st : ElState) : Prop :=
  Acc F (contentsBytes true st.list) st.rem cur ∧
  (st.list ≠ [] → st.rem.length < cur.length)

theorem ens_elementLoop (hr : GoodRec F rec) {ctx : Ctx} (hctx : CtxOK F ctx) {c : Content}
    (hc : c.All (lineAllowed F)) {min : Nat} {max : Option Nat}
    (ha : containerAllowed F (.element min max c)) {cur : Bytes} (k : Nat) (st : ElState)
    (hst : ElOK F cur st) :
    Ens (SI F) F.esc (elementLoop rec c max ctx k st) (ElOK F cur) := by
  induction k generalizing st with
  | zero => exact Ens.oof
  | succ k ih =>
    unfold elementLoop
    refine Ens.ite (fun _ => Ens.pure hst) (fun _ => ?_)
    refine Ens.ite (fun _ => Ens.pure hst) (fun _ => ?_)
    refine Ens.bind (Ens.attempt (ens_element hr hctx hc ha st.prev st.rem)) ?_
    intro r hr'
    unfold elementNext
    cases r with
    | none => exact Ens.pure hst
    | some x =>
      obtain ⟨_, hacc, hlt⟩ := hr' x rfl
      refine ih _ ⟨?_, ?_⟩
      · simp only [contentsBytes_append, contentsBytes, List.append_nil]
        exact hst.1.trans hacc
      · intro _
        have := hst.1.1.length_le
        simp only
        omega

/-- The accounting of a line. -/
def LnOK (F : Flags) (cur : Bytes) (list : List TElement) (rem : Bytes) : Prop :=
  Acc F (elementsBytes true list) rem cur ∧ (list ≠ [] → rem.length < cur.length)

theorem ens_composeLoop (hr : GoodRec F rec) {ctx : Ctx} (hctx : CtxOK F ctx) (prev : Bytes)
    (es : List (UInt8 × Nat)) (rem : Bytes) :
    Ens (SI F) F.esc (composeLoop rec ctx prev es rem) (fun _ => True) := by
  induction es generalizing rem with
  | nil => exact Ens.pure trivial
  | cons e es ih =>
    unfold composeLoop
    refine Ens.bind (ens_elementValue hr hctx e.1 prev rem) ?_
    intro r _
    unfold composeNext
    cases r with
    | none => exact Ens.fail
    | some x => exact ih x.2

theorem ens_lineLoop (hr : GoodRec F rec) {ctx : Ctx} (hctx : CtxOK F ctx) (prev0 : Bytes)
    {cur : Bytes} (cs : List Container)
    (hcs : ∀ c ∈ cs, c.All (lineAllowed F) ∧ containerAllowed F c) (st : LnState)
    (hst : LnOK F cur st.list st.rem) :
    Ens (SI F) F.esc (lineLoop rec ctx prev0 cs st) (fun st' => LnOK F cur st'.list st'.rem) := by
  induction cs generalizing st with
  | nil => exact Ens.pure hst
  | cons c cs ih =>
    unfold lineLoop
    refine Ens.bind (V := fun st' => LnOK F cur st'.list st'.rem) ?_ ?_
    · have hc := hcs c (by simp)
      cases c with
      | compose cmp =>
        unfold lineStep
        refine Ens.bind (ens_composeLoop hr hctx prev0 cmp.list st.rem) ?_
        intro _ _
        exact Ens.fail
      | element min max content =>
        unfold lineStep
        refine Ens.bind (ens_elementLoop hr hctx hc.1 hc.2 (cur := st.rem) _ _
          ⟨Acc.refl F _, by simp⟩) ?_
        intro r hr'
        refine Ens.ite (fun _ => Ens.fail) (fun _ => Ens.pure ?_)
        cases hl : r.list with
        | nil =>
          have h1 := hr'.1
          simp only [hl, contentsBytes] at h1
          have h2 := hst.1.trans h1
          simp only [List.append_nil] at h2
          refine ⟨by simpa using h2, ?_⟩
          intro hne
          have := hst.2 (by simpa using hne)
          have := h1.1.length_le
          simp only
          omega
        | cons x xs =>
          have hlt := hr'.2 (by simp [hl])
          have h2 := hst.1.trans hr'.1
          refine ⟨?_, ?_⟩
          · simpa [elementsBytes_append, elementsBytes, TElement.bytes, hl] using h2
          · intro _
            have := hst.1.1.length_le
            simp only
            omega
    · intro st' hst'
      exact ih (fun c hc => hcs c (by simp [hc])) st' hst'

theorem ens_line (hr : GoodRec F rec) {ctx : Ctx} (hctx : CtxOK F ctx) (idx : Nat) {g : GLine}
    (hg : ∀ c ∈ g.containers, c.All (lineAllowed F) ∧ containerAllowed F c) (prev cur : Bytes) :
    Ens (SI F) F.esc (line rec idx g ctx prev cur)
      (fun r => LnOK F cur r.1.elements r.2 ∧ r.1.isReverse = false ∧ r.1.index = idx
        ∧ r.1.grammar = g) := by
  unfold line
  refine Ens.bind (ens_lineLoop hr hctx prev (cur := cur) _ hg _ ⟨Acc.refl F _, by simp⟩) ?_
  intro st hst
  exact Ens.pure ⟨hst, rfl, rfl, rfl⟩

/-- The accounting of the reverse loop: contents are plain bytes. -/
def RvOK (F : Flags) (cur : Bytes) (st : RvState) : Prop :=
  Acc F (contentsBytes true st.list) st.rem cur

theorem ens_escapeStep (hr : GoodRec F rec) {ctx : Ctx} (hctx : CtxOK F ctx) (idx : Nat) {g : GLine}
    (hg : ∀ c ∈ g.containers, c.All (lineAllowed F) ∧ containerAllowed F c) {cur : Bytes}
    (st : RvState) (hst : RvOK F cur st) (hne : st.rem ≠ []) :
    Ens (SI F) F.esc (escapeStep rec idx g ctx st)
      (fun st' => RvOK F cur st' ∧ st'.rem.length ≤ st.rem.length ∧ (¬ F.esc → st'.rem ≠ [])) := by
  have hself : RvOK F cur st ∧ st.rem.length ≤ st.rem.length ∧ (¬ F.esc → st.rem ≠ []) :=
    ⟨hst, Nat.le_refl _, fun _ => hne⟩
  unfold escapeStep
  cases he : ctx.escape with
  | none => exact Ens.pure hself
  | some esc =>
    obtain ⟨hesc, htok⟩ := hctx.esc esc he
    refine Ens.bind (Ens.attempt (hr esc _ st.prev st.rem htok ⟨by simp, hctx.chs⟩)) ?_
    intro r hr'
    unfold escapeLine
    cases r with
    | none => exact Ens.pure hself
    | some t =>
      have ht := hr' t rfl
      refine Ens.ite (fun _ => ?_) (fun _ => Ens.pure hself)
      refine Ens.bind (Ens.attempt (ens_line hr hctx idx hg _ _)) ?_
      intro r hr''
      unfold escapeApply
      cases r with
      | none => exact Ens.pure hself
      | some x =>
        have hx := (hr'' x rfl).1
        refine Ens.ite (fun _ => ?_) (fun _ => Ens.pure hself)
        refine Ens.ite (fun hle => Ens.pure ?_) (fun hle => absurd hx.1.1.length_le hle)
        have hsuf : t.remaining.length ≤ st.rem.length := ht.1.length_le
        refine ⟨?_, ?_, fun h => absurd hesc h⟩
        · refine ⟨(List.drop_suffix _ _).trans (ht.1.trans hst.1), ?_, fun he => absurd hesc he.1⟩
          have := hst.2.1
          simp only [contentsBytes_append, contentsBytes_byteContents, List.length_append,
            List.length_take, List.length_drop]
          omega
        · simp only [List.length_drop]
          omega

theorem ens_reverseLoop (hr : GoodRec F rec) {ctx : Ctx} (hctx : CtxOK F ctx) (idx : Nat) {g : GLine}
    (hg : ∀ c ∈ g.containers, c.All (lineAllowed F) ∧ containerAllowed F c) {cur : Bytes}
    (k : Nat) (st : RvState) (hst : RvOK F cur st) :
    Ens (SI F) F.esc (reverseLoop rec idx g ctx k st) (RvOK F cur) := by
  induction k generalizing st with
  | zero => exact Ens.oof
  | succ k ih =>
    unfold reverseLoop
    refine Ens.ite (fun _ => Ens.pure hst) (fun hne => ?_)
    have hne' : st.rem ≠ [] := by simpa using hne
    refine Ens.bind (ens_escapeStep hr hctx idx hg st hst hne') ?_
    intro st' hst'
    refine Ens.bind (Ens.attempt (ens_line hr hctx idx hg _ _)) ?_
    intro r _
    unfold reverseNext
    cases r with
    | some _ => exact Ens.pure hst'.1
    | none =>
      cases hrem : st'.rem with
      | nil =>
        simp only
        by_cases he : F.esc
        · exact Ens.crash he
        · exact absurd hrem (hst'.2.2 he)
      | cons b rest =>
        simp only
        apply ih
        have h1 : Acc F (contentsBytes true st'.list) (b :: rest) cur := hrem ▸ hst'.1
        have h2 : Acc F [b] rest (b :: rest) := ⟨List.suffix_cons _ _, by simp; omega, by simp⟩
        have h3 := h1.trans h2
        simpa [RvOK, contentsBytes_append, contentsBytes, TContent.bytes, treesBytes] using h3

/-- The accounting of a block: the lines and the bytes left. -/
def BlkOK (F : Flags) (cur : Bytes) (r : List TLine × Bytes) : Prop :=
  r.2 <:+ cur ∧ ∀ l, r.1.find? TLine.isSuccessful = some l →
    Acc F (elementsBytes true l.elements) r.2 cur ∧ r.2.length < cur.length

theorem length_contentsBytes_pos {ch : Bool} {bs : List TContent}
    (h : bs ≠ []) (hv : ∀ c ∈ bs, ∃ p b, c = .value p b) : 0 < (contentsBytes ch bs).length := by
  cases bs with
  | nil => exact absurd rfl h
  | cons c cs =>
    obtain ⟨p, b, rfl⟩ := hv c (by simp)
    simp [contentsBytes, TContent.bytes]
    omega

/-- The contents of a reverse line are bytes. -/
def AllValues (cs : List TContent) : Prop := ∀ c ∈ cs, ∃ p b, c = .value p b

theorem allValues_append {a b : List TContent} (ha : AllValues a) (hb : AllValues b) :
    AllValues (a ++ b) := by
  intro c hc
  rcases List.mem_append.mp hc with h | h
  · exact ha c h
  · exact hb c h

theorem ens_reverseLoop_values {I : Stk → Prop} (hI : ∀ t ctx prev cur, Ens I True (rec t ctx prev cur)
    (fun _ => True)) (hline : ∀ idx g ctx prev cur, Ens I True (line rec idx g ctx prev cur)
    (fun _ => True)) (idx : Nat) (g : GLine) (ctx : Ctx) (k : Nat) (st : RvState)
    (hst : AllValues st.list) :
    Ens I True (reverseLoop rec idx g ctx k st) (fun st' => AllValues st'.list) := by
  induction k generalizing st with
  | zero => exact Ens.oof
  | succ k ih =>
    unfold reverseLoop
    refine Ens.ite (fun _ => Ens.pure hst) (fun _ => ?_)
    refine Ens.bind (V := fun st' => AllValues st'.list) ?_ ?_
    · unfold escapeStep
      split
      · exact Ens.pure hst
      · refine Ens.bind (Ens.attempt (hI _ _ _ _)) ?_
        intro r _
        unfold escapeLine
        cases r with
        | none => exact Ens.pure hst
        | some t =>
          refine Ens.ite (fun _ => ?_) (fun _ => Ens.pure hst)
          refine Ens.bind (Ens.attempt (hline _ _ _ _ _)) ?_
          intro r _
          unfold escapeApply
          cases r with
          | none => exact Ens.pure hst
          | some x =>
            refine Ens.ite (fun _ => ?_) (fun _ => Ens.pure hst)
            refine Ens.ite (fun _ => Ens.pure ?_) (fun _ => Ens.crash trivial)
            apply allValues_append hst
            intro c hc
            simp only [byteContents, List.mem_map] at hc
            obtain ⟨b, _, rfl⟩ := hc
            exact ⟨_, _, rfl⟩
    · intro st' hst'
      refine Ens.bind (Ens.attempt (hline _ _ _ _ _)) ?_
      intro r _
      unfold reverseNext
      cases r with
      | some _ => exact Ens.pure hst'
      | none =>
        cases hrem : st'.rem with
        | nil => exact Ens.crash trivial
        | cons b rest =>
          simp only
          apply ih
          apply allValues_append hst'
          intro c hc
          simp at hc
          exact ⟨_, _, hc⟩

theorem ens_trivial {α : Type} (m : M α) : Ens (fun _ => True) True m (fun _ => True) := by
  intro s _
  exact ⟨trivial, fun _ _ => trivial, fun _ => trivial⟩

theorem Ens.and {α : Type} {I : Stk → Prop} {pan : Prop} {m : M α} {V W : α → Prop}
    (h1 : Ens I pan m V) (h2 : Ens (fun _ => True) True m W) :
    Ens I pan m (fun a => V a ∧ W a) := by
  intro s hs
  exact ⟨(h1 s hs).1, fun a ha => ⟨(h1 s hs).2.1 a ha, (h2 s trivial).2.1 a ha⟩, (h1 s hs).2.2⟩

theorem ens_blockLoop (hr : GoodRec F rec) {ctx : Ctx} (hctx : CtxOK F ctx) {tok : Token}
    (htok : TokOK F tok) (prev cur : Bytes) (idx : Nat) (gs : List GLine)
    (hgs : ∀ g ∈ gs, ∀ c ∈ g.containers, c.All (lineAllowed F) ∧ containerAllowed F c)
    (acc : List TLine) (hacc : ∀ l ∈ acc, l.isSuccessful = false) :
    Ens (SI F) F.esc (blockLoop rec tok ctx prev cur idx gs acc) (BlkOK F cur) := by
  induction gs generalizing idx acc with
  | nil =>
    unfold blockLoop
    refine Ens.pure ⟨List.suffix_refl _, ?_⟩
    intro l hl
    have := List.find?_some hl
    have hm := List.mem_of_find?_eq_some hl
    rw [hacc l hm] at this
    exact absurd this (by simp)
  | cons g gs ih =>
    have ih' := fun idx => ih idx (fun g hg => hgs g (by simp [hg]))
    have hg := hgs g (by simp)
    unfold blockLoop
    refine Ens.bind ens_alreadyTried ?_
    intro skip _
    refine Ens.ite (fun _ => ih' _ _ hacc) (fun _ => ?_)
    refine Ens.bind (ens_recordLine htok) ?_
    intro _ _
    refine Ens.ite (fun _ => ?_) (fun _ => ?_)
    · unfold reverseLine
      refine Ens.bind (Ens.and (ens_reverseLoop hr hctx idx hg (cur := cur) _ _ (Acc.refl F cur))
        (ens_reverseLoop_values (fun _ _ _ _ => ens_trivial _) (fun _ _ _ _ _ => ens_trivial _)
          idx g ctx _ _ (by simp [AllValues]))) ?_
      intro st hst
      refine Ens.ite (fun _ => Ens.fail) (fun hne => Ens.pure ?_)
      have hne' : st.list ≠ [] := by simpa using hne
      refine ⟨hst.1.1, ?_⟩
      intro l hl
      have hnone : acc.find? TLine.isSuccessful = none := by
        rw [List.find?_eq_none]
        intro l hl; simp [hacc l hl]
      simp only [List.find?_append, hnone, Option.none_or] at hl
      have hm := List.mem_of_find?_eq_some hl
      simp only [List.mem_singleton] at hm
      subst hm
      have h1 : elementsBytes true
          (TLine.mk idx g true [TElement.mk none st.list]).elements = contentsBytes true st.list := by
        simp [TLine.elements, elementsBytes, TElement.bytes]
      rw [h1]
      refine ⟨hst.1, ?_⟩
      have := length_contentsBytes_pos (ch := true) hne' hst.2
      have h2 : (contentsBytes true st.list).length + st.rem.length ≤ cur.length := hst.1.2.1
      simp only
      omega
    · refine Ens.bind (Ens.attempt (ens_line hr hctx idx hg prev cur)) ?_
      intro r hr'
      unfold lineNext
      cases r with
      | none => exact ih' _ _ hacc
      | some x =>
        have hx := (hr' x rfl).1
        refine Ens.ite (fun hs => Ens.pure ?_) (fun hs => ?_)
        · refine ⟨hx.1.1, ?_⟩
          intro l hl
          have hnone : acc.find? TLine.isSuccessful = none := by
            rw [List.find?_eq_none]
            intro l hl; simp [hacc l hl]
          simp only [List.find?_append, hnone, Option.none_or] at hl
          have hm := List.mem_of_find?_eq_some hl
          simp only [List.mem_singleton] at hm
          subst hm
          refine ⟨hx.1, hx.2 ?_⟩
          intro hnil
          rcases x with ⟨⟨i, g', rev, es⟩, rem⟩
          simp only [TLine.elements] at hnil
          simp [TLine.isSuccessful, hnil] at hs
        · apply ih'
          intro l hl
          rcases List.mem_append.mp hl with h | h
          · exact hacc l h
          · simp only [List.mem_singleton] at h
            subst h
            simpa using hs

theorem goodRec_tokenBody (hr : GoodRec F rec) : GoodRec F (tokenBody rec) := by
  intro t ctx prev cur ht hctx
  unfold tokenBody
  refine Ens.bind (ens_enter ht) ?_
  intro _ _
  have hlines := Token.All_iff.mp ht
  refine Ens.bind (Ens.thenDelete (fun s hs => stkAll_del hs _)
    (ens_blockLoop hr hctx ht prev cur 0 t.lines ?_ [] (by simp))) ?_
  · intro g hg c hc
    exact ⟨(hlines g hg).2 c hc, (hlines g hg).1 c hc⟩
  · intro r hr'
    refine Ens.ite (fun _ => Ens.fail) (fun _ => ?_)
    refine Ens.bind (ens_skipChannels hr hctx.chs prev r.2) ?_
    intro sf hsf
    apply Ens.pure
    refine ⟨hsf.1.trans hr'.1, ?_⟩
    intro hs
    simp only [Tree.isSuccessful, Tree.block, mkBlock, Block.successful] at hs
    obtain ⟨l, hl⟩ := Option.isSome_iff_exists.mp hs
    obtain ⟨hacc, hlt⟩ := hr'.2 l hl
    simp only [mkBlock, hl, Tree.bytes_true, Tree.remaining]
    refine ⟨hacc.trans hsf, ?_⟩
    have := hsf.1.length_le
    omega

/-- The accounting holds at every nesting depth. -/
theorem token_good (F : Flags) (n : Nat) : GoodRec F (token n) := by
  induction n with
  | zero =>
    intro t ctx prev cur _ _
    exact Ens.oof
  | succ n ih => exact goodRec_tokenBody ih

theorem execute_good (F : Flags) {g : Grammar} (hg : g.All (lineAllowed F)) (n : Nat)
    (input : Bytes) :
    (∀ t, execute n g input = .ok t → GoodTree F input t) ∧ (execute n g input = .panic → F.esc) := by
  rw [Grammar.All_iff] at hg
  have := token_good F n g.root ⟨none, g.channels, false⟩ [] input hg.1 ⟨by simp, hg.2⟩ []
    (stkAll_nil _)
  exact this.2

/-- Flags that allow everything. -/
def Flags.any : Flags := ⟨True, True⟩

theorem lineAllowed_any (g : GLine) : lineAllowed Flags.any g := by
  intro c _
  rcases c with ⟨min, max, c⟩ | c
  · rcases c with _ | _ | _ | ⟨_, _, _ | _⟩ | _ <;> simp [containerAllowed, Flags.any]
  · simp [containerAllowed]

end Rodkina.Ast
