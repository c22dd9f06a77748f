import Verif.AstCostBound
import Verif.AstCostMono

/-!
# A bound on the steps of the parser from the nesting, for every grammar

As AstCostBound.lean without the restriction to grammars without references by name: a call of `token` takes at most `factor` calls of the
next level, so a run nested at most `n` deep takes at most `factor ^ n` steps.
-/

namespace Rodkina.Ast.Cost

open CM

/-- The tokens recorded have lists of at most `w`. -/
abbrev WI (w : Nat) : Stk → Prop := StkAll (fun t => tokenW t ≤ w)

/-- The computation takes at most `k` steps and what it returns satisfies `V`, when the tokens recorded have lists of at most `w`. -/
def Cw (w : Nat) {α : Type} (m : CM α) (V : α → Prop) (k : Nat) : Prop :=
  ∀ s, WI w s → WI w (m s).2.1 ∧ (m s).2.2 ≤ k ∧ ∀ a, (m s).1 = .ok a → V a

namespace Cw

variable {α β : Type} {w : Nat}

theorem pure' {a : α} {V : α → Prop} {k : Nat} (h : V a) : Cw w (Pure.pure a) V k :=
  fun _ hs => ⟨hs, Nat.zero_le _, fun b hb => by cases hb; exact h⟩

theorem pure {a : α} {V : α → Prop} (h : V a) : Cw w (Pure.pure a) V 0 := pure' h

theorem liftTm {m : M α} {V : α → Prop} (h : Tm (WI w) m V) : Cw w (CM.lift m) V 0 :=
  fun s hs => ⟨(h s hs).1, Nat.le_refl _, (h s hs).2.2⟩

theorem fail {V : α → Prop} : Cw w (CM.lift M.fail : CM α) V 0 := liftTm Tm.fail

theorem crash {V : α → Prop} : Cw w (CM.lift M.crash : CM α) V 0 := liftTm Tm.crash

theorem tick : Cw w CM.tick (fun _ => True) 1 := fun _ hs => ⟨hs, Nat.le_refl _, fun _ _ => trivial⟩

theorem bind {m : CM α} {f : α → CM β} {V : α → Prop} {W : β → Prop} {a b : Nat}
    (hm : Cw w m V a) (hf : ∀ x, V x → Cw w (f x) W b) : Cw w (m >>= f) W (a + b) := by
  intro s hs
  obtain ⟨h1, h2, h3⟩ := hm s hs
  show WI w (CM.andThen m f s).2.1 ∧ (CM.andThen m f s).2.2 ≤ _ ∧ ∀ x, (CM.andThen m f s).1 = _ → _
  unfold CM.andThen
  generalize m s = r at *
  obtain ⟨o, s', k⟩ := r
  cases o with
  | ok x =>
    obtain ⟨g1, g2, g3⟩ := hf x (h3 x rfl) s' h1
    exact ⟨g1, Nat.add_le_add h2 g2, g3⟩
  | err => exact ⟨h1, Nat.le_add_right_of_le h2, nofun⟩
  | panic => exact ⟨h1, Nat.le_add_right_of_le h2, nofun⟩
  | oof => exact ⟨h1, Nat.le_add_right_of_le h2, nofun⟩

theorem mono {m : CM α} {V W : α → Prop} {a b : Nat} (hm : Cw w m V a) (hab : a ≤ b) (h : ∀ x, V x → W x) : Cw w m W b :=
  fun s hs => ⟨(hm s hs).1, Nat.le_trans (hm s hs).2.1 hab, fun x hx => h x ((hm s hs).2.2 x hx)⟩

theorem le {m : CM α} {V : α → Prop} {a b : Nat} (hm : Cw w m V a) (hab : a ≤ b) : Cw w m V b := mono hm hab fun _ h => h

theorem attempt {m : CM α} {V : α → Prop} {k : Nat} (hm : Cw w m V k) : Cw w (CM.attempt m) (fun r => ∀ a, r = some a → V a) k := by
  intro s hs
  obtain ⟨h1, h2, h3⟩ := hm s hs
  unfold CM.attempt
  generalize m s = r at *
  obtain ⟨o, s', k⟩ := r
  cases o with
  | ok a =>
    refine ⟨h1, h2, ?_⟩
    intro b hb c hc
    cases hb
    cases hc
    exact h3 a rfl
  | err => exact ⟨h1, h2, fun b hb c hc => by cases hb; cases hc⟩
  | panic => exact ⟨h1, h2, nofun⟩
  | oof => exact ⟨h1, h2, nofun⟩

theorem fresh {m : CM α} {V : α → Prop} {k : Nat} (hm : Cw w m V k) : Cw w (CM.fresh m) V k :=
  fun _ hs => ⟨hs, (hm [] (stkAll_nil _)).2⟩

theorem thenDelete {m : CM α} {V : α → Prop} {k : Nat} {name : String} (hm : Cw w m V k) : Cw w (CM.thenDelete name m) V k :=
  fun s hs => ⟨stkAll_del (hm s hs).1 _, (hm s hs).2⟩

theorem ite {c : Prop} [Decidable c] {m m' : CM α} {V : α → Prop} {k : Nat} (h1 : c → Cw w m V k) (h2 : ¬ c → Cw w m' V k) :
    Cw w (if c then m else m') V k := by
  split
  · exact h1 ‹_›
  · exact h2 ‹_›

theorem and {J : Stk → Prop} {pan : Prop} {m : CM α} {m' : M α} {V W : α → Prop} {k : Nat} (h1 : Cw w m V k) (he : erase m = m')
    (hJ : ∀ s, J s) (h2 : Ens J pan m' W) : Cw w m (fun a => V a ∧ W a) k := by
  intro s hs
  obtain ⟨a1, a2, a3⟩ := h1 s hs
  refine ⟨a1, a2, fun a ha => ⟨a3 a ha, (h2 s (hJ s)).2.1 a ?_⟩⟩
  rw [← he]
  exact ha

end Cw

/-- Parameters whose tokens and channels have lists of at most `w`. -/
structure CtxW (w : Nat) (ctx : Ctx) : Prop where
  esc : ∀ t, ctx.escape = some t → tokenW t ≤ w
  len : ctx.channels.length ≤ w
  chs : ∀ c ∈ ctx.channels, channelW c ≤ w

/-- The recursive call takes at most `B` steps. -/
def AnyRec (N w B : Nat) (rec : Rec) : Prop :=
  ∀ (t : Token) (ctx : Ctx) (prev cur : Bytes), tokenW t ≤ w → CtxW w ctx → prev.length ≤ N → cur.length ≤ N →
    Cw w (rec t ctx prev cur) (fun _ => True) B

section
variable {N w B : Nat} {rec : Rec} (hr : AnyRec N w B rec) (hg : GoodRec Flags.any (eraseRec rec))

include hr hg

theorem cw_plain {t : Token} (hw : tokenW t ≤ w) {prev cur : Bytes} (hp : prev.length ≤ N)
    (hcur : cur.length ≤ N) : Cw w (fresh (rec t Ctx.plain prev cur)) (fun r => GoodTree Flags.any cur r) B := by
  refine Cw.fresh ?_
  refine Cw.mono (Cw.and (hr t Ctx.plain prev cur hw
    ⟨by simp [Ctx.plain], by simp [Ctx.plain], by simp [Ctx.plain]⟩ hp hcur) rfl any_stk
    (hg t Ctx.plain prev cur (any_tok t) (any_ctx _))) (Nat.le_refl _) (fun a h => h.2)

theorem cw_condMatch {o : Option Token} (hw : ∀ t, o = some t → tokenW t ≤ w) {data : Bytes}
    (hd : data.length ≤ N) : Cw w (condMatch rec o data) (fun _ => True) B := by
  unfold condMatch
  cases o with
  | none => exact Cw.pure' (trivial)
  | some t => exact Cw.bind (b := 0) (cw_plain hr hg (hw t rfl) (Nat.zero_le _) hd) (fun _ _ => Cw.pure trivial)

theorem cw_channel {c : Channel} (hw : channelW c ≤ w) {prev cur : Bytes}
    (hp : prev.length ≤ N) (hcur : cur.length ≤ N) : Cw w (channel rec c prev cur) (fun _ => True) (3 * B) := by
  obtain ⟨w1, w2, w3⟩ := channelW_parts c
  unfold channel
  refine Cw.le (Cw.bind (b := B + B) (cw_plain hr hg (by omega) hp hcur) ?_) (by omega)
  intro t ht
  refine Cw.le (Cw.bind (V := fun _ => True) (a := B + B) (b := 0) ?_ (fun _ _ => Cw.pure trivial)) (by omega)
  unfold channelCondition
  have hrem : t.remaining.length ≤ N := Nat.le_trans ht.1.length_le hcur
  refine Cw.bind (cw_condMatch hr hg (fun t ht => Nat.le_trans (w2 t ht) hw) hp) ?_
  intro _ _
  refine Cw.le (Cw.bind (b := 0) (cw_condMatch hr hg (fun t ht => Nat.le_trans (w3 t ht) hw) hrem) ?_) (by omega)
  intro _ _
  exact Cw.pure trivial

theorem cw_channelRound {chs : List Channel} (hc : ∀ c ∈ chs, channelW c ≤ w) (st : ChState)
    (hp : st.prev.length ≤ N) (hcur : st.rem.length ≤ N) :
    Cw w (channelRound rec chs st) (fun st' => st'.prev.length ≤ N ∧ st'.rem.length ≤ N) (chs.length * (3 * B + 1)) := by
  induction chs generalizing st with
  | nil => exact Cw.pure' (⟨hp, hcur⟩)
  | cons c cs ih =>
    unfold channelRound
    have hc' := hc c (by simp)
    refine Cw.le (Cw.bind (b := 3 * B + cs.length * (3 * B + 1)) Cw.tick fun _ _ => ?_)
      (by rw [List.length_cons, Nat.succ_mul (List.length _)]; omega)
    refine Cw.bind (Cw.attempt (cw_channel hr hg hc' hp hcur)) ?_
    intro r _
    refine Cw.le (Cw.bind (V := fun st' : ChState => st'.prev.length ≤ N ∧ st'.rem.length ≤ N) (a := 0) (Cw.liftTm ?_)
      (b := cs.length * (3 * B + 1)) ?_) (by omega)
    · unfold channelApply
      split
      · unfold sliceFrom
        refine Tm.bind (V := fun rem : Bytes => rem.length ≤ N) ?_ ?_
        · refine Tm.ite (fun _ => Tm.pure ?_) (fun _ => Tm.crash)
          simp; omega
        · intro rem hrem
          exact Tm.ite (fun _ => Tm.pure ⟨hp, hcur⟩) (fun _ => Tm.pure ⟨hcur, hrem⟩)
      · exact Tm.pure ⟨hp, hcur⟩
    · intro st' hst'
      exact ih (fun c h => hc c (by simp [h])) st' hst'.1 hst'.2

theorem cw_channelLoop {chs : List Channel} (hc : ∀ c ∈ chs, channelW c ≤ w)
    (hlen : chs.length ≤ w) {cur : Bytes} (k : Nat) (st : ChState) (hp : st.prev.length ≤ N) (hcur : st.rem.length ≤ N)
    (hk : st.rem.length < k) (hok : ChOK Flags.any cur st) :
    Cw w (channelLoop rec chs k st) (fun _ => True) (k * (w * (3 * B + 1) + 1)) := by
  induction k generalizing st with
  | zero => omega
  | succ k ih =>
    unfold channelLoop
    refine Cw.le (Cw.bind (b := w * (3 * B + 1) + k * (w * (3 * B + 1) + 1)) Cw.tick fun _ _ => ?_) (by rw [Nat.succ_mul k]; omega)
    refine Cw.bind (Cw.le (Cw.and (cw_channelRound hr hg hc st hp hcur) (erase_channelRound rec chs st) any_stk
      (ens_channelRound hg chs (fun c _ => Channel.All_of lineAllowed_any c) st hok)) (Nat.mul_le_mul_right _ hlen)) ?_
    rintro st' ⟨⟨h1, h2⟩, h3, h4, h5⟩
    refine Cw.ite (fun _ => Cw.pure' (trivial)) (fun hne => ?_)
    exact ih st' h1 h2 (by omega) h3

theorem cw_skipChannels {ctx : Ctx} (hctx : CtxW w ctx) {prev cur : Bytes}
    (hp : prev.length ≤ N) (hcur : cur.length ≤ N) : Cw w (skipChannels rec ctx.channels prev cur) (fun _ => True) (bCh N w B) := by
  have hc : ∀ c ∈ ctx.channels, channelW c ≤ w :=
    hctx.chs
  unfold skipChannels
  refine Cw.ite (fun _ => Cw.pure' (trivial)) (fun _ => ?_)
  refine Cw.bind (b := 0) (Cw.attempt (V := fun _ => True) ?_) (fun _ _ => Cw.pure trivial)
  unfold channels
  refine Cw.bind (b := 0) (Cw.le (cw_channelLoop hr hg hc hctx.len (cur := cur) _ _ hp hcur (by simp)
    ⟨Acc.refl _ _, by simp⟩) ?_) ?_
  · exact Nat.mul_le_mul_right _ (Nat.succ_le_succ hcur)
  · intro st _
    exact Cw.ite (fun _ => Cw.fail) (fun _ => Cw.pure trivial)

theorem cw_elementValue {ctx : Ctx} (hctx : CtxW w ctx) {prev cur : Bytes}
    (hp : prev.length ≤ N) (hcur : cur.length ≤ N) (number : UInt8) :
    Cw w (elementValue rec number ctx prev cur) (fun _ => True) (bCh N w B) := by
  unfold elementValue
  refine Cw.bind (b := 0) (cw_skipChannels hr hg hctx hp hcur) ?_
  intro r _
  refine Cw.liftTm ?_
  unfold matchByte
  cases r.2 with
  | nil => exact Tm.fail
  | cons b rest => exact Tm.ite (fun _ => Tm.pure trivial) (fun _ => Tm.pure trivial)

theorem cw_elementContent {ctx : Ctx} (hctx : CtxW w ctx) {c : Content} (hcW : contentW c ≤ w)
    {prev cur : Bytes} (hp : prev.length ≤ N) (hcur : cur.length ≤ N) :
    Cw w (elementContent rec c ctx prev cur) (fun _ => True) (B + bCh N w B) := by
  unfold elementContent
  cases c with
  | value nm number =>
    exact Cw.ite (fun _ => Cw.fail.le (Nat.zero_le _))
      (fun _ => (cw_elementValue hr hg hctx hp hcur number).le (by omega))
  | external name g =>
    refine Cw.le (Cw.bind (V := fun _ => True) (a := B) (b := 0) ?_ (fun _ _ => Cw.pure trivial)) (by omega)
    unfold external
    rcases g with ⟨root, chs⟩
    simp only [Grammar.root, Grammar.channels]
    simp only [contentW, grammarW] at hcW
    refine Cw.bind (b := 0) (Cw.fresh (hr root _ prev cur (by omega) ⟨by simp, ?_, ?_⟩ hp hcur)) (fun _ _ => Cw.pure trivial)
    · simp only; omega
    · intro c h
      have : channelW c ≤ channelsW chs := channelsW_mem h
      omega
  | token t =>
    simp only [contentW] at hcW
    exact Cw.le (Cw.bind (b := 0) (hr t ctx prev cur hcW hctx hp hcur)
      (fun _ _ => Cw.pure trivial)) (by omega)
  | everything nm ex esc =>
    obtain ⟨f2, f3⟩ := content_everything_W nm ex esc
    refine Cw.le (Cw.bind (b := 0) (hr ex _ prev cur (by omega) ⟨?_, by simp, by simp⟩ hp hcur)
      (fun _ _ => Cw.pure trivial)) (by omega)
    intro t ht
    simp only at ht
    subst ht
    have := f3 t rfl
    omega
  | recursive nm =>
    refine Cw.le (Cw.bind (V := fun t => tokenW t ≤ w) (a := 0) (b := B) (Cw.liftTm ?_) ?_) (by omega)
    · intro s hs
      unfold recursiveToken
      split
      · rename_i e he
        exact ⟨hs, by simp, by intro a ha; simp at ha; exact ha ▸ stkAll_get hs he⟩
      · exact ⟨hs, by simp, by simp⟩
    · intro tok htok
      exact Cw.bind (b := 0) (hr tok ctx prev cur htok hctx hp hcur) (fun _ _ => Cw.pure trivial)

theorem cw_elementLoop {ctx : Ctx} (hctx : CtxW w ctx) {c : Content} (hcW : contentW c ≤ w)
    {max : Option Nat} (k : Nat) (st : ElState)
    (hp : st.prev.length ≤ N) (hcur : st.rem.length ≤ N) (hk : st.rem.length < k) :
    Cw w (elementLoop rec c max ctx k st) (fun st' => st'.prev.length ≤ N ∧ st'.rem.length ≤ st.rem.length)
      (k * (1 + (B + bCh N w B))) := by
  induction k generalizing st with
  | zero => omega
  | succ k ih =>
    unfold elementLoop
    refine Cw.le (Cw.bind (b := (B + bCh N w B) + k * (1 + (B + bCh N w B))) Cw.tick fun _ _ => ?_) (by rw [Nat.succ_mul k]; omega)
    refine Cw.ite (fun _ => Cw.pure' (⟨hp, Nat.le_refl _⟩)) (fun hne => ?_)
    refine Cw.ite (fun _ => Cw.pure' (⟨hp, Nat.le_refl _⟩)) (fun _ => ?_)
    have hcs : Cw w (element rec c ctx st.prev st.rem) (fun _ => True) (B + bCh N w B) := by
      unfold element
      refine Cw.ite (fun _ => Cw.fail.le (Nat.zero_le _)) (fun _ => ?_)
      refine Cw.bind (b := 0) (cw_elementContent hr hg hctx hcW hp hcur) ?_
      intro r _
      refine Cw.liftTm ?_
      unfold acceptContent
      cases r with
      | none => exact Tm.fail
      | some x => exact Tm.ite (fun _ => Tm.pure trivial) (fun _ => Tm.fail)
    have ha : containerAllowed Flags.any (.element 0 none c) :=
      lineAllowed_any (.mk [.element 0 none c]) _ (by simp [GLine.containers])
    refine Cw.bind (Cw.attempt (Cw.and hcs (erase_element rec c ctx st.prev st.rem) any_stk (ens_element hg (any_ctx ctx)
      (Content.All_of lineAllowed_any c) ha st.prev st.rem))) ?_
    intro r hr'
    unfold elementNext
    cases r with
    | none => exact Cw.pure' (⟨hp, Nat.le_refl _⟩)
    | some x =>
      have hlt := (hr' x rfl).2.2.2
      refine Cw.mono (ih ⟨st.list ++ [x.1], st.rem, x.2⟩ hcur ?_ ?_) (Nat.le_refl _) ?_
      · simp only; omega
      · simp only; omega
      · intro st' h
        simp only at h
        exact ⟨h.1, by omega⟩

theorem cw_composeLoop {ctx : Ctx} (hctx : CtxW w ctx) {prev : Bytes} (hp : prev.length ≤ N)
    (es : List (UInt8 × Nat)) {rem : Bytes} (hrem : rem.length ≤ N) :
    Cw w (composeLoop rec ctx prev es rem) (fun _ => True) (es.length * (1 + bCh N w B)) := by
  induction es generalizing rem with
  | nil => exact Cw.pure' (trivial)
  | cons e es ih =>
    unfold composeLoop
    refine Cw.le (Cw.bind (b := bCh N w B + es.length * (1 + bCh N w B)) Cw.tick fun _ _ => ?_)
      (by rw [List.length_cons, Nat.succ_mul (List.length _)]; omega)
    refine Cw.bind (Cw.and (cw_elementValue hr hg hctx hp hrem e.1) (erase_elementValue rec e.1 ctx prev rem) any_stk
      (ens_elementValue hg (any_ctx ctx) e.1 prev rem)) ?_
    rintro r ⟨_, hr'⟩
    unfold composeNext
    cases r with
    | none => exact Cw.fail.le (Nat.zero_le _)
    | some x =>
      have := (hr' x rfl).1.length_le
      exact ih (by omega)

theorem cw_lineLoop {ctx : Ctx} (hctx : CtxW w ctx) {prev0 : Bytes} (hp0 : prev0.length ≤ N) (cs : List Container)
    (hcs : ∀ c ∈ cs, containerW c ≤ w)
    (st : LnState) (hp : st.prev.length ≤ N) (hcur : st.rem.length ≤ N) :
    Cw w (lineLoop rec ctx prev0 cs st) (fun _ => True) (cs.length * (1 + bSt N w B)) := by
  induction cs generalizing st with
  | nil => exact Cw.pure' (trivial)
  | cons c cs ih =>
    unfold lineLoop
    refine Cw.le (Cw.bind (b := bSt N w B + cs.length * (1 + bSt N w B)) Cw.tick fun _ _ => ?_)
      (by rw [List.length_cons, Nat.succ_mul (List.length _)]; omega)
    have hc := hcs c (by simp)
    refine Cw.bind (V := fun st' : LnState => st'.prev.length ≤ N ∧ st'.rem.length ≤ st.rem.length) ?_ ?_
    · unfold lineStep
      cases c with
      | compose cmp =>
        simp only [containerW] at hc
        refine Cw.le (Cw.bind (b := 0) (cw_composeLoop hr hg hctx hp0 cmp.list hcur) (fun _ _ => Cw.fail)) ?_
        have : cmp.list.length * (1 + bCh N w B) ≤ w * (1 + bCh N w B) := Nat.mul_le_mul_right _ hc
        unfold bSt
        omega
      | element min max content =>
        simp only [containerW] at hc
        refine Cw.le (Cw.bind (b := 0) (cw_elementLoop hr hg hctx hc
          (max := max) (st.rem.length + 1) ⟨[], st.prev, st.rem⟩ hp hcur (by simp)) ?_) ?_
        · rintro r ⟨h1, h2⟩
          exact Cw.ite (fun _ => Cw.fail) (fun hmin => Cw.pure ⟨h1, h2⟩)
        · have : (st.rem.length + 1) * (1 + (B + bCh N w B)) ≤ bEl N w B := Nat.mul_le_mul_right _ (by omega)
          unfold bSt
          omega
    · intro st' h
      exact ih (fun c h => hcs c (by simp [h])) st' h.1 (by omega)

theorem cw_line {ctx : Ctx} (hctx : CtxW w ctx) {tok : Token} (htok : tokenW tok ≤ w)
    {g : GLine} (hgl : g ∈ tok.lines) (idx : Nat) {prev cur : Bytes}
    (hp : prev.length ≤ N) (hcur : cur.length ≤ N) : Cw w (line rec idx g ctx prev cur) (fun _ => True) (bLn N w B) := by
  unfold line
  refine Cw.bind (b := 0) (Cw.le (cw_lineLoop hr hg hctx hp g.containers ?_ ⟨[], prev, cur⟩ hp hcur) ?_) (fun _ _ => Cw.pure trivial)
  · intro c hc
    exact Nat.le_trans (containerW_le hgl hc) htok
  · exact Nat.mul_le_mul_right _ (Nat.le_trans (containers_length_le hgl) htok)

theorem cw_reverseLoop {ctx : Ctx} (hctx : CtxW w ctx) {tok : Token} (htok : tokenW tok ≤ w)
    {g : GLine} (hgl : g ∈ tok.lines) (idx : Nat) (k : Nat) (st : RvState)
    (hp : st.prev.length ≤ N) (hcur : st.rem.length ≤ N) (hk : st.rem.length < k) :
    Cw w (reverseLoop rec idx g ctx k st) (fun _ => True) (k * (1 + (B + bLn N w B + bLn N w B))) := by
  induction k generalizing st with
  | zero => omega
  | succ k ih =>
    unfold reverseLoop
    refine Cw.le (Cw.bind (b := (B + bLn N w B) + (bLn N w B + k * (1 + (B + bLn N w B + bLn N w B)))) Cw.tick fun _ _ => ?_)
      (by rw [Nat.succ_mul k]; omega)
    refine Cw.ite (fun _ => Cw.pure' (trivial)) (fun _ => ?_)
    refine Cw.bind (V := fun st' : RvState => st'.prev.length ≤ N ∧ st'.rem.length ≤ st.rem.length) ?_ ?_
    · have hself : st.prev.length ≤ N ∧ st.rem.length ≤ st.rem.length := ⟨hp, Nat.le_refl _⟩
      unfold escapeStep
      cases he : ctx.escape with
      | none => exact Cw.pure' (hself)
      | some esc =>
        have hesc := hctx.esc esc he
        refine Cw.bind (Cw.attempt (Cw.and (hr esc ⟨none, ctx.channels, false⟩ st.prev st.rem
          hesc ⟨by simp, hctx.len, hctx.chs⟩ hp hcur) rfl any_stk
          (hg esc _ st.prev st.rem (any_tok esc) (any_ctx _)))) ?_
        · intro r hr'
          unfold escapeLine
          cases r with
          | none => exact Cw.pure' (hself)
          | some t =>
            have ht := (hr' t rfl).2.1.length_le
            refine Cw.ite (fun _ => ?_) (fun _ => Cw.pure' (hself))
            refine Cw.bind (b := 0) (Cw.attempt (cw_line hr hg hctx htok hgl idx hcur (by omega))) ?_
            intro x _
            refine Cw.liftTm ?_
            unfold escapeApply
            cases x with
            | none => exact Tm.pure hself
            | some x =>
              refine Tm.ite (fun _ => ?_) (fun _ => Tm.pure hself)
              refine Tm.ite (fun _ => Tm.pure ?_) (fun _ => Tm.crash)
              refine ⟨by simp only; omega, ?_⟩
              simp only [List.length_drop]
              omega
    · intro st' h
      refine Cw.bind (Cw.attempt (cw_line hr hg hctx htok hgl idx h.1 (by omega))) ?_
      intro x _
      unfold reverseNext
      cases x with
      | some _ => exact Cw.pure' (trivial)
      | none =>
        cases hrem : st'.rem with
        | nil => exact Cw.crash.le (Nat.zero_le _)
        | cons b rest =>
          have hlen : st'.rem.length = rest.length + 1 := by rw [hrem]; rfl
          simp only
          apply ih
          · simp only [List.length_cons]; omega
          · simp only; omega
          · simp only; omega

theorem cw_blockLoop {ctx : Ctx} (hctx : CtxW w ctx) {tok : Token} (htok : tokenW tok ≤ w) {prev cur : Bytes}
    (hp : prev.length ≤ N) (hcur : cur.length ≤ N) (idx : Nat) (gs : List GLine)
    (hgs : ∀ g ∈ gs, g ∈ tok.lines) (acc : List TLine) :
    Cw w (blockLoop rec tok ctx prev cur idx gs acc) (fun r => r.2.length ≤ cur.length) (gs.length * (1 + bRv N w B)) := by
  have hLR : bLn N w B ≤ bRv N w B := by
    unfold bRv
    have : 1 * (1 + (B + bLn N w B + bLn N w B)) ≤ (N + 1) * (1 + (B + bLn N w B + bLn N w B)) := Nat.mul_le_mul_right _ (by omega)
    omega
  induction gs generalizing idx acc with
  | nil => exact Cw.pure' ((Nat.le_refl _))
  | cons g gs ih =>
    have ih' := fun idx acc => ih idx (fun g h => hgs g (by simp [h])) acc
    unfold blockLoop
    refine Cw.le (Cw.bind (b := bRv N w B + gs.length * (1 + bRv N w B)) Cw.tick fun _ _ => ?_)
      (by rw [List.length_cons, Nat.succ_mul (List.length _)]; omega)
    refine Cw.le (Cw.bind (V := fun _ => True) (a := 0) (b := bRv N w B + gs.length * (1 + bRv N w B))
      (Cw.liftTm fun s hs => ⟨hs, by simp [alreadyTried], fun _ _ => trivial⟩) ?_) (by omega)
    intro skip _
    refine Cw.ite (fun _ => (ih' _ _).le (by omega)) (fun _ => ?_)
    refine Cw.le (Cw.bind (V := fun _ => True) (a := 0) (b := bRv N w B + gs.length * (1 + bRv N w B))
      (Cw.liftTm fun s hs => ⟨(ens_recordLine (pan := True) (idx := idx) (cur := cur) htok s hs).1, by simp [recordLine], fun _ _ => trivial⟩) ?_) (by omega)
    intro _ _
    have hgl := hgs g (by simp)
    have ha : ∀ c ∈ g.containers, c.All (lineAllowed Flags.any) ∧ containerAllowed Flags.any c :=
      fun c hc => ⟨Container.All_of lineAllowed_any c, lineAllowed_any g c hc⟩
    refine Cw.ite (fun _ => ?_) (fun _ => ?_)
    · unfold reverseLine
      refine Cw.le (Cw.bind (b := 0) (Cw.and (cw_reverseLoop hr hg hctx htok hgl idx (cur.length + 1) ⟨[], prev, cur⟩ hp hcur
        (Nat.lt_succ_self _)) (erase_reverseLoop rec idx g ctx _ _) any_stk (ens_reverseLoop hg (any_ctx ctx) idx ha (cur := cur) _ _
          (Acc.refl _ _))) ?_) ?_
      · rintro st ⟨_, h⟩
        exact Cw.ite (fun _ => Cw.fail) (fun _ => Cw.pure h.1.length_le)
      · have : (cur.length + 1) * (1 + (B + bLn N w B + bLn N w B)) ≤ bRv N w B := Nat.mul_le_mul_right _ (by omega)
        omega
    · refine Cw.bind (Cw.le (Cw.attempt (Cw.and (cw_line hr hg hctx htok hgl idx hp hcur) (erase_line rec idx g ctx prev cur) any_stk
        (ens_line hg (any_ctx ctx) idx ha prev cur))) hLR) ?_
      intro x hx
      unfold lineNext
      cases x with
      | none => exact ih' _ _
      | some x =>
        exact Cw.ite (fun _ => Cw.pure' ((hx x rfl).2.1.1.1.length_le)) (fun _ => ih' _ _)

theorem anyRec_tokenBody : AnyRec N w (bTk N w B) (tokenBody rec) := by
  intro t ctx prev cur ht hctx hp hcur
  unfold tokenBody
  unfold bTk
  refine Cw.bind Cw.tick fun _ _ => ?_
  refine Cw.le (Cw.bind (V := fun _ => True) (a := 0) (b := w * (1 + bRv N w B) + bCh N w B) ?_ ?_) (by omega)
  · refine Cw.liftTm fun s hs => ⟨(ens_enter (pan := True) ht s hs).1, ?_, fun _ _ => trivial⟩
    unfold enter
    split <;> simp
  intro _ _
  refine Cw.bind (Cw.thenDelete (Cw.le (cw_blockLoop hr hg hctx ht hp hcur 0 t.lines (fun g h => h) [])
    (Nat.mul_le_mul_right _ (Nat.le_trans (lines_length_le t) ht)))) ?_
  intro r hr'
  refine Cw.ite (fun _ => Cw.fail.le (Nat.zero_le _)) (fun _ => ?_)
  exact Cw.bind (b := 0) (cw_skipChannels hr hg hctx hp (by omega)) (fun _ _ => Cw.pure trivial)

end

theorem token_any {w : Nat} (hw : 1 ≤ w) (N : Nat) : ∀ n, AnyRec N w (factor w N ^ n) (token n) := by
  have hf : 1 ≤ factor w N := by
    unfold factor
    have h1 : 1 ≤ w ^ 4 := Nat.one_le_pow _ _ hw
    have h2 : 1 ≤ (N + 1) ^ 3 := Nat.one_le_pow _ _ (by omega)
    calc 1 ≤ 37 * 1 * 1 := by omega
      _ ≤ 37 * w ^ 4 * (N + 1) ^ 3 := Nat.mul_le_mul (Nat.mul_le_mul_left _ h1) h2
  intro n
  induction n with
  | zero => exact fun t ctx prev cur _ _ _ _ s hs => ⟨hs, Nat.zero_le _, nofun⟩
  | succ n ih =>
    have hg : GoodRec Flags.any (eraseRec (token n)) := by
      rw [erase_token]
      exact token_good Flags.any n
    intro t ctx prev cur h1 h2 h3 h4
    refine (anyRec_tokenBody ih hg t ctx prev cur h1 h2 h3 h4).le ?_
    rw [Nat.pow_succ, Nat.mul_comm]
    exact bTk_le hw (Nat.one_le_pow _ _ hf)

/-- Every grammar: the steps of a run nested at most `n` deep. -/
theorem steps_le_depth (g : Grammar) (input : Bytes) (n : Nat) :
    steps n g input ≤ factor (max 1 (grammarW g)) input.length ^ n := by
  rcases g with ⟨root, chs⟩
  have hW : grammarW (.mk root chs) ≤ max 1 (grammarW (.mk root chs)) := Nat.le_max_right _ _
  generalize hw : max 1 (grammarW (.mk root chs)) = w at *
  simp only [grammarW] at hW
  refine (token_any (by omega) input.length n root ⟨none, chs, false⟩ [] input (by omega) ⟨by simp, by simp only; omega, ?_⟩
    (Nat.zero_le _) (Nat.le_refl _) [] (stkAll_nil _)).2.1
  intro c hc
  have := channelsW_mem hc
  simp only at this
  omega

end Rodkina.Ast.Cost
