import Verif.AstCostLemmas
import Verif.AstTerm
import Mathlib.Tactic.Ring
import Mathlib.Tactic.Linarith

/-!
# A bound on the steps of the parser, for grammars without references by name
-/

namespace Rodkina.Ast

open M

/-- The line contains no reference by name. -/
def lineFlat (g : GLine) : Prop := ∀ c ∈ g.containers, c.isRecursive = false

mutual
/-- The longest list in a token: its lines, the containers of a line, the bytes of a compose, the channels of an external grammar. -/
def tokenW : Token → Nat
  | .mk _ ls _ => max ls.length (linesW ls)
/-- Maximum over the lines. -/
def linesW : List GLine → Nat
  | [] => 0
  | g :: gs => max (lineW g) (linesW gs)
/-- The containers of a line, and what is in them. -/
def lineW : GLine → Nat
  | .mk cs => max cs.length (containersW cs)
/-- Maximum over containers. -/
def containersW : List Container → Nat
  | [] => 0
  | c :: cs => max (containerW c) (containersW cs)
/-- Of a container. -/
def containerW : Container → Nat
  | .element _ _ c => contentW c
  | .compose cmp => cmp.list.length
/-- Of a content. -/
def contentW : Content → Nat
  | .value _ _ => 0
  | .external _ g => grammarW g
  | .token t => tokenW t
  | .everything _ ex none => tokenW ex
  | .everything _ ex (some esc) => max (tokenW ex) (tokenW esc)
  | .recursive _ => 0
/-- Of a grammar: its root, its channels, and what is in them. -/
def grammarW : Grammar → Nat
  | .mk root chs => max (tokenW root) (max chs.length (channelsW chs))
/-- Maximum over channels. -/
def channelsW : List Channel → Nat
  | [] => 0
  | c :: cs => max (channelW c) (channelsW cs)
/-- Of a channel: its token and its conditions. -/
def channelW : Channel → Nat
  | .mk t none none => tokenW t
  | .mk t (some a) none => max (tokenW t) (tokenW a)
  | .mk t none (some b) => max (tokenW t) (tokenW b)
  | .mk t (some a) (some b) => max (tokenW t) (max (tokenW a) (tokenW b))
end

theorem linesW_mem {g : GLine} {ls : List GLine} (h : g ∈ ls) : lineW g ≤ linesW ls := by
  induction ls with
  | nil => simp at h
  | cons x xs ih =>
    simp only [linesW]
    rcases List.mem_cons.mp h with rfl | h
    · exact Nat.le_max_left _ _
    · exact Nat.le_trans (ih h) (Nat.le_max_right _ _)

theorem containersW_mem {c : Container} {cs : List Container} (h : c ∈ cs) : containerW c ≤ containersW cs := by
  induction cs with
  | nil => simp at h
  | cons x xs ih =>
    simp only [containersW]
    rcases List.mem_cons.mp h with rfl | h
    · exact Nat.le_max_left _ _
    · exact Nat.le_trans (ih h) (Nat.le_max_right _ _)

theorem channelsW_mem {c : Channel} {cs : List Channel} (h : c ∈ cs) : channelW c ≤ channelsW cs := by
  induction cs with
  | nil => simp at h
  | cons x xs ih =>
    simp only [channelsW]
    rcases List.mem_cons.mp h with rfl | h
    · exact Nat.le_max_left _ _
    · exact Nat.le_trans (ih h) (Nat.le_max_right _ _)

theorem lines_length_le (t : Token) : t.lines.length ≤ tokenW t := by
  rcases t with ⟨n, ls, ss⟩
  simp only [tokenW, Token.lines]
  omega

theorem containers_length_le {t : Token} {g : GLine} (hg : g ∈ t.lines) : g.containers.length ≤ tokenW t := by
  rcases t with ⟨n, ls, ss⟩
  rcases g with ⟨cs⟩
  have h1 := linesW_mem hg
  simp only [Token.lines] at h1
  simp only [lineW] at h1
  simp only [tokenW, GLine.containers]
  omega

theorem containerW_le {t : Token} {g : GLine} {c : Container} (hg : g ∈ t.lines) (hc : c ∈ g.containers) :
    containerW c ≤ tokenW t := by
  rcases t with ⟨n, ls, ss⟩
  rcases g with ⟨cs⟩
  have h1 := linesW_mem hg
  have h2 := containersW_mem hc
  simp only [Token.lines] at h1
  simp only [GLine.containers] at h2
  simp only [lineW] at h1
  simp only [tokenW]
  omega

theorem channelW_parts (c : Channel) : tokenW c.token ≤ channelW c ∧ (∀ t, c.previous = some t → tokenW t ≤ channelW c) ∧
    (∀ t, c.next = some t → tokenW t ≤ channelW c) := by
  rcases c with ⟨t, _ | a, _ | b⟩ <;>
    simp only [channelW, Channel.token, Channel.previous, Channel.next, Option.some.injEq, reduceCtorEq, false_implies, implies_true,
      forall_eq', and_true, true_and] <;>
    omega

theorem content_everything_W (n : String) (ex : Token) (esc : Option Token) :
    tokenW ex ≤ contentW (.everything n ex esc) ∧ (∀ t, esc = some t → tokenW t ≤ contentW (.everything n ex esc)) := by
  cases esc <;> simp [contentW] <;> omega

namespace Cost

open CM

/-- The computation takes at most `k` steps, what it returns satisfies `V`, and it does not run out of fuel if `T`. -/
def Cs (T : Prop) {α : Type} (m : CM α) (V : α → Prop) (k : Nat) : Prop :=
  ∀ s, (T → (m s).1 ≠ .oof) ∧ (m s).2.2 ≤ k ∧ ∀ a, (m s).1 = .ok a → V a

namespace Cs

variable {α β : Type} {T : Prop}

theorem pure {a : α} {V : α → Prop} (h : V a) : Cs T (Pure.pure a) V 0 := by
  intro s
  exact ⟨fun _ => nofun, Nat.le_refl _, fun b hb => by cases hb; exact h⟩

theorem pure' {a : α} {V : α → Prop} {k : Nat} (h : V a) : Cs T (Pure.pure a) V k := by
  intro s
  exact ⟨fun _ => nofun, Nat.zero_le _, fun b hb => by cases hb; exact h⟩

theorem lift {m : M α} {V : α → Prop} (h : ∀ s, (m s).1 ≠ .oof ∧ ∀ a, (m s).1 = .ok a → V a) : Cs T (CM.lift m) V 0 :=
  fun s => ⟨fun _ => (h s).1, Nat.le_refl _, (h s).2⟩

theorem liftTm {m : M α} {V : α → Prop} (h : Tm (fun _ => True) m V) : Cs T (CM.lift m) V 0 :=
  lift fun s => ⟨(h s trivial).2.1, (h s trivial).2.2⟩

theorem fail {V : α → Prop} : Cs T (CM.lift M.fail : CM α) V 0 := liftTm Tm.fail

theorem crash {V : α → Prop} : Cs T (CM.lift M.crash : CM α) V 0 := liftTm Tm.crash

theorem tick : Cs T CM.tick (fun _ => True) 1 := fun _ => ⟨fun _ => nofun, Nat.le_refl _, fun _ _ => trivial⟩

theorem bind {m : CM α} {f : α → CM β} {V : α → Prop} {W : β → Prop} {a b : Nat}
    (hm : Cs T m V a) (hf : ∀ x, V x → Cs T (f x) W b) : Cs T (m >>= f) W (a + b) := by
  intro s
  obtain ⟨h1, h2, h3⟩ := hm s
  show (T → (CM.andThen m f s).1 ≠ _) ∧ (CM.andThen m f s).2.2 ≤ _ ∧ ∀ x, (CM.andThen m f s).1 = _ → _
  unfold CM.andThen
  generalize m s = r at *
  obtain ⟨o, s', k⟩ := r
  cases o with
  | ok x =>
    obtain ⟨g1, g2, g3⟩ := hf x (h3 x rfl) s'
    exact ⟨g1, Nat.add_le_add h2 g2, g3⟩
  | err => exact ⟨fun _ => nofun, Nat.le_add_right_of_le h2, nofun⟩
  | panic => exact ⟨fun _ => nofun, Nat.le_add_right_of_le h2, nofun⟩
  | oof => exact ⟨fun ht => absurd rfl (h1 ht), Nat.le_add_right_of_le h2, nofun⟩

theorem mono {m : CM α} {V W : α → Prop} {a b : Nat} (hm : Cs T m V a) (hab : a ≤ b) (h : ∀ x, V x → W x) : Cs T m W b :=
  fun s => ⟨(hm s).1, Nat.le_trans (hm s).2.1 hab, fun x hx => h x ((hm s).2.2 x hx)⟩

theorem le {m : CM α} {V : α → Prop} {a b : Nat} (hm : Cs T m V a) (hab : a ≤ b) : Cs T m V b := mono hm hab fun _ h => h

theorem attempt {m : CM α} {V : α → Prop} {k : Nat} (hm : Cs T m V k) : Cs T (CM.attempt m) (fun r => ∀ a, r = some a → V a) k := by
  intro s
  obtain ⟨h1, h2, h3⟩ := hm s
  unfold CM.attempt
  generalize m s = r at *
  obtain ⟨o, s', k⟩ := r
  cases o with
  | ok a =>
    refine ⟨fun _ => nofun, h2, ?_⟩
    intro b hb c hc
    cases hb
    cases hc
    exact h3 a rfl
  | err => exact ⟨fun _ => nofun, h2, fun b hb c hc => by cases hb; cases hc⟩
  | panic => exact ⟨fun _ => nofun, h2, nofun⟩
  | oof => exact ⟨fun ht => absurd rfl (h1 ht), h2, nofun⟩

theorem fresh {m : CM α} {V : α → Prop} {k : Nat} (hm : Cs T m V k) : Cs T (CM.fresh m) V k := fun _ => hm []

theorem thenDelete {m : CM α} {V : α → Prop} {k : Nat} {name : String} (hm : Cs T m V k) : Cs T (CM.thenDelete name m) V k := fun s => hm s

theorem ite {c : Prop} [Decidable c] {m m' : CM α} {V : α → Prop} {k : Nat} (h1 : c → Cs T m V k) (h2 : ¬ c → Cs T m' V k) :
    Cs T (if c then m else m') V k := by
  split
  · exact h1 ‹_›
  · exact h2 ‹_›

theorem and {J : Stk → Prop} {pan : Prop} {m : CM α} {m' : M α} {V W : α → Prop} {k : Nat} (h1 : Cs T m V k) (he : erase m = m')
    (hJ : ∀ s, J s) (h2 : Ens J pan m' W) : Cs T m (fun a => V a ∧ W a) k := by
  intro s
  obtain ⟨a1, a2, a3⟩ := h1 s
  refine ⟨a1, a2, fun a ha => ⟨a3 a ha, (h2 s (hJ s)).2.1 a ?_⟩⟩
  rw [← he]
  exact ha

end Cs

/-- A token without references by name, with lists of at most `w`, nested at most `X` below external grammars. -/
structure TokC (w X : Nat) (t : Token) : Prop where
  flat : t.All lineFlat
  width : tokenW t ≤ w
  ext : tokenX 0 t ≤ X

/-- The same for the parameters. -/
structure CtxC (w X : Nat) (ctx : Ctx) : Prop where
  esc : ∀ t, ctx.escape = some t → TokC w X t
  len : ctx.channels.length ≤ w
  chs : ∀ c ∈ ctx.channels, c.All lineFlat ∧ channelW c ≤ w ∧ channelX 0 c ≤ X

/-- The recursive call takes at most `B` steps on what is nested at most `n` deep. -/
def BoundRec (T : Prop) (n N w B : Nat) (rec : Rec) : Prop :=
  ∀ (X : Nat) (t : Token) (ctx : Ctx) (prev cur : Bytes), TokC w X t → CtxC w X ctx → prev.length ≤ N → cur.length ≤ N →
    tokenD t + optD ctx.escape + X ≤ n → Cs T (rec t ctx prev cur) (fun _ => True) B

/-- Bound for the channels. -/
def bCh (N w B : Nat) : Nat := (N + 1) * (w * (3 * B + 1) + 1)
/-- Bound for the loop over an element. -/
def bEl (N w B : Nat) : Nat := (N + 1) * (1 + (B + bCh N w B))
/-- Bound for a container. -/
def bSt (N w B : Nat) : Nat := bEl N w B + w * (1 + bCh N w B)
/-- Bound for a line. -/
def bLn (N w B : Nat) : Nat := w * (1 + bSt N w B)
/-- Bound for the reverse loop. -/
def bRv (N w B : Nat) : Nat := (N + 1) * (1 + (B + bLn N w B + bLn N w B))
/-- Bound for a token. -/
def bTk (N w B : Nat) : Nat := 1 + (w * (1 + bRv N w B) + bCh N w B)

section
variable {T : Prop} {n N w B : Nat} {rec : Rec} (hr : BoundRec T n N w B rec) (hg : GoodRec Flags.any (eraseRec rec))

include hr hg

theorem cs_plain {t : Token} (ht : t.All lineFlat) (hw : tokenW t ≤ w) {prev cur : Bytes} (hp : prev.length ≤ N)
    (hcur : cur.length ≤ N) (hn : plainX 0 t ≤ n) : Cs T (fresh (rec t Ctx.plain prev cur)) (fun r => GoodTree Flags.any cur r) B := by
  refine Cs.fresh ?_
  refine Cs.mono (Cs.and (hr (tokenX 0 t) t Ctx.plain prev cur ⟨ht, hw, Nat.le_refl _⟩
    ⟨by simp [Ctx.plain], by simp [Ctx.plain], by simp [Ctx.plain]⟩ hp hcur ?_) rfl any_stk
    (hg t Ctx.plain prev cur (any_tok t) (any_ctx _))) (Nat.le_refl _) (fun a h => h.2)
  simp only [plainX] at hn
  simp only [Ctx.plain, optD]
  omega

theorem cs_condMatch {o : Option Token} (ho : optAll lineFlat o) (hw : ∀ t, o = some t → tokenW t ≤ w) {data : Bytes}
    (hd : data.length ≤ N) (hn : ∀ t, o = some t → plainX 0 t ≤ n) : Cs T (condMatch rec o data) (fun _ => True) B := by
  unfold condMatch
  cases o with
  | none => exact Cs.pure' (trivial)
  | some t => exact Cs.bind (b := 0) (cs_plain hr hg (ho t rfl) (hw t rfl) (Nat.zero_le _) hd (hn t rfl)) (fun _ _ => Cs.pure trivial)

theorem cs_channel {c : Channel} (hc : c.All lineFlat) (hw : channelW c ≤ w) (hX : channelX 0 c ≤ n) {prev cur : Bytes}
    (hp : prev.length ≤ N) (hcur : cur.length ≤ N) : Cs T (channel rec c prev cur) (fun _ => True) (3 * B) := by
  obtain ⟨h1, h2, h3⟩ := channelX_parts 0 c
  obtain ⟨w1, w2, w3⟩ := channelW_parts c
  rw [Channel.All_iff] at hc
  unfold channel
  refine Cs.le (Cs.bind (b := B + B) (cs_plain hr hg hc.1 (by omega) hp hcur (by omega)) ?_) (by omega)
  intro t ht
  refine Cs.le (Cs.bind (V := fun _ => True) (a := B + B) (b := 0) ?_ (fun _ _ => Cs.pure trivial)) (by omega)
  unfold channelCondition
  have hrem : t.remaining.length ≤ N := Nat.le_trans ht.1.length_le hcur
  refine Cs.bind (cs_condMatch hr hg hc.2.1 (fun t ht => Nat.le_trans (w2 t ht) hw) hp (fun t ht => Nat.le_trans (h2 t ht) hX)) ?_
  intro _ _
  refine Cs.le (Cs.bind (b := 0) (cs_condMatch hr hg hc.2.2 (fun t ht => Nat.le_trans (w3 t ht) hw) hrem
    (fun t ht => Nat.le_trans (h3 t ht) hX)) ?_) (by omega)
  intro _ _
  exact Cs.pure trivial

theorem cs_channelRound {chs : List Channel} (hc : ∀ c ∈ chs, c.All lineFlat ∧ channelW c ≤ w ∧ channelX 0 c ≤ n) (st : ChState)
    (hp : st.prev.length ≤ N) (hcur : st.rem.length ≤ N) :
    Cs T (channelRound rec chs st) (fun st' => st'.prev.length ≤ N ∧ st'.rem.length ≤ N) (chs.length * (3 * B + 1)) := by
  induction chs generalizing st with
  | nil => exact Cs.pure' (⟨hp, hcur⟩)
  | cons c cs ih =>
    unfold channelRound
    have hc' := hc c (by simp)
    refine Cs.le (Cs.bind (b := 3 * B + cs.length * (3 * B + 1)) Cs.tick fun _ _ => ?_)
      (by rw [List.length_cons, Nat.succ_mul (List.length _)]; omega)
    refine Cs.bind (Cs.attempt (cs_channel hr hg hc'.1 hc'.2.1 hc'.2.2 hp hcur)) ?_
    intro r _
    refine Cs.le (Cs.bind (V := fun st' : ChState => st'.prev.length ≤ N ∧ st'.rem.length ≤ N) (a := 0) (Cs.liftTm ?_)
      (b := cs.length * (3 * B + 1)) ?_) (by omega)
    · unfold channelApply
      split
      · unfold sliceFrom
        refine Tm.bind (V := fun rem : Bytes => rem.length ≤ N) ?_ ?_
        · refine Tm.ite (fun _ => Tm.pure ?_) (fun _ => Tm.crash)
          simp; omega
        · intro rem hrem
          exact Tm.ite (fun _ => Tm.pure ⟨hp, hcur⟩) (fun _ => Tm.pure ⟨hcur, hrem⟩)
      · exact Tm.pure ⟨hp, hcur⟩
    · intro st' hst'
      exact ih (fun c h => hc c (by simp [h])) st' hst'.1 hst'.2

theorem cs_channelLoop {chs : List Channel} (hc : ∀ c ∈ chs, c.All lineFlat ∧ channelW c ≤ w ∧ channelX 0 c ≤ n)
    (hlen : chs.length ≤ w) {cur : Bytes} (k : Nat) (st : ChState) (hp : st.prev.length ≤ N) (hcur : st.rem.length ≤ N)
    (hk : st.rem.length < k) (hok : ChOK Flags.any cur st) :
    Cs T (channelLoop rec chs k st) (fun _ => True) (k * (w * (3 * B + 1) + 1)) := by
  induction k generalizing st with
  | zero => omega
  | succ k ih =>
    unfold channelLoop
    refine Cs.le (Cs.bind (b := w * (3 * B + 1) + k * (w * (3 * B + 1) + 1)) Cs.tick fun _ _ => ?_) (by rw [Nat.succ_mul k]; omega)
    refine Cs.bind (Cs.le (Cs.and (cs_channelRound hr hg hc st hp hcur) (erase_channelRound rec chs st) any_stk
      (ens_channelRound hg chs (fun c _ => Channel.All_of lineAllowed_any c) st hok)) (Nat.mul_le_mul_right _ hlen)) ?_
    rintro st' ⟨⟨h1, h2⟩, h3, h4, h5⟩
    refine Cs.ite (fun _ => Cs.pure' (trivial)) (fun hne => ?_)
    exact ih st' h1 h2 (by omega) h3

theorem cs_skipChannels {X : Nat} {ctx : Ctx} (hctx : CtxC w X ctx) (hX : X ≤ n) {prev cur : Bytes}
    (hp : prev.length ≤ N) (hcur : cur.length ≤ N) : Cs T (skipChannels rec ctx.channels prev cur) (fun _ => True) (bCh N w B) := by
  have hc : ∀ c ∈ ctx.channels, c.All lineFlat ∧ channelW c ≤ w ∧ channelX 0 c ≤ n :=
    fun c h => ⟨(hctx.chs c h).1, (hctx.chs c h).2.1, Nat.le_trans (hctx.chs c h).2.2 hX⟩
  unfold skipChannels
  refine Cs.ite (fun _ => Cs.pure' (trivial)) (fun _ => ?_)
  refine Cs.bind (b := 0) (Cs.attempt (V := fun _ => True) ?_) (fun _ _ => Cs.pure trivial)
  unfold channels
  refine Cs.bind (b := 0) (Cs.le (cs_channelLoop hr hg hc hctx.len (cur := cur) _ _ hp hcur (by simp)
    ⟨Acc.refl _ _, by simp⟩) ?_) ?_
  · exact Nat.mul_le_mul_right _ (Nat.succ_le_succ hcur)
  · intro st _
    exact Cs.ite (fun _ => Cs.fail) (fun _ => Cs.pure trivial)

theorem cs_elementValue {X : Nat} {ctx : Ctx} (hctx : CtxC w X ctx) (hX : X ≤ n) {prev cur : Bytes}
    (hp : prev.length ≤ N) (hcur : cur.length ≤ N) (number : UInt8) :
    Cs T (elementValue rec number ctx prev cur) (fun _ => True) (bCh N w B) := by
  unfold elementValue
  refine Cs.bind (b := 0) (cs_skipChannels hr hg hctx hX hp hcur) ?_
  intro r _
  refine Cs.liftTm ?_
  unfold matchByte
  cases r.2 with
  | nil => exact Tm.fail
  | cons b rest => exact Tm.ite (fun _ => Tm.pure trivial) (fun _ => Tm.pure trivial)

theorem cs_elementContent {X : Nat} {ctx : Ctx} (hctx : CtxC w X ctx) {c : Content} (hc : c.All lineFlat)
    (hflat : (Container.element 0 none c).isRecursive = false) (hcW : contentW c ≤ w) (hcX : contentX 0 c ≤ X)
    (hn : contentD c + optD ctx.escape + X ≤ n) {prev cur : Bytes} (hp : prev.length ≤ N) (hcur : cur.length ≤ N) :
    Cs T (elementContent rec c ctx prev cur) (fun _ => True) (B + bCh N w B) := by
  unfold elementContent
  cases c with
  | value nm number =>
    exact Cs.ite (fun _ => Cs.fail.le (Nat.zero_le _))
      (fun _ => (cs_elementValue hr hg hctx (by omega) hp hcur number).le (by omega))
  | external name g =>
    refine Cs.le (Cs.bind (V := fun _ => True) (a := B) (b := 0) ?_ (fun _ _ => Cs.pure trivial)) (by omega)
    unfold external
    simp only [Content.All, Grammar.All_iff] at hc
    rcases g with ⟨root, chs⟩
    simp only [Grammar.root, Grammar.channels] at hc ⊢
    simp only [contentX, grammarX] at hcX
    simp only [contentW, grammarW] at hcW
    refine Cs.bind (b := 0) (Cs.fresh (hr (max (tokenX 0 root) (channelsX 0 chs)) root _ prev cur
      ⟨hc.1, by omega, Nat.le_max_left _ _⟩ ⟨by simp, ?_, ?_⟩ hp hcur ?_)) (fun _ _ => Cs.pure trivial)
    · simp only; omega
    · intro c h
      have : channelW c ≤ channelsW chs := channelsW_mem h
      exact ⟨hc.2 c h, by omega, Nat.le_trans (channelsX_mem h) (Nat.le_max_right _ _)⟩
    · simp only [optD]
      omega
  | token t =>
    simp only [Content.All] at hc
    simp only [contentD] at hn
    simp only [contentX] at hcX
    simp only [contentW] at hcW
    exact Cs.le (Cs.bind (b := 0) (hr X t ctx prev cur ⟨hc, hcW, hcX⟩ hctx hp hcur (by omega))
      (fun _ _ => Cs.pure trivial)) (by omega)
  | everything nm ex esc =>
    obtain ⟨e1, e2, e3⟩ := content_everything_bounds 0 nm ex esc
    obtain ⟨f2, f3⟩ := content_everything_W nm ex esc
    rw [Content.All_everything] at hc
    rw [e1] at hn
    refine Cs.le (Cs.bind (b := 0) (hr X ex _ prev cur ⟨hc.1, by omega, by omega⟩ ⟨?_, by simp, by simp⟩ hp hcur ?_)
      (fun _ _ => Cs.pure trivial)) (by omega)
    · intro t ht
      simp only at ht
      subst ht
      have := e3 t rfl
      have := f3 t rfl
      exact ⟨hc.2 t rfl, by omega, by omega⟩
    · simp only
      omega
  | recursive nm => cases hflat

theorem cs_elementLoop {X : Nat} {ctx : Ctx} (hctx : CtxC w X ctx) {c : Content} (hc : c.All lineFlat)
    (hflat : (Container.element 0 none c).isRecursive = false) (hcW : contentW c ≤ w) (hcX : contentX 0 c ≤ X)
    (hn : contentD c + optD ctx.escape + X ≤ n) {max : Option Nat} (k : Nat) (st : ElState)
    (hp : st.prev.length ≤ N) (hcur : st.rem.length ≤ N) (hk : st.rem.length < k) :
    Cs T (elementLoop rec c max ctx k st) (fun st' => st'.prev.length ≤ N ∧ st'.rem.length ≤ st.rem.length)
      (k * (1 + (B + bCh N w B))) := by
  induction k generalizing st with
  | zero => omega
  | succ k ih =>
    unfold elementLoop
    refine Cs.le (Cs.bind (b := (B + bCh N w B) + k * (1 + (B + bCh N w B))) Cs.tick fun _ _ => ?_) (by rw [Nat.succ_mul k]; omega)
    refine Cs.ite (fun _ => Cs.pure' (⟨hp, Nat.le_refl _⟩)) (fun hne => ?_)
    refine Cs.ite (fun _ => Cs.pure' (⟨hp, Nat.le_refl _⟩)) (fun _ => ?_)
    have hcs : Cs T (element rec c ctx st.prev st.rem) (fun _ => True) (B + bCh N w B) := by
      unfold element
      refine Cs.ite (fun _ => Cs.fail.le (Nat.zero_le _)) (fun _ => ?_)
      refine Cs.bind (b := 0) (cs_elementContent hr hg hctx hc hflat hcW hcX hn hp hcur) ?_
      intro r _
      refine Cs.liftTm ?_
      unfold acceptContent
      cases r with
      | none => exact Tm.fail
      | some x => exact Tm.ite (fun _ => Tm.pure trivial) (fun _ => Tm.fail)
    have ha : containerAllowed Flags.any (.element 0 none c) :=
      lineAllowed_any (.mk [.element 0 none c]) _ (by simp [GLine.containers])
    refine Cs.bind (Cs.attempt (Cs.and hcs (erase_element rec c ctx st.prev st.rem) any_stk (ens_element hg (any_ctx ctx)
      (Content.All_of lineAllowed_any c) ha st.prev st.rem))) ?_
    intro r hr'
    unfold elementNext
    cases r with
    | none => exact Cs.pure' (⟨hp, Nat.le_refl _⟩)
    | some x =>
      have hlt := (hr' x rfl).2.2.2
      refine Cs.mono (ih ⟨st.list ++ [x.1], st.rem, x.2⟩ hcur ?_ ?_) (Nat.le_refl _) ?_
      · simp only; omega
      · simp only; omega
      · intro st' h
        simp only at h
        exact ⟨h.1, by omega⟩

theorem cs_composeLoop {X : Nat} {ctx : Ctx} (hctx : CtxC w X ctx) (hX : X ≤ n) {prev : Bytes} (hp : prev.length ≤ N)
    (es : List (UInt8 × Nat)) {rem : Bytes} (hrem : rem.length ≤ N) :
    Cs T (composeLoop rec ctx prev es rem) (fun _ => True) (es.length * (1 + bCh N w B)) := by
  induction es generalizing rem with
  | nil => exact Cs.pure' (trivial)
  | cons e es ih =>
    unfold composeLoop
    refine Cs.le (Cs.bind (b := bCh N w B + es.length * (1 + bCh N w B)) Cs.tick fun _ _ => ?_)
      (by rw [List.length_cons, Nat.succ_mul (List.length _)]; omega)
    refine Cs.bind (Cs.and (cs_elementValue hr hg hctx hX hp hrem e.1) (erase_elementValue rec e.1 ctx prev rem) any_stk
      (ens_elementValue hg (any_ctx ctx) e.1 prev rem)) ?_
    rintro r ⟨_, hr'⟩
    unfold composeNext
    cases r with
    | none => exact Cs.fail.le (Nat.zero_le _)
    | some x =>
      have := (hr' x rfl).1.length_le
      exact ih (by omega)

theorem cs_lineLoop {X : Nat} {ctx : Ctx} (hctx : CtxC w X ctx) {prev0 : Bytes} (hp0 : prev0.length ≤ N) (cs : List Container)
    (hcs : ∀ c ∈ cs, c.All lineFlat ∧ c.isRecursive = false ∧ containerW c ≤ w ∧ containerX 0 c ≤ X ∧
      containerD c + optD ctx.escape + X ≤ n)
    (st : LnState) (hp : st.prev.length ≤ N) (hcur : st.rem.length ≤ N) (hX : X ≤ n) :
    Cs T (lineLoop rec ctx prev0 cs st) (fun _ => True) (cs.length * (1 + bSt N w B)) := by
  induction cs generalizing st with
  | nil => exact Cs.pure' (trivial)
  | cons c cs ih =>
    unfold lineLoop
    refine Cs.le (Cs.bind (b := bSt N w B + cs.length * (1 + bSt N w B)) Cs.tick fun _ _ => ?_)
      (by rw [List.length_cons, Nat.succ_mul (List.length _)]; omega)
    have hc := hcs c (by simp)
    refine Cs.bind (V := fun st' : LnState => st'.prev.length ≤ N ∧ st'.rem.length ≤ st.rem.length) ?_ ?_
    · unfold lineStep
      cases c with
      | compose cmp =>
        simp only [containerW] at hc
        refine Cs.le (Cs.bind (b := 0) (cs_composeLoop hr hg hctx hX hp0 cmp.list hcur) (fun _ _ => Cs.fail)) ?_
        have : cmp.list.length * (1 + bCh N w B) ≤ w * (1 + bCh N w B) := Nat.mul_le_mul_right _ hc.2.2.1
        unfold bSt
        omega
      | element min max content =>
        have hflat : (Container.element 0 none content).isRecursive = false := by
          have := hc.2.1
          cases content <;> simp_all [Container.isRecursive]
        simp only [Container.All, containerD, containerX, containerW] at hc
        refine Cs.le (Cs.bind (b := 0) (cs_elementLoop hr hg hctx hc.1 hflat hc.2.2.1 hc.2.2.2.1 hc.2.2.2.2
          (max := max) (st.rem.length + 1) ⟨[], st.prev, st.rem⟩ hp hcur (by simp)) ?_) ?_
        · rintro r ⟨h1, h2⟩
          exact Cs.ite (fun _ => Cs.fail) (fun hmin => Cs.pure ⟨h1, h2⟩)
        · have : (st.rem.length + 1) * (1 + (B + bCh N w B)) ≤ bEl N w B := Nat.mul_le_mul_right _ (by omega)
          unfold bSt
          omega
    · intro st' h
      exact ih (fun c h => hcs c (by simp [h])) st' h.1 (by omega)

theorem cs_line {X : Nat} {ctx : Ctx} (hctx : CtxC w X ctx) {tok : Token} (htok : TokC w X tok)
    (hn : tokenD tok + optD ctx.escape + X ≤ n + 1) {g : GLine} (hgl : g ∈ tok.lines) (idx : Nat) {prev cur : Bytes}
    (hp : prev.length ≤ N) (hcur : cur.length ≤ N) : Cs T (line rec idx g ctx prev cur) (fun _ => True) (bLn N w B) := by
  have hX : X ≤ n := by
    have := tokenD_pos tok
    omega
  have hall := Token.All_iff.mp htok.flat g hgl
  unfold line
  refine Cs.bind (b := 0) (Cs.le (cs_lineLoop hr hg hctx hp g.containers ?_ ⟨[], prev, cur⟩ hp hcur hX) ?_) (fun _ _ => Cs.pure trivial)
  · intro c hc
    have h1 := containerD_lt hgl hc
    have h2 := containerX_le (N := 0) hgl hc
    have h3 := containerW_le hgl hc
    exact ⟨hall.2 c hc, hall.1 c hc, Nat.le_trans h3 htok.width, Nat.le_trans h2 htok.ext, by omega⟩
  · exact Nat.mul_le_mul_right _ (Nat.le_trans (containers_length_le hgl) htok.width)

theorem cs_reverseLoop {X : Nat} {ctx : Ctx} (hctx : CtxC w X ctx) {tok : Token} (htok : TokC w X tok)
    (hn : tokenD tok + optD ctx.escape + X ≤ n + 1) {g : GLine} (hgl : g ∈ tok.lines) (idx : Nat) (k : Nat) (st : RvState)
    (hp : st.prev.length ≤ N) (hcur : st.rem.length ≤ N) (hk : st.rem.length < k) :
    Cs T (reverseLoop rec idx g ctx k st) (fun _ => True) (k * (1 + (B + bLn N w B + bLn N w B))) := by
  induction k generalizing st with
  | zero => omega
  | succ k ih =>
    unfold reverseLoop
    refine Cs.le (Cs.bind (b := (B + bLn N w B) + (bLn N w B + k * (1 + (B + bLn N w B + bLn N w B)))) Cs.tick fun _ _ => ?_)
      (by rw [Nat.succ_mul k]; omega)
    refine Cs.ite (fun _ => Cs.pure' (trivial)) (fun _ => ?_)
    refine Cs.bind (V := fun st' : RvState => st'.prev.length ≤ N ∧ st'.rem.length ≤ st.rem.length) ?_ ?_
    · have hself : st.prev.length ≤ N ∧ st.rem.length ≤ st.rem.length := ⟨hp, Nat.le_refl _⟩
      unfold escapeStep
      cases he : ctx.escape with
      | none => exact Cs.pure' (hself)
      | some esc =>
        have hesc := hctx.esc esc he
        refine Cs.bind (Cs.attempt (Cs.and (hr X esc ⟨none, ctx.channels, false⟩ st.prev st.rem
          hesc ⟨by simp, hctx.len, hctx.chs⟩ hp hcur ?_) rfl any_stk
          (hg esc _ st.prev st.rem (any_tok esc) (any_ctx _)))) ?_
        · have := tokenD_pos tok
          simp only [he, optD] at hn
          simp only [optD]
          omega
        · intro r hr'
          unfold escapeLine
          cases r with
          | none => exact Cs.pure' (hself)
          | some t =>
            have ht := (hr' t rfl).2.1.length_le
            refine Cs.ite (fun _ => ?_) (fun _ => Cs.pure' (hself))
            refine Cs.bind (b := 0) (Cs.attempt (cs_line hr hg hctx htok hn hgl idx hcur (by omega))) ?_
            intro x _
            refine Cs.liftTm ?_
            unfold escapeApply
            cases x with
            | none => exact Tm.pure hself
            | some x =>
              refine Tm.ite (fun _ => ?_) (fun _ => Tm.pure hself)
              refine Tm.ite (fun _ => Tm.pure ?_) (fun _ => Tm.crash)
              refine ⟨by simp only; omega, ?_⟩
              simp only [List.length_drop]
              omega
    · intro st' h
      refine Cs.bind (Cs.attempt (cs_line hr hg hctx htok hn hgl idx h.1 (by omega))) ?_
      intro x _
      unfold reverseNext
      cases x with
      | some _ => exact Cs.pure' (trivial)
      | none =>
        cases hrem : st'.rem with
        | nil => exact Cs.crash.le (Nat.zero_le _)
        | cons b rest =>
          have hlen : st'.rem.length = rest.length + 1 := by rw [hrem]; rfl
          simp only
          apply ih
          · simp only [List.length_cons]; omega
          · simp only; omega
          · simp only; omega

theorem cs_blockLoop {X : Nat} {ctx : Ctx} (hctx : CtxC w X ctx) {tok : Token} (htok : TokC w X tok) {prev cur : Bytes}
    (hn : tokenD tok + optD ctx.escape + X ≤ n + 1) (hp : prev.length ≤ N) (hcur : cur.length ≤ N) (idx : Nat) (gs : List GLine)
    (hgs : ∀ g ∈ gs, g ∈ tok.lines) (acc : List TLine) :
    Cs T (blockLoop rec tok ctx prev cur idx gs acc) (fun r => r.2.length ≤ cur.length) (gs.length * (1 + bRv N w B)) := by
  have hLR : bLn N w B ≤ bRv N w B := by
    unfold bRv
    have : 1 * (1 + (B + bLn N w B + bLn N w B)) ≤ (N + 1) * (1 + (B + bLn N w B + bLn N w B)) := Nat.mul_le_mul_right _ (by omega)
    omega
  induction gs generalizing idx acc with
  | nil => exact Cs.pure' ((Nat.le_refl _))
  | cons g gs ih =>
    have ih' := fun idx acc => ih idx (fun g h => hgs g (by simp [h])) acc
    unfold blockLoop
    refine Cs.le (Cs.bind (b := bRv N w B + gs.length * (1 + bRv N w B)) Cs.tick fun _ _ => ?_)
      (by rw [List.length_cons, Nat.succ_mul (List.length _)]; omega)
    refine Cs.le (Cs.bind (V := fun _ => True) (a := 0) (b := bRv N w B + gs.length * (1 + bRv N w B))
      (Cs.lift fun s => ⟨by simp [alreadyTried], fun _ _ => trivial⟩) ?_) (by omega)
    intro skip _
    refine Cs.ite (fun _ => (ih' _ _).le (by omega)) (fun _ => ?_)
    refine Cs.le (Cs.bind (V := fun _ => True) (a := 0) (b := bRv N w B + gs.length * (1 + bRv N w B))
      (Cs.lift fun s => ⟨by simp [recordLine], fun _ _ => trivial⟩) ?_) (by omega)
    intro _ _
    have hgl := hgs g (by simp)
    have ha : ∀ c ∈ g.containers, c.All (lineAllowed Flags.any) ∧ containerAllowed Flags.any c :=
      fun c hc => ⟨Container.All_of lineAllowed_any c, lineAllowed_any g c hc⟩
    refine Cs.ite (fun _ => ?_) (fun _ => ?_)
    · unfold reverseLine
      refine Cs.le (Cs.bind (b := 0) (Cs.and (cs_reverseLoop hr hg hctx htok hn hgl idx (cur.length + 1) ⟨[], prev, cur⟩ hp hcur
        (Nat.lt_succ_self _)) (erase_reverseLoop rec idx g ctx _ _) any_stk (ens_reverseLoop hg (any_ctx ctx) idx ha (cur := cur) _ _
          (Acc.refl _ _))) ?_) ?_
      · rintro st ⟨_, h⟩
        exact Cs.ite (fun _ => Cs.fail) (fun _ => Cs.pure h.1.length_le)
      · have : (cur.length + 1) * (1 + (B + bLn N w B + bLn N w B)) ≤ bRv N w B := Nat.mul_le_mul_right _ (by omega)
        omega
    · refine Cs.bind (Cs.le (Cs.attempt (Cs.and (cs_line hr hg hctx htok hn hgl idx hp hcur) (erase_line rec idx g ctx prev cur) any_stk
        (ens_line hg (any_ctx ctx) idx ha prev cur))) hLR) ?_
      intro x hx
      unfold lineNext
      cases x with
      | none => exact ih' _ _
      | some x =>
        exact Cs.ite (fun _ => Cs.pure' ((hx x rfl).2.1.1.1.length_le)) (fun _ => ih' _ _)

theorem boundRec_tokenBody : BoundRec T (n + 1) N w (bTk N w B) (tokenBody rec) := by
  intro X t ctx prev cur ht hctx hp hcur hn
  have hX : X ≤ n := by
    have := tokenD_pos t
    omega
  unfold tokenBody
  unfold bTk
  refine Cs.bind Cs.tick fun _ _ => ?_
  refine Cs.le (Cs.bind (V := fun _ => True) (a := 0) (b := w * (1 + bRv N w B) + bCh N w B) ?_ ?_) (by omega)
  · refine Cs.lift fun s => ⟨?_, fun _ _ => trivial⟩
    unfold enter
    split <;> simp
  intro _ _
  refine Cs.bind (Cs.thenDelete (Cs.le (cs_blockLoop hr hg hctx ht hn hp hcur 0 t.lines (fun g h => h) [])
    (Nat.mul_le_mul_right _ (Nat.le_trans (lines_length_le t) ht.width)))) ?_
  intro r hr'
  refine Cs.ite (fun _ => Cs.fail.le (Nat.zero_le _)) (fun _ => ?_)
  exact Cs.bind (b := 0) (cs_skipChannels hr hg hctx hX hp (by omega)) (fun _ _ => Cs.pure trivial)

end

theorem mono_term {w L B a b c : Nat} (hw : 1 ≤ w) (hL : 1 ≤ L) (hB : 1 ≤ B) (ha : a ≤ 4) (hb : b ≤ 3) (hc : c ≤ 1) :
    w ^ a * L ^ b * B ^ c ≤ w ^ 4 * L ^ 3 * B := by
  have h1 : w ^ a ≤ w ^ 4 := Nat.pow_le_pow_right hw ha
  have h2 : L ^ b ≤ L ^ 3 := Nat.pow_le_pow_right hL hb
  have h3 : B ^ c ≤ B ^ 1 := Nat.pow_le_pow_right hB hc
  rw [Nat.pow_one] at h3
  exact Nat.mul_le_mul (Nat.mul_le_mul h1 h2) h3

/-- The factor by which a level of nesting multiplies the steps. -/
def factor (w N : Nat) : Nat := 37 * w ^ 4 * (N + 1) ^ 3

theorem bTk_le {N w B : Nat} (hw : 1 ≤ w) (hB : 1 ≤ B) : bTk N w B ≤ factor w N * B := by
  unfold bTk bRv bLn bSt bEl bCh factor
  have hL : 1 ≤ N + 1 := by omega
  generalize N + 1 = L at *
  have t := fun a b c (ha : a ≤ 4) (hb : b ≤ 3) (hc : c ≤ 1) => mono_term (a := a) (b := b) (c := c) hw hL hB ha hb hc
  have e : 1 + (w * (1 + L * (1 + (B + w * (1 + (L * (1 + (B + L * (w * (3 * B + 1) + 1))) + w * (1 + L * (w * (3 * B + 1) + 1))))
      + w * (1 + (L * (1 + (B + L * (w * (3 * B + 1) + 1))) + w * (1 + L * (w * (3 * B + 1) + 1)))))))
      + L * (w * (3 * B + 1) + 1)) =
      1 * (w ^ 0 * L ^ 0 * B ^ 0) + 1 * (w ^ 0 * L ^ 1 * B ^ 0) + 1 * (w ^ 1 * L ^ 0 * B ^ 0) + 2 * (w ^ 1 * L ^ 1 * B ^ 0)
      + 4 * (w ^ 1 * L ^ 1 * B ^ 1) + 2 * (w ^ 2 * L ^ 1 * B ^ 0) + 2 * (w ^ 2 * L ^ 2 * B ^ 0) + 2 * (w ^ 2 * L ^ 2 * B ^ 1)
      + 2 * (w ^ 2 * L ^ 3 * B ^ 0) + 2 * (w ^ 3 * L ^ 1 * B ^ 0) + 2 * (w ^ 3 * L ^ 2 * B ^ 0) + 2 * (w ^ 3 * L ^ 3 * B ^ 0)
      + 6 * (w ^ 3 * L ^ 3 * B ^ 1) + 2 * (w ^ 4 * L ^ 2 * B ^ 0) + 6 * (w ^ 4 * L ^ 2 * B ^ 1) := by ring
  rw [e]
  have h0 := t 0 0 0 (by omega) (by omega) (by omega)
  have h1 := t 0 1 0 (by omega) (by omega) (by omega)
  have h2 := t 1 0 0 (by omega) (by omega) (by omega)
  have h3 := t 1 1 0 (by omega) (by omega) (by omega)
  have h4 := t 1 1 1 (by omega) (by omega) (by omega)
  have h5 := t 2 1 0 (by omega) (by omega) (by omega)
  have h6 := t 2 2 0 (by omega) (by omega) (by omega)
  have h7 := t 2 2 1 (by omega) (by omega) (by omega)
  have h8 := t 2 3 0 (by omega) (by omega) (by omega)
  have h9 := t 3 1 0 (by omega) (by omega) (by omega)
  have h10 := t 3 2 0 (by omega) (by omega) (by omega)
  have h11 := t 3 3 0 (by omega) (by omega) (by omega)
  have h12 := t 3 3 1 (by omega) (by omega) (by omega)
  have h13 := t 4 2 0 (by omega) (by omega) (by omega)
  have h14 := t 4 2 1 (by omega) (by omega) (by omega)
  have e2 : 37 * w ^ 4 * L ^ 3 * B = 37 * (w ^ 4 * L ^ 3 * B) := by ring
  rw [e2]
  omega

theorem token_bound {w : Nat} (hw : 1 ≤ w) (N m : Nat) : ∀ n, BoundRec (n ≤ m) n N w (factor w N ^ n) (token m) := by
  have hf : 1 ≤ factor w N := by
    unfold factor
    have h1 : 1 ≤ w ^ 4 := Nat.one_le_pow _ _ hw
    have h2 : 1 ≤ (N + 1) ^ 3 := Nat.one_le_pow _ _ (by omega)
    calc 1 ≤ 37 * 1 * 1 := by omega
      _ ≤ 37 * w ^ 4 * (N + 1) ^ 3 := Nat.mul_le_mul (Nat.mul_le_mul_left _ h1) h2
  induction m with
  | zero =>
    intro n X t ctx prev cur _ _ _ _ h
    have := tokenD_pos t
    exact fun s => ⟨fun hn => by omega, Nat.zero_le _, nofun⟩
  | succ m ih =>
    intro n
    cases n with
    | zero =>
      intro X t ctx prev cur _ _ _ _ h
      have := tokenD_pos t
      omega
    | succ n =>
      have hg : GoodRec Flags.any (eraseRec (token m)) := by
        rw [erase_token]
        exact token_good Flags.any m
      intro X t ctx prev cur h1 h2 h3 h4 h5
      have hb : BoundRec (n + 1 ≤ m + 1) n N w (factor w N ^ n) (token m) :=
        fun X t ctx prev cur h1 h2 h3 h4 h5 s =>
          ⟨fun hn => (ih n X t ctx prev cur h1 h2 h3 h4 h5 s).1 (by omega), (ih n X t ctx prev cur h1 h2 h3 h4 h5 s).2⟩
      refine (boundRec_tokenBody hb hg X t ctx prev cur h1 h2 h3 h4 h5).le ?_
      rw [Nat.pow_succ, Nat.mul_comm]
      exact bTk_le hw (Nat.one_le_pow _ _ hf)

/-- Grammars without references by name: nesting and steps. -/
theorem steps_le {g : Grammar} (hg : g.All lineFlat) (input : Bytes) (n : Nat) :
    (grammarX 0 g ≤ n → execute n g input ≠ .oof) ∧
    steps n g input ≤ factor (max 1 (grammarW g)) input.length ^ grammarX 0 g := by
  rcases g with ⟨root, chs⟩
  rw [Grammar.All_iff] at hg
  simp only [Grammar.root, Grammar.channels] at hg
  have hW : grammarW (.mk root chs) ≤ max 1 (grammarW (.mk root chs)) := Nat.le_max_right _ _
  generalize hw : max 1 (grammarW (.mk root chs)) = w at *
  simp only [grammarW] at hW
  have h1 : 1 ≤ w := by omega
  have := token_bound h1 input.length n (grammarX 0 (.mk root chs)) (max (tokenX 0 root) (channelsX 0 chs)) root ⟨none, chs, false⟩ []
    input ⟨hg.1, by omega, Nat.le_max_left _ _⟩ ⟨by simp, by simp only; omega, ?_⟩ (Nat.zero_le _) (Nat.le_refl _) ?_ []
  · refine ⟨fun hn => ?_, this.2.1⟩
    rw [← erase_execute]
    exact this.1 hn
  · intro c hc
    have := channelsW_mem hc
    simp only at this
    exact ⟨hg.2 c hc, by omega, Nat.le_trans (channelsX_mem hc) (Nat.le_max_right _ _)⟩
  · simp only [grammarX, optD]
    omega

end Cost
end Rodkina.Ast
