import Verif.AstTerm

/-!
# Termination with a left-recursive first alternative

Besides guarded lines, the first line of a token may begin with a reference to that token itself.
-/

namespace Rodkina.Ast

open M

/-! ## The grammars -/

/-- The line begins with a reference to this name, and is otherwise guarded. -/
def leftLine (name : String) (g : GLine) : Prop :=
  ∃ min max cs, g.containers = .element min max (.recursive name) :: cs ∧ guardedFrom (decide (1 ≤ min ∧ min < 2 ^ 63)) cs

/-- The tokens named in a container are in the set, its external grammars are guarded, and no escape is used. -/
def partIn (S : Token → Prop) : Container → Prop
  | .compose _ => True
  | .element _ _ (.value _ _) => True
  | .element _ _ (.external _ g) => g.All lineGuarded
  | .element _ _ (.token t) => S t
  | .element _ _ (.everything _ ex none) => S ex
  | .element _ _ (.everything _ _ (some _)) => False
  | .element _ _ (.recursive _) => True

/-- A set of tokens closed under the tokens their lines mention, in which a name stands for one token, every line is guarded, and a first
line may instead begin with a reference to its own token. -/
structure LeftSet (S : Token → Prop) : Prop where
  names : ∀ t u, S t → S u → t.name = u.name → t = u
  lines : ∀ t, S t → ∀ i g, t.lines[i]? = some g → lineGuarded g ∨ (i = 0 ∧ leftLine t.name g)
  parts : ∀ t, S t → ∀ g ∈ t.lines, ∀ c ∈ g.containers, partIn S c

/-! ## Channels, whatever the invariant -/

section
variable {n N : Nat} {rec : Rec} {I : Stk → Prop} (hr : TermRec n rec) (hg : GoodRec Flags.any rec)

include hr hg

theorem tl_plain {t : Token} (ht : t.All lineGuarded) {prev cur : Bytes}
    (hp : prev.length ≤ N) (hcur : cur.length ≤ N) (hn : plainX N t ≤ n) :
    Tm I (fresh (rec t Ctx.plain prev cur)) (fun r => GoodTree Flags.any cur r) := by
  refine Tm.fresh (J := StkAll (TokT N (tokenD t) (tokenX N t))) (stkAll_nil _) ?_
  refine Tm.weaken (Tm.and (hr N (tokenD t) (tokenX N t) t Ctx.plain prev cur
    ⟨ht, Nat.le_refl _, Nat.le_refl _⟩ ⟨by simp [Ctx.plain], by simp [Ctx.plain]⟩ hp hcur ?_)
    any_stk (hg t Ctx.plain prev cur (any_tok t) (any_ctx _))) (fun a h => h.2)
  have : cur.length * tokenD t ≤ N * tokenD t := Nat.mul_le_mul_right _ hcur
  simp only [plainX] at hn
  simp only [Ctx.plain, optD]
  omega

theorem tl_condMatch {o : Option Token} (ho : optAll lineGuarded o) {data : Bytes}
    (hd : data.length ≤ N) (hn : ∀ t, o = some t → plainX N t ≤ n) :
    Tm I (condMatch rec o data) (fun _ => True) := by
  unfold condMatch
  cases o with
  | none => exact Tm.pure trivial
  | some t =>
    exact Tm.bind (tl_plain hr hg (ho t rfl) (Nat.zero_le _) hd (hn t rfl))
      (fun _ _ => Tm.pure trivial)

theorem tl_channel {c : Channel} (hc : c.All lineGuarded) (hX : channelX N c ≤ n)
    {prev cur : Bytes} (hp : prev.length ≤ N) (hcur : cur.length ≤ N) :
    Tm I (channel rec c prev cur) (fun _ => True) := by
  obtain ⟨h1, h2, h3⟩ := channelX_parts N c
  rw [Channel.All_iff] at hc
  unfold channel
  refine Tm.bind (tl_plain hr hg hc.1 hp hcur (by omega)) ?_
  intro t ht
  refine Tm.bind (V := fun _ => True) ?_ (fun _ _ => Tm.pure trivial)
  unfold channelCondition
  have hrem : t.remaining.length ≤ N := Nat.le_trans ht.1.length_le hcur
  refine Tm.bind (tl_condMatch hr hg hc.2.1 hp (fun t ht => Nat.le_trans (h2 t ht) hX)) ?_
  intro _ _
  refine Tm.bind (tl_condMatch hr hg hc.2.2 hrem (fun t ht => Nat.le_trans (h3 t ht) hX)) ?_
  intro _ _
  exact Tm.pure trivial

theorem tl_channelRound {chs : List Channel}
    (hc : ∀ c ∈ chs, c.All lineGuarded ∧ channelX N c ≤ n) (st : ChState)
    (hp : st.prev.length ≤ N) (hcur : st.rem.length ≤ N) :
    Tm I (channelRound rec chs st)
      (fun st' => st'.prev.length ≤ N ∧ st'.rem.length ≤ N) := by
  induction chs generalizing st with
  | nil => exact Tm.pure ⟨hp, hcur⟩
  | cons c cs ih =>
    unfold channelRound
    have hc' := hc c (by simp)
    refine Tm.bind (Tm.attempt (tl_channel hr hg hc'.1 hc'.2 hp hcur)) ?_
    intro r _
    refine Tm.bind (V := fun st' : ChState => st'.prev.length ≤ N ∧ st'.rem.length ≤ N) ?_ ?_
    · unfold channelApply
      split
      · unfold sliceFrom
        refine Tm.bind (V := fun rem : Bytes => rem.length ≤ N) ?_ ?_
        · refine Tm.ite (fun _ => Tm.pure ?_) (fun _ => Tm.crash)
          simp; omega
        · intro rem hrem
          exact Tm.ite (fun _ => Tm.pure ⟨hp, hcur⟩) (fun _ => Tm.pure ⟨hcur, hrem⟩)
      · exact Tm.pure ⟨hp, hcur⟩
    · intro st' hst'
      exact ih (fun c h => hc c (by simp [h])) st' hst'.1 hst'.2

theorem tl_channelLoop {chs : List Channel}
    (hc : ∀ c ∈ chs, c.All lineGuarded ∧ channelX N c ≤ n) {cur : Bytes} (k : Nat) (st : ChState)
    (hp : st.prev.length ≤ N) (hcur : st.rem.length ≤ N) (hk : st.rem.length < k)
    (hok : ChOK Flags.any cur st) :
    Tm I (channelLoop rec chs k st) (fun _ => True) := by
  induction k generalizing st with
  | zero => omega
  | succ k ih =>
    unfold channelLoop
    refine Tm.bind (Tm.and (tl_channelRound hr hg hc st hp hcur) any_stk
      (ens_channelRound hg chs (fun c _ => Channel.All_of lineAllowed_any c) st hok)) ?_
    rintro st' ⟨⟨h1, h2⟩, h3, h4, h5⟩
    refine Tm.ite (fun _ => Tm.pure trivial) (fun hne => ?_)
    exact ih st' h1 h2 (by omega) h3

theorem tl_skipChannels {ctx : Ctx} (hc : ∀ c ∈ ctx.channels, c.All lineGuarded ∧ channelX N c ≤ n) {prev cur : Bytes}
    (hp : prev.length ≤ N) (hcur : cur.length ≤ N) :
    Tm I (skipChannels rec ctx.channels prev cur) (fun _ => True) := by
  unfold skipChannels
  refine Tm.ite (fun _ => Tm.pure trivial) (fun _ => ?_)
  refine Tm.bind (Tm.attempt (V := fun _ => True) ?_) (fun _ _ => Tm.pure trivial)
  unfold channels
  refine Tm.bind (tl_channelLoop hr hg hc (cur := cur) _ _ hp hcur (by simp)
    ⟨Acc.refl _ _, by simp⟩) ?_
  intro st _
  exact Tm.ite (fun _ => Tm.fail) (fun _ => Tm.pure trivial)

theorem tl_elementValue {ctx : Ctx} (hc : ∀ c ∈ ctx.channels, c.All lineGuarded ∧ channelX N c ≤ n) {prev cur : Bytes}
    (hp : prev.length ≤ N) (hcur : cur.length ≤ N) (number : UInt8) :
    Tm I (elementValue rec number ctx prev cur) (fun _ => True) := by
  unfold elementValue
  refine Tm.bind (tl_skipChannels hr hg hc hp hcur) ?_
  intro r _
  unfold matchByte
  cases r.2 with
  | nil => exact Tm.fail
  | cons b rest => exact Tm.ite (fun _ => Tm.pure trivial) (fun _ => Tm.pure trivial)

theorem tl_composeLoop {ctx : Ctx} (hc : ∀ c ∈ ctx.channels, c.All lineGuarded ∧ channelX N c ≤ n) {prev : Bytes}
    (hp : prev.length ≤ N) (es : List (UInt8 × Nat)) {rem : Bytes} (hrem : rem.length ≤ N) :
    Tm I (composeLoop rec ctx prev es rem) (fun _ => True) := by
  induction es generalizing rem with
  | nil => exact Tm.pure trivial
  | cons e es ih =>
    unfold composeLoop
    refine Tm.bind (Tm.and (tl_elementValue hr hg hc hp hrem e.1) any_stk
      (ens_elementValue hg (any_ctx ctx) e.1 prev rem)) ?_
    rintro r ⟨_, hr'⟩
    unfold composeNext
    cases r with
    | none => exact Tm.fail
    | some x =>
      have := (hr' x rfl).1.length_le
      exact ih (by omega)

end

/-! ## From one map -/

/-- From this map the computation keeps `I` and does not run out of fuel. -/
def Ts {α : Type} (I : Stk → Prop) (s : Stk) (m : M α) (V : α → Prop) : Prop :=
  I (m s).2 ∧ (m s).1 ≠ .oof ∧ (∀ a, (m s).1 = .ok a → V a)

namespace Ts

variable {α β : Type} {I : Stk → Prop} {s : Stk}

theorem bind {m : M α} {f : α → M β} {V : α → Prop} {W : β → Prop}
    (hm : Ts I s m V) (hf : ∀ a, V a → Tm I (f a) W) : Ts I s (m >>= f) W := by
  obtain ⟨h1, h2, h3⟩ := hm
  unfold Ts
  rw [bind_apply]
  generalize m s = r at *
  obtain ⟨o, s'⟩ := r
  cases o with
  | ok a => exact hf a (h3 a rfl) s' h1
  | err => exact ⟨h1, by simp, by simp⟩
  | panic => exact ⟨h1, by simp, by simp⟩
  | oof => exact absurd rfl h2

theorem weaken {m : M α} {V W : α → Prop} (hm : Ts I s m V) (h : ∀ a, V a → W a) : Ts I s m W :=
  ⟨hm.1, hm.2.1, fun a ha => h a (hm.2.2 a ha)⟩

theorem attempt {m : M α} {V : α → Prop} (hm : Ts I s m V) : Ts I s (attempt m) (fun r => ∀ a, r = some a → V a) := by
  obtain ⟨h1, h2, h3⟩ := hm
  unfold Ts M.attempt
  generalize m s = r at *
  obtain ⟨o, s'⟩ := r
  cases o with
  | ok a =>
    refine ⟨h1, by simp, ?_⟩
    intro b hb c hc
    simp at hb
    subst hb
    simp at hc
    exact hc ▸ h3 a rfl
  | err => exact ⟨h1, by simp, by simp⟩
  | panic => exact ⟨h1, by simp, by simp⟩
  | oof => exact absurd rfl h2

theorem and {J : Stk → Prop} {pan : Prop} {m : M α} {V W : α → Prop} (h1 : Ts I s m V)
    (hJ : ∀ s, J s) (h2 : Ens J pan m W) : Ts I s m (fun a => V a ∧ W a) :=
  ⟨h1.1, h1.2.1, fun a ha => ⟨h1.2.2 a ha, (h2 s (hJ s)).2.1 a ha⟩⟩

theorem ite {c : Prop} [Decidable c] {m m' : M α} {V : α → Prop} (h1 : c → Ts I s m V)
    (h2 : ¬ c → Ts I s m' V) : Ts I s (if c then m else m') V := by
  split
  · exact h1 ‹_›
  · exact h2 ‹_›

end Ts

/-! ## The argument -/

/-- A token of the set, with its nesting within the bounds. -/
structure TokL (S : Token → Prop) (N K X : Nat) (t : Token) : Prop where
  mem : S t
  depth : tokenD t ≤ K
  ext : tokenX N t ≤ X

/-- Parameters within the bounds; no escape. -/
structure CtxL (N X : Nat) (ctx : Ctx) : Prop where
  esc : ctx.escape = none
  chs : ∀ c ∈ ctx.channels, c.All lineGuarded ∧ channelX N c ≤ X

/-- The map: tokens of the set under their own names. -/
def JI (S : Token → Prop) (N K X : Nat) (s : Stk) : Prop := ∀ k e, (k, e) ∈ s → e.token.name = k ∧ TokL S N K X e.token

/-- The first line of the token is recorded as started on these bytes. -/
def Recorded (t : Token) (cur : Bytes) (s : Stk) : Prop := ∃ e, s.get t.name = some e ∧ e.lines.lookup 0 = some cur

/-- Twice the measure, less one when the first line is recorded. -/
def TermL (S : Token → Prop) (n : Nat) (rec : Rec) : Prop :=
  ∀ (N K X : Nat) (t : Token) (ctx : Ctx) (prev cur : Bytes),
    TokL S N K X t → CtxL N X ctx → prev.length ≤ N → cur.length ≤ N →
    (2 * (cur.length * K + tokenD t + X) ≤ n → Tm (JI S N K X) (rec t ctx prev cur) (fun _ => True)) ∧
    (2 * (cur.length * K + tokenD t + X) ≤ n + 1 → ∀ s, JI S N K X s → Recorded t cur s →
      Ts (JI S N K X) s (rec t ctx prev cur) (fun _ => True))

theorem guardedFrom_true (cs : List Container) : guardedFrom true cs := by
  induction cs with
  | nil => trivial
  | cons c cs ih => exact ⟨fun _ => rfl, by simpa using ih⟩

section
variable {S : Token → Prop} {N K X : Nat} {s : Stk}

theorem ji_nil : JI S N K X [] := by intro k e h; simp at h

theorem ji_del (h : JI S N K X s) (k : String) : JI S N K X (s.del k) := fun k' e he => h k' e (List.mem_filter.mp he).1

theorem ji_put (h : JI S N K X s) {k : String} {e : Entry} (hn : e.token.name = k) (he : TokL S N K X e.token) :
    JI S N K X (s.put k e) := by
  intro k' e' he'
  rcases List.mem_cons.mp he' with h' | h'
  · cases h'; exact ⟨hn, he⟩
  · exact ji_del h k k' e' h'

theorem ji_get (h : JI S N K X s) {k : String} {e : Entry} (he : s.get k = some e) : e.token.name = k ∧ TokL S N K X e.token :=
  h k e (get_mem he)

theorem ji_enter {tok : Token} (ht : TokL S N K X tok) (h : JI S N K X s) : JI S N K X (enter tok s).2 := by
  unfold enter
  split
  · exact h
  · exact ji_put h rfl ht

theorem ji_record {tok : Token} {idx : Nat} {cur : Bytes} (ht : TokL S N K X tok) (h : JI S N K X s) :
    JI S N K X (recordLine tok idx cur s).2 := by
  unfold recordLine
  cases hg : s.get tok.name with
  | none => exact ji_put h rfl ht
  | some e => exact ji_put h (ji_get h hg).1 (ji_get h hg).2

theorem get_put (s : Stk) (k : String) (e : Entry) : (s.put k e).get k = some e := by simp [Stk.put, Stk.get]

/-- After recording the first line, its own name leads back to the token, and the line is recorded. -/
theorem record_self (hS : LeftSet S) {tok : Token} {cur : Bytes} (ht : TokL S N K X tok) (h : JI S N K X s) :
    Recorded tok cur (recordLine tok 0 cur s).2 ∧
    recursiveToken tok.name (recordLine tok 0 cur s).2 = (.ok tok, (recordLine tok 0 cur s).2) := by
  unfold recordLine
  cases hg : s.get tok.name with
  | none =>
    refine ⟨⟨_, get_put _ _ _, by simp⟩, ?_⟩
    simp only [recursiveToken, get_put, Option.getD_none]
  | some e =>
    obtain ⟨h1, h2⟩ := ji_get h hg
    have : e.token = tok := hS.names _ _ h2.mem ht.mem h1
    refine ⟨⟨_, get_put _ _ _, by simp⟩, ?_⟩
    simp only [recursiveToken, get_put, Option.getD_some, this]

theorem enter_recorded {tok : Token} {cur : Bytes} (h : Recorded tok cur s) : (enter tok s).2 = s := by
  obtain ⟨e, he, _⟩ := h
  simp [enter, he]

theorem tried_recorded {tok : Token} {cur : Bytes} (h : Recorded tok cur s) : alreadyTried tok 0 cur s = (.ok true, s) := by
  obtain ⟨e, he, hl⟩ := h
  simp [alreadyTried, he, hl]

end

section
variable {S : Token → Prop} {n N K X : Nat} {rec : Rec} (hS : LeftSet S) (hl : TermL S n rec) (hr : TermRec n rec)
  (hg : GoodRec Flags.any rec)

include hS hl hr hg

theorem tj_elementContent {ctx : Ctx} (hctx : CtxL N X ctx) {L : Nat} {c : Content}
    (hc : partIn S (.element 0 none c)) (hcK : contentD c + 1 ≤ K) (hcX : contentX N c ≤ X)
    (hn : 2 * (L * K + contentD c + X) ≤ n) {prev cur : Bytes}
    (hp : prev.length ≤ N) (hcur : cur.length ≤ N) (hL : cur.length ≤ L)
    (hrec : (Container.element 0 none c).isRecursive = true → cur.length < L) :
    Tm (JI S N K X) (elementContent rec c ctx prev cur) (fun _ => True) := by
  have hmul : cur.length * K ≤ L * K := Nat.mul_le_mul_right _ hL
  unfold elementContent
  have hchs : ∀ c ∈ ctx.channels, c.All lineGuarded ∧ channelX N c ≤ n := fun c h => ⟨(hctx.chs c h).1, by
    have := (hctx.chs c h).2
    omega⟩
  cases c with
  | value nm number =>
    exact Tm.ite (fun _ => Tm.fail)
      (fun _ => tl_elementValue hr hg hchs hp hcur number)
  | external name g =>
    refine Tm.bind (V := fun _ => True) ?_ (fun _ _ => Tm.pure trivial)
    unfold external
    simp only [partIn, Grammar.All_iff] at hc
    rcases g with ⟨root, chs⟩
    simp only [Grammar.root, Grammar.channels] at hc ⊢
    simp only [contentX, grammarX] at hcX
    refine Tm.bind (Tm.fresh (J := StkAll (TokT N (tokenD root) (max (tokenX N root)
      (channelsX N chs)))) (stkAll_nil _) (hr N (tokenD root) (max (tokenX N root)
      (channelsX N chs)) root _ prev cur ⟨hc.1, Nat.le_refl _, Nat.le_max_left _ _⟩
      ⟨by simp, ?_⟩ hp hcur ?_)) (fun _ _ => Tm.pure trivial)
    · intro c h
      exact ⟨hc.2 c h, Nat.le_trans (channelsX_mem h) (Nat.le_max_right _ _)⟩
    · have : cur.length * tokenD root ≤ N * tokenD root := Nat.mul_le_mul_right _ hcur
      simp only [optD]
      omega
  | token t =>
    simp only [partIn] at hc
    simp only [contentD] at hcK hn
    simp only [contentX] at hcX
    exact Tm.bind ((hl N K X t ctx prev cur ⟨hc, by omega, hcX⟩ hctx hp hcur).1 (by omega))
      (fun _ _ => Tm.pure trivial)
  | everything nm ex esc =>
    cases esc with
    | some _ => exact absurd hc (by simp [partIn])
    | none =>
      simp only [partIn] at hc
      simp only [contentD] at hcK hn
      simp only [contentX] at hcX
      exact Tm.bind ((hl N K X ex _ prev cur ⟨hc, by omega, hcX⟩ ⟨rfl, by simp⟩ hp hcur).1 (by omega))
        (fun _ _ => Tm.pure trivial)
  | recursive nm =>
    have hlt := hrec rfl
    refine Tm.bind (V := TokL S N K X) ?_ ?_
    · intro s hs
      unfold recursiveToken
      split
      · rename_i e he
        exact ⟨hs, by simp, by intro a ha; simp at ha; exact ha ▸ (ji_get hs he).2⟩
      · exact ⟨hs, by simp, by simp⟩
    · intro tok htok
      refine Tm.bind ((hl N K X tok ctx prev cur htok hctx hp hcur).1 ?_) (fun _ _ => Tm.pure trivial)
      have h1 : (cur.length + 1) * K ≤ L * K := Nat.mul_le_mul_right _ hlt
      have h2 : (cur.length + 1) * K = cur.length * K + K := Nat.succ_mul _ _
      have := htok.depth
      simp only [contentD] at hn
      omega

theorem tj_elementLoop {ctx : Ctx} (hctx : CtxL N X ctx) {L : Nat} {c : Content}
    (hc : partIn S (.element 0 none c)) (hcK : contentD c + 1 ≤ K) (hcX : contentX N c ≤ X)
    (hn : 2 * (L * K + contentD c + X) ≤ n) {max : Option Nat} (k : Nat) (st : ElState)
    (hp : st.prev.length ≤ N) (hcur : st.rem.length ≤ N) (hL : st.rem.length ≤ L)
    (hrec : (Container.element 0 none c).isRecursive = true → st.rem.length < L)
    (hk : st.rem.length < k) :
    Tm (JI S N K X) (elementLoop rec c max ctx k st)
      (fun st' => st'.prev.length ≤ N ∧ st'.rem.length ≤ st.rem.length) := by
  induction k generalizing st with
  | zero => omega
  | succ k ih =>
    unfold elementLoop
    refine Tm.ite (fun _ => Tm.pure ⟨hp, Nat.le_refl _⟩) (fun hne => ?_)
    refine Tm.ite (fun _ => Tm.pure ⟨hp, Nat.le_refl _⟩) (fun _ => ?_)
    have htm : Tm (JI S N K X) (element rec c ctx st.prev st.rem) (fun _ => True) := by
      unfold element
      refine Tm.ite (fun _ => Tm.fail) (fun _ => ?_)
      refine Tm.bind (tj_elementContent hS hl hr hg hctx hc hcK hcX hn hp hcur hL hrec) ?_
      intro r _
      unfold acceptContent
      cases r with
      | none => exact Tm.fail
      | some x => exact Tm.ite (fun _ => Tm.pure trivial) (fun _ => Tm.fail)
    have ha : containerAllowed Flags.any (.element 0 none c) :=
      lineAllowed_any (.mk [.element 0 none c]) _ (by simp [GLine.containers])
    refine Tm.bind (Tm.attempt (Tm.and htm any_stk (ens_element hg (any_ctx ctx)
      (Content.All_of lineAllowed_any c) ha st.prev st.rem))) ?_
    intro r hr'
    unfold elementNext
    cases r with
    | none => exact Tm.pure ⟨hp, Nat.le_refl _⟩
    | some x =>
      have hlt := (hr' x rfl).2.2.2
      refine Tm.weaken (ih ⟨st.list ++ [x.1], st.rem, x.2⟩ hcur ?_ ?_ ?_ ?_) ?_
      · simp only; omega
      · simp only; omega
      · intro h; simp only; omega
      · simp only; omega
      · intro st' h
        simp only at h
        exact ⟨h.1, by omega⟩

theorem tj_lineLoop {ctx : Ctx} (hctx : CtxL N X ctx) {L : Nat} {prev0 : Bytes}
    (hp0 : prev0.length ≤ N) (cs : List Container)
    (hcs : ∀ c ∈ cs, partIn S c ∧ containerD c + 1 ≤ K ∧ containerX N c ≤ X ∧
      2 * (L * K + containerD c + X) ≤ n)
    (seen : Bool) (hgd : guardedFrom seen cs) (st : LnState) (hp : st.prev.length ≤ N)
    (hcur : st.rem.length ≤ N) (hL : st.rem.length ≤ L)
    (hseen : seen = true → st.rem.length < L) (hX : 2 * X ≤ n) :
    Tm (JI S N K X) (lineLoop rec ctx prev0 cs st) (fun _ => True) := by
  induction cs generalizing seen st with
  | nil => exact Tm.pure trivial
  | cons c cs ih =>
    obtain ⟨hg1, hg2⟩ := hgd
    unfold lineLoop
    have hc := hcs c (by simp)
    refine Tm.bind (V := fun st' : LnState => st'.prev.length ≤ N ∧ st'.rem.length ≤ st.rem.length ∧
      (c.mustOccur = true → st'.rem.length < st.rem.length)) ?_ ?_
    · unfold lineStep
      cases c with
      | compose cmp =>
        exact Tm.bind (tl_composeLoop hr hg (fun c h => ⟨(hctx.chs c h).1, by
          have := (hctx.chs c h).2
          omega⟩) hp0 cmp.list hcur) (fun _ _ => Tm.fail)
      | element min max content =>
        have hrec : (Container.element 0 none content).isRecursive = true → st.rem.length < L := by
          intro h
          apply hseen
          apply hg1
          cases content <;> simp_all [Container.isRecursive]
        have ha : containerAllowed Flags.any (.element 0 max content) :=
          lineAllowed_any (.mk [.element 0 max content]) _ (by simp [GLine.containers])
        simp only [containerD, containerX] at hc
        have hpart : partIn S (.element 0 none content) := by
          have := hc.1
          cases content with
          | everything nm ex esc => cases esc <;> exact this
          | _ => exact this
        refine Tm.bind (Tm.and (tj_elementLoop hS hl hr hg hctx hpart hc.2.1 hc.2.2.1 hc.2.2.2
          (max := max) (st.rem.length + 1) ⟨[], st.prev, st.rem⟩ hp hcur hL hrec (by simp)) any_stk
          (ens_elementLoop hg (any_ctx ctx) (Content.All_of lineAllowed_any content) ha
            (cur := st.rem) (st.rem.length + 1) ⟨[], st.prev, st.rem⟩ ⟨Acc.refl _ _, by simp⟩)) ?_
        rintro r ⟨⟨h1, h2⟩, h3⟩
        refine Tm.ite (fun _ => Tm.fail) (fun hmin => Tm.pure ⟨h1, h2, ?_⟩)
        intro hmust
        apply h3.2
        intro hnil
        simp only [Container.mustOccur, decide_eq_true_eq] at hmust
        simp only [hnil, List.length_nil, goMin] at hmin
        rw [if_pos hmust.2] at hmin
        omega
    · intro st' h
      refine ih (fun c h => hcs c (by simp [h])) _ hg2 st' h.1 (by omega) (by omega) ?_
      intro hs
      rcases Bool.or_eq_true _ _ ▸ hs with h' | h'
      · have := hseen h'; omega
      · have := h.2.2 h'; omega

theorem line_parts {L : Nat} {tok : Token} (htok : TokL S N K X tok) (hn : 2 * (L * K + tokenD tok + X) ≤ n + 2) {g : GLine}
    (hgl : g ∈ tok.lines) : ∀ c ∈ g.containers, partIn S c ∧ containerD c + 1 ≤ K ∧ containerX N c ≤ X ∧
      2 * (L * K + containerD c + X) ≤ n := by
  intro c hc
  have h1 := containerD_lt hgl hc
  have h2 := containerX_le (N := N) hgl hc
  exact ⟨hS.parts tok htok.mem g hgl c hc, Nat.le_trans h1 htok.depth, Nat.le_trans h2 htok.ext, by omega⟩

theorem tj_line {ctx : Ctx} (hctx : CtxL N X ctx) {L : Nat} {tok : Token}
    (htok : TokL S N K X tok) (hn : 2 * (L * K + tokenD tok + X) ≤ n + 2) {g : GLine}
    (hgl : g ∈ tok.lines) (seen : Bool) (hgd : guardedFrom seen g.containers) (idx : Nat) {prev cur : Bytes}
    (hp : prev.length ≤ N) (hcur : cur.length ≤ N) (hL : cur.length ≤ L) (hseen : seen = true → cur.length < L) :
    Tm (JI S N K X) (line rec idx g ctx prev cur) (fun _ => True) := by
  have hX : 2 * X ≤ n := by
    have := tokenD_pos tok
    omega
  unfold line
  exact Tm.bind (tj_lineLoop hS hl hr hg hctx (L := L) hp g.containers (line_parts hS hl hr hg htok hn hgl) seen hgd ⟨[], prev, cur⟩ hp
    hcur hL hseen hX) (fun _ _ => Tm.pure trivial)

/-- The first line, when it begins with a reference to its own token, from a map where it is recorded. -/
theorem ts_left {ctx : Ctx} (hctx : CtxL N X ctx) {tok : Token} (htok : TokL S N K X tok) {g : GLine} (hgl : g ∈ tok.lines)
    (hleft : leftLine tok.name g) (idx : Nat) {prev cur : Bytes} (hn : 2 * (cur.length * K + tokenD tok + X) ≤ n + 1)
    (hp : prev.length ≤ N) (hcur : cur.length ≤ N) {s : Stk} (hs : JI S N K X s) (hrec : Recorded tok cur s)
    (hself : recursiveToken tok.name s = (.ok tok, s)) :
    Ts (JI S N K X) s (line rec idx g ctx prev cur) (fun _ => True) := by
  have hX : 2 * X ≤ n := by
    have := tokenD_pos tok
    omega
  have hparts := line_parts (L := cur.length) hS hl hr hg htok (by omega) hgl
  obtain ⟨min, max, cs, hcs, hgd⟩ := hleft
  have ha : containerAllowed Flags.any (.element 0 max (.recursive tok.name)) :=
    lineAllowed_any (.mk [.element 0 max (.recursive tok.name)]) _ (by simp [GLine.containers])
  have ha' : containerAllowed Flags.any (.element 0 none (.recursive tok.name)) :=
    lineAllowed_any (.mk [.element 0 none (.recursive tok.name)]) _ (by simp [GLine.containers])
  rw [hcs] at hparts
  have hp1 := hparts (.element min max (.recursive tok.name)) (by simp)
  -- the loop over the occurrences of the reference
  have hloop : Ts (JI S N K X) s (elementLoop rec (.recursive tok.name) max ctx (cur.length + 1) ⟨[], prev, cur⟩)
      (fun st' => st'.prev.length ≤ N ∧ st'.rem.length ≤ cur.length) := by
    unfold elementLoop
    refine Ts.ite (fun _ => Tm.pure ⟨hp, Nat.le_refl _⟩ s hs) (fun hne => ?_)
    refine Ts.ite (fun _ => Tm.pure ⟨hp, Nat.le_refl _⟩ s hs) (fun _ => ?_)
    have hel : Ts (JI S N K X) s (element rec (.recursive tok.name) ctx prev cur) (fun _ => True) := by
      unfold element
      refine Ts.ite (fun _ => Tm.fail s hs) (fun _ => ?_)
      refine Ts.bind (V := fun _ => True) ?_ ?_
      · have h := (hl N K X tok ctx prev cur htok hctx hp hcur).2 hn s hs hrec
        have := Ts.bind (W := fun _ => True) h (fun t _ => Tm.pure (a := treeContent t) trivial)
        have he : elementContent rec (.recursive tok.name) ctx prev cur s
            = (rec tok ctx prev cur >>= fun t => pure (treeContent t)) s := by
          change (recursiveToken tok.name >>= fun tok => rec tok ctx prev cur >>= fun t => pure (treeContent t)) s = _
          rw [bind_apply, hself]
        unfold Ts at this ⊢
        rw [he]
        exact this
      · intro r _
        unfold acceptContent
        cases r with
        | none => exact Tm.fail
        | some x => exact Tm.ite (fun _ => Tm.pure trivial) (fun _ => Tm.fail)
    refine Ts.bind (Ts.attempt (Ts.and hel any_stk (ens_element hg (any_ctx ctx)
      (Content.All_of lineAllowed_any _) ha' prev cur))) ?_
    intro r hr'
    unfold elementNext
    cases r with
    | none => exact Tm.pure ⟨hp, Nat.le_refl _⟩
    | some x =>
      have hlt := (hr' x rfl).2.2.2
      refine Tm.weaken (tj_elementLoop hS hl hr hg hctx (L := cur.length) (c := .recursive tok.name) trivial hp1.2.1 hp1.2.2.1
        hp1.2.2.2 cur.length ⟨[] ++ [x.1], cur, x.2⟩ hcur ?_ ?_ ?_ ?_) ?_
      · simp only; omega
      · simp only; omega
      · intro h; simp only; omega
      · simp only; omega
      · intro st' h
        simp only at h
        exact ⟨h.1, by omega⟩
  unfold line
  rw [hcs]
  refine Ts.bind (V := fun _ => True) ?_ (fun _ _ => Tm.pure trivial)
  unfold lineLoop
  refine Ts.bind (V := fun st' : LnState => st'.prev.length ≤ N ∧ st'.rem.length ≤ cur.length ∧
      (decide (1 ≤ min ∧ min < 2 ^ 63) = true → st'.rem.length < cur.length)) ?_ ?_
  · unfold lineStep
    refine Ts.bind (Ts.and hloop any_stk
      (ens_elementLoop hg (any_ctx ctx) (Content.All_of lineAllowed_any (.recursive tok.name)) ha
        (cur := cur) (cur.length + 1) ⟨[], prev, cur⟩ ⟨Acc.refl _ _, by simp⟩)) ?_
    rintro r ⟨⟨h1, h2⟩, h3⟩
    refine Tm.ite (fun _ => Tm.fail) (fun hmin => Tm.pure ⟨h1, h2, ?_⟩)
    intro hmust
    apply h3.2
    intro hnil
    simp only [decide_eq_true_eq] at hmust
    simp only [hnil, List.length_nil, goMin] at hmin
    rw [if_pos hmust.2] at hmin
    omega
  · intro st' h
    exact tj_lineLoop hS hl hr hg hctx (L := cur.length) hp cs (fun c h => hparts c (by simp [h])) _ hgd st' h.1 (by omega) h.2.1 h.2.2 hX

/-- The reverse loop below the first position, or with a guarded line. -/
theorem tj_reverseLoop {ctx : Ctx} (hctx : CtxL N X ctx) {L : Nat} {tok : Token}
    (htok : TokL S N K X tok) (hn : 2 * (L * K + tokenD tok + X) ≤ n + 2) {g : GLine}
    (hgl : g ∈ tok.lines) (seen : Bool) (hgd : guardedFrom seen g.containers) (idx : Nat) (k : Nat) (st : RvState)
    (hp : st.prev.length ≤ N) (hcur : st.rem.length ≤ N) (hL : st.rem.length ≤ L) (hseen : seen = true → st.rem.length < L)
    (hk : st.rem.length < k) :
    Tm (JI S N K X) (reverseLoop rec idx g ctx k st) (fun _ => True) := by
  induction k generalizing st with
  | zero => omega
  | succ k ih =>
    unfold reverseLoop
    refine Tm.ite (fun _ => Tm.pure trivial) (fun _ => ?_)
    have hesc : escapeStep rec idx g ctx st = pure st := by
      unfold escapeStep
      rw [hctx.esc]
    rw [hesc]
    refine Tm.bind (V := fun st' => st' = st) (Tm.pure rfl) ?_
    rintro st' rfl
    refine Tm.bind (Tm.attempt (tj_line hS hl hr hg hctx htok hn hgl seen hgd idx hp hcur hL hseen)) ?_
    intro x _
    unfold reverseNext
    cases x with
    | some _ => exact Tm.pure trivial
    | none =>
      cases hrem : st'.rem with
      | nil => exact Tm.crash
      | cons b rest =>
        have hlen : st'.rem.length = rest.length + 1 := by rw [hrem]; rfl
        simp only
        apply ih
        · simp only [List.length_cons]; omega
        · simp only; omega
        · simp only; omega
        · intro h; have := hseen h; simp only; omega
        · simp only; omega

theorem ts_reverse {ctx : Ctx} (hctx : CtxL N X ctx) {tok : Token} (htok : TokL S N K X tok) {g : GLine} (hgl : g ∈ tok.lines)
    (hleft : leftLine tok.name g) (idx : Nat) {prev cur : Bytes} (hn : 2 * (cur.length * K + tokenD tok + X) ≤ n + 1)
    (hp : prev.length ≤ N) (hcur : cur.length ≤ N) {s : Stk} (hs : JI S N K X s) (hrec : Recorded tok cur s)
    (hself : recursiveToken tok.name s = (.ok tok, s)) :
    Ts (JI S N K X) s (reverseLoop rec idx g ctx (cur.length + 1) ⟨[], prev, cur⟩) (fun _ => True) := by
  unfold reverseLoop
  refine Ts.ite (fun _ => Tm.pure trivial s hs) (fun _ => ?_)
  have hesc : escapeStep rec idx g ctx ⟨[], prev, cur⟩ = pure ⟨[], prev, cur⟩ := by
    unfold escapeStep
    rw [hctx.esc]
  rw [hesc]
  change Ts (JI S N K X) s (attempt (line rec idx g ctx prev cur) >>= fun r =>
    reverseNext ⟨[], prev, cur⟩ (reverseLoop rec idx g ctx cur.length) r) _
  refine Ts.bind (Ts.attempt (ts_left hS hl hr hg hctx htok hgl hleft idx hn hp hcur hs hrec hself)) ?_
  intro x _
  unfold reverseNext
  cases x with
  | some _ => exact Tm.pure trivial
  | none =>
    cases cur with
    | nil => exact Tm.crash
    | cons b rest =>
      refine tj_reverseLoop hS hl hr hg hctx (L := (b :: rest).length) htok (by omega) hgl true (guardedFrom_true _) idx _ _ ?_ ?_ ?_ ?_ ?_
      · exact hcur
      · simp only [List.length_cons] at hcur ⊢; omega
      · simp
      · intro _; simp
      · simp

/-- What follows the recording of a line, given what `line` and the reverse loop do from the map there. -/
theorem ts_after {ctx : Ctx} {prev cur : Bytes} {idx : Nat} {g : GLine} {acc : List TLine} {s : Stk}
    {next : List TLine → M (List TLine × Bytes)}
    (h1 : Ts (JI S N K X) s (line rec idx g ctx prev cur) (fun _ => True))
    (h2 : Ts (JI S N K X) s (reverseLoop rec idx g ctx (cur.length + 1) ⟨[], prev, cur⟩) (fun _ => True))
    (hnext : ∀ acc, Tm (JI S N K X) (next acc) (fun r => r.2.length ≤ cur.length)) :
    Ts (JI S N K X) s (if ctx.reverse then reverseLine rec idx g ctx prev cur acc
      else do
        let r ← attempt (line rec idx g ctx prev cur)
        lineNext acc next r) (fun r => r.2.length ≤ cur.length) := by
  have ha : ∀ c ∈ g.containers, c.All (lineAllowed Flags.any) ∧ containerAllowed Flags.any c :=
    fun c hc => ⟨Container.All_of lineAllowed_any c, lineAllowed_any g c hc⟩
  refine Ts.ite (fun _ => ?_) (fun _ => ?_)
  · unfold reverseLine
    refine Ts.bind (Ts.and h2 any_stk (ens_reverseLoop hg (any_ctx ctx) idx ha (cur := cur) _ _ (Acc.refl _ _))) ?_
    rintro st ⟨_, h⟩
    exact Tm.ite (fun _ => Tm.fail) (fun _ => Tm.pure h.1.length_le)
  · refine Ts.bind (Ts.attempt (Ts.and h1 any_stk (ens_line hg (any_ctx ctx) idx ha prev cur))) ?_
    intro x hx
    unfold lineNext
    cases x with
    | none => exact hnext _
    | some x => exact Tm.ite (fun _ => Tm.pure (hx x rfl).2.1.1.1.length_le) (fun _ => hnext _)

/-- The lines that are guarded. -/
theorem tj_blockLoop {ctx : Ctx} (hctx : CtxL N X ctx) {tok : Token} (htok : TokL S N K X tok) {prev cur : Bytes}
    (hn : 2 * (cur.length * K + tokenD tok + X) ≤ n + 2) (hp : prev.length ≤ N) (hcur : cur.length ≤ N) (idx : Nat) (gs : List GLine)
    (hgs : ∀ g ∈ gs, g ∈ tok.lines ∧ lineGuarded g) (acc : List TLine) :
    Tm (JI S N K X) (blockLoop rec tok ctx prev cur idx gs acc) (fun r => r.2.length ≤ cur.length) := by
  induction gs generalizing idx acc with
  | nil => exact Tm.pure (Nat.le_refl _)
  | cons g gs ih =>
    have ih' := fun idx acc => ih idx (fun g h => hgs g (by simp [h])) acc
    unfold blockLoop
    refine Tm.bind (V := fun _ => True) (fun s hs => ⟨hs, by simp [alreadyTried], by simp⟩) ?_
    intro skip _
    refine Tm.ite (fun _ => ih' _ _) (fun _ => ?_)
    refine Tm.bind (V := fun _ => True) (fun s hs => ⟨ji_record htok hs, by simp [recordLine], by simp⟩) ?_
    intro _ _ s hs
    obtain ⟨hgl, hgd⟩ := hgs g (by simp)
    exact ts_after hS hl hr hg (tj_line hS hl hr hg hctx htok hn hgl false hgd idx hp hcur (Nat.le_refl _) (by simp) s hs)
      (tj_reverseLoop hS hl hr hg hctx htok hn hgl false hgd idx _ _ hp hcur (Nat.le_refl _) (by simp) (Nat.lt_succ_self _) s hs)
      (fun acc => ih' _ acc)

/-- The lines of a token after the first are guarded. -/
theorem guarded_tail {tok : Token} (htok : S tok) {g : GLine} {gs : List GLine} (h : tok.lines = g :: gs) :
    ∀ g' ∈ gs, g' ∈ tok.lines ∧ lineGuarded g' := by
  intro g' hg'
  refine ⟨by rw [h]; simp [hg'], ?_⟩
  obtain ⟨i, hi, hget⟩ := List.getElem_of_mem hg'
  have := hS.lines tok htok (i + 1) g' (by rw [h]; simp [hi, hget])
  rcases this with h | ⟨h, _⟩
  · exact h
  · omega

/-- All lines, when the first one is not recorded. -/
theorem tj_lines {ctx : Ctx} (hctx : CtxL N X ctx) {tok : Token} (htok : TokL S N K X tok) {prev cur : Bytes}
    (hn : 2 * (cur.length * K + tokenD tok + X) ≤ n + 1) (hp : prev.length ≤ N) (hcur : cur.length ≤ N) :
    Tm (JI S N K X) (blockLoop rec tok ctx prev cur 0 tok.lines []) (fun r => r.2.length ≤ cur.length) := by
  cases hls : tok.lines with
  | nil => exact Tm.pure (Nat.le_refl _)
  | cons g gs =>
    have htail := tj_blockLoop hS hl hr hg hctx htok (prev := prev) (cur := cur) (by omega) hp hcur 1 gs
      (guarded_tail hS hl hr hg htok.mem hls)
    have hgl : g ∈ tok.lines := by rw [hls]; simp
    rcases hS.lines tok htok.mem 0 g (by rw [hls]; rfl) with hgd | ⟨_, hleft⟩
    · refine tj_blockLoop hS hl hr hg hctx htok (by omega) hp hcur 0 (g :: gs) ?_ []
      intro g' hg'
      rcases List.mem_cons.mp hg' with rfl | h
      · exact ⟨hgl, hgd⟩
      · exact guarded_tail hS hl hr hg htok.mem hls g' h
    · unfold blockLoop
      refine Tm.bind (V := fun _ => True) (fun s hs => ⟨hs, by simp [alreadyTried], by simp⟩) ?_
      intro skip _
      refine Tm.ite (fun _ => htail _) (fun _ => ?_)
      intro s hs
      have hJ : JI S N K X (recordLine tok 0 cur s).2 := ji_record htok hs
      obtain ⟨hrec, hself⟩ := record_self hS (cur := cur) htok hs
      have := ts_after hS hl hr hg (acc := []) (next := blockLoop rec tok ctx prev cur (0 + 1) gs)
        (ts_left hS hl hr hg hctx htok hgl hleft 0 hn hp hcur hJ hrec hself)
        (ts_reverse hS hl hr hg hctx htok hgl hleft 0 hn hp hcur hJ hrec hself) (fun acc => htail acc)
      exact this

theorem termL_tokenBody : TermL S (n + 1) (tokenBody rec) := by
  intro N K X t ctx prev cur ht hctx hp hcur
  have after : 2 * (cur.length * K + tokenD t + X) ≤ n + 2 → ∀ r : List TLine × Bytes, r.2.length ≤ cur.length →
      Tm (JI S N K X) (if r.1.isEmpty then fail
        else do
          let s ← skipChannels rec ctx.channels prev r.2
          pure (.mk t (mkBlock r.1) s.1 s.2) : M Tree) (fun _ => True) := by
    intro hn r hr'
    have := tokenD_pos t
    refine Tm.ite (fun _ => Tm.fail) (fun _ => ?_)
    exact Tm.bind (tl_skipChannels hr hg (fun c h => ⟨(hctx.chs c h).1, by have := (hctx.chs c h).2; omega⟩) hp (by omega))
      (fun _ _ => Tm.pure trivial)
  constructor
  · intro hn
    unfold tokenBody
    refine Tm.bind (V := fun _ => True) ?_ ?_
    · intro s hs
      refine ⟨ji_enter ht hs, ?_, by simp⟩
      unfold enter
      split <;> simp
    intro _ _
    exact Tm.bind (Tm.thenDelete (fun s hs => ji_del hs _) (tj_lines hS hl hr hg hctx ht hn hp hcur)) (after (by omega))
  · intro hn s hs hrec
    have he : enter t s = (.ok (), s) := by
      obtain ⟨e, he, _⟩ := hrec
      simp [enter, he]
    have hblock : Ts (JI S N K X) s (blockLoop rec t ctx prev cur 0 t.lines []) (fun r => r.2.length ≤ cur.length) := by
      cases hls : t.lines with
      | nil =>
        have h0 : Tm (JI S N K X) (blockLoop rec t ctx prev cur 0 [] []) (fun r => r.2.length ≤ cur.length) := Tm.pure (Nat.le_refl _)
        exact h0 s hs
      | cons g gs =>
        have htail := tj_blockLoop hS hl hr hg hctx ht (prev := prev) (cur := cur) (by omega) hp hcur 1 gs
          (guarded_tail hS hl hr hg ht.mem hls) [] s hs
        unfold Ts
        unfold blockLoop
        rw [bind_apply, tried_recorded hrec]
        exact htail
    have hdel : Ts (JI S N K X) s (thenDelete t.name (blockLoop rec t ctx prev cur 0 t.lines [])) (fun r => r.2.length ≤ cur.length) :=
      ⟨ji_del hblock.1 _, hblock.2⟩
    have := Ts.bind hdel (after (by omega))
    unfold Ts tokenBody at *
    rw [bind_apply, he]
    exact this

end

theorem token_left {S : Token → Prop} (hS : LeftSet S) (n : Nat) : TermL S n (token n) := by
  induction n with
  | zero =>
    intro N K X t ctx prev cur _ _ _ _
    have := tokenD_pos t
    exact ⟨fun h => by omega, fun h => by omega⟩
  | succ n ih => exact termL_tokenBody hS ih (token_term n) (token_good Flags.any n)

/-- The nesting is bounded by twice `grammarX`. -/
theorem execute_left {S : Token → Prop} (hS : LeftSet S) {g : Grammar} (hroot : S g.root) (hc : ∀ c ∈ g.channels, c.All lineGuarded)
    (input : Bytes) : execute (2 * grammarX input.length g) g input ≠ .oof := by
  rcases g with ⟨root, chs⟩
  simp only [Grammar.root, Grammar.channels] at hroot hc
  have := (token_left hS (2 * grammarX input.length (.mk root chs)) input.length (tokenD root)
    (max (tokenX input.length root) (channelsX input.length chs)) root ⟨none, chs, false⟩ [] input
    ⟨hroot, Nat.le_refl _, Nat.le_max_left _ _⟩ ⟨rfl, ?_⟩ (Nat.zero_le _) (Nat.le_refl _)).1 ?_ [] ji_nil
  · exact this.2.1
  · intro c h
    exact ⟨hc c h, Nat.le_trans (channelsX_mem h) (Nat.le_max_right _ _)⟩
  · simp only [grammarX]
    omega

end Rodkina.Ast
