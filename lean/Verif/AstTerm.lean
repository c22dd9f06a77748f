import Verif.AstLemmas2
import Verif.AstMono

/-!
# Termination of the parser on guarded grammars

A line is *guarded* when every reference by name in it comes after an element that must occur.  For
grammars made of guarded lines (in particular grammars without references by name) the nesting of
`token` calls is bounded by an explicit function of the grammar and the length of the input.
-/

namespace Rodkina.Ast

open M

/-- Is the container a reference by name. -/
def Container.isRecursive : Container → Bool
  | .element _ _ (.recursive _) => true
  | _ => false

/-- Must the container occur (and be checked as such: see `goMin`). -/
def Container.mustOccur : Container → Bool
  | .element min _ _ => decide (1 ≤ min ∧ min < 2 ^ 63)
  | .compose _ => false

/-- Every reference by name comes after a container that must occur. -/
def guardedFrom : Bool → List Container → Prop
  | _, [] => True
  | seen, c :: cs => (c.isRecursive = true → seen = true) ∧ guardedFrom (seen || c.mustOccur) cs

/-- The line is guarded. -/
def lineGuarded (g : GLine) : Prop := guardedFrom false g.containers

/-! ## Nesting bounds -/

mutual
/-- Nesting of tokens inside one map (external grammars and channels excluded). -/
def tokenD : Token → Nat
  | .mk _ ls _ => linesD ls + 1
/-- Maximum over the lines. -/
def linesD : List GLine → Nat
  | [] => 0
  | g :: gs => max (lineD g) (linesD gs)
/-- Maximum over the containers of a line. -/
def lineD : GLine → Nat
  | .mk cs => containersD cs
/-- Maximum over containers. -/
def containersD : List Container → Nat
  | [] => 0
  | c :: cs => max (containerD c) (containersD cs)
/-- Nesting of a container. -/
def containerD : Container → Nat
  | .element _ _ c => contentD c
  | .compose _ => 0
/-- Nesting of a content. -/
def contentD : Content → Nat
  | .value _ _ => 0
  | .external _ _ => 0
  | .token t => tokenD t
  | .everything _ ex none => tokenD ex
  | .everything _ ex (some esc) => tokenD ex + tokenD esc
  | .recursive _ => 0
end

/-- Nesting of an optional token. -/
def optD : Option Token → Nat
  | none => 0
  | some t => tokenD t

mutual
/-- Nesting needed below a token by external grammars, for inputs of at most `N` bytes. -/
def tokenX (N : Nat) : Token → Nat
  | .mk _ ls _ => linesX N ls
/-- Maximum over the lines. -/
def linesX (N : Nat) : List GLine → Nat
  | [] => 0
  | g :: gs => max (lineX N g) (linesX N gs)
/-- Maximum over the containers of a line. -/
def lineX (N : Nat) : GLine → Nat
  | .mk cs => containersX N cs
/-- Maximum over containers. -/
def containersX (N : Nat) : List Container → Nat
  | [] => 0
  | c :: cs => max (containerX N c) (containersX N cs)
/-- Nesting below a container. -/
def containerX (N : Nat) : Container → Nat
  | .element _ _ c => contentX N c
  | .compose _ => 0
/-- Nesting below a content. -/
def contentX (N : Nat) : Content → Nat
  | .value _ _ => 0
  | .external _ g => grammarX N g
  | .token t => tokenX N t
  | .everything _ ex none => tokenX N ex
  | .everything _ ex (some esc) => max (tokenX N ex) (tokenX N esc)
  | .recursive _ => 0
/-- Nesting bound of a grammar on inputs of at most `N` bytes. -/
def grammarX (N : Nat) : Grammar → Nat
  | .mk root chs => N * tokenD root + tokenD root + max (tokenX N root) (channelsX N chs)
/-- Maximum over channels. -/
def channelsX (N : Nat) : List Channel → Nat
  | [] => 0
  | c :: cs => max (channelX N c) (channelsX N cs)
/-- Nesting bound of a channel: its token and its conditions. -/
def channelX (N : Nat) : Channel → Nat
  | .mk t none none => N * tokenD t + tokenD t + tokenX N t
  | .mk t (some a) none =>
      max (N * tokenD t + tokenD t + tokenX N t) (N * tokenD a + tokenD a + tokenX N a)
  | .mk t none (some b) =>
      max (N * tokenD t + tokenD t + tokenX N t) (N * tokenD b + tokenD b + tokenX N b)
  | .mk t (some a) (some b) =>
      max (N * tokenD t + tokenD t + tokenX N t)
        (max (N * tokenD a + tokenD a + tokenX N a) (N * tokenD b + tokenD b + tokenX N b))
end

theorem linesD_mem {g : GLine} {ls : List GLine} (h : g ∈ ls) : lineD g ≤ linesD ls := by
  induction ls with
  | nil => simp at h
  | cons x xs ih =>
    simp only [linesD]
    rcases List.mem_cons.mp h with rfl | h
    · exact Nat.le_max_left _ _
    · exact Nat.le_trans (ih h) (Nat.le_max_right _ _)

theorem containersD_mem {c : Container} {cs : List Container} (h : c ∈ cs) :
    containerD c ≤ containersD cs := by
  induction cs with
  | nil => simp at h
  | cons x xs ih =>
    simp only [containersD]
    rcases List.mem_cons.mp h with rfl | h
    · exact Nat.le_max_left _ _
    · exact Nat.le_trans (ih h) (Nat.le_max_right _ _)

theorem linesX_mem {N : Nat} {g : GLine} {ls : List GLine} (h : g ∈ ls) :
    lineX N g ≤ linesX N ls := by
  induction ls with
  | nil => simp at h
  | cons x xs ih =>
    simp only [linesX]
    rcases List.mem_cons.mp h with rfl | h
    · exact Nat.le_max_left _ _
    · exact Nat.le_trans (ih h) (Nat.le_max_right _ _)

theorem containersX_mem {N : Nat} {c : Container} {cs : List Container} (h : c ∈ cs) :
    containerX N c ≤ containersX N cs := by
  induction cs with
  | nil => simp at h
  | cons x xs ih =>
    simp only [containersX]
    rcases List.mem_cons.mp h with rfl | h
    · exact Nat.le_max_left _ _
    · exact Nat.le_trans (ih h) (Nat.le_max_right _ _)

theorem channelsX_mem {N : Nat} {c : Channel} {cs : List Channel} (h : c ∈ cs) :
    channelX N c ≤ channelsX N cs := by
  induction cs with
  | nil => simp at h
  | cons x xs ih =>
    simp only [channelsX]
    rcases List.mem_cons.mp h with rfl | h
    · exact Nat.le_max_left _ _
    · exact Nat.le_trans (ih h) (Nat.le_max_right _ _)

theorem containerD_lt {t : Token} {g : GLine} {c : Container} (hg : g ∈ t.lines)
    (hc : c ∈ g.containers) : containerD c + 1 ≤ tokenD t := by
  rcases t with ⟨n, ls, ss⟩
  rcases g with ⟨cs⟩
  simp only [tokenD]
  have h1 := linesD_mem hg
  have h2 := containersD_mem hc
  simp only [Token.lines] at h1
  simp only [GLine.containers] at h2
  simp only [lineD] at h1
  omega

theorem containerX_le {N : Nat} {t : Token} {g : GLine} {c : Container} (hg : g ∈ t.lines)
    (hc : c ∈ g.containers) : containerX N c ≤ tokenX N t := by
  rcases t with ⟨n, ls, ss⟩
  rcases g with ⟨cs⟩
  simp only [tokenX]
  have h1 := linesX_mem (N := N) hg
  have h2 := containersX_mem (N := N) hc
  simp only [Token.lines] at h1
  simp only [GLine.containers] at h2
  simp only [lineX] at h1
  omega

theorem tokenD_pos (t : Token) : 1 ≤ tokenD t := by
  cases t
  simp [tokenD]

/-- Bound for a token run with plain parameters. -/
def plainX (N : Nat) (t : Token) : Nat := N * tokenD t + tokenD t + tokenX N t

theorem channelX_parts (N : Nat) (c : Channel) :
    plainX N c.token ≤ channelX N c ∧ (∀ t, c.previous = some t → plainX N t ≤ channelX N c) ∧
    (∀ t, c.next = some t → plainX N t ≤ channelX N c) := by
  rcases c with ⟨t, _ | a, _ | b⟩ <;>
    simp only [channelX, Channel.token, Channel.previous, Channel.next, plainX, Option.some.injEq,
      reduceCtorEq, false_implies, implies_true, forall_eq', and_true, true_and] <;>
    omega

theorem content_everything_bounds (N : Nat) (n : String) (ex : Token) (esc : Option Token) :
    contentD (.everything n ex esc) = tokenD ex + optD esc ∧
    tokenX N ex ≤ contentX N (.everything n ex esc) ∧
    (∀ t, esc = some t → tokenX N t ≤ contentX N (.everything n ex esc)) := by
  cases esc <;> simp [contentD, contentX, optD] <;> omega

/-! ## Computations that stay within the bound -/

/-- Started in a map satisfying `I`, the computation keeps `I` and does not run out of fuel. -/
def Tm {α : Type} (I : Stk → Prop) (m : M α) (V : α → Prop) : Prop :=
  ∀ s, I s → I (m s).2 ∧ (m s).1 ≠ .oof ∧ (∀ a, (m s).1 = .ok a → V a)

namespace Tm

variable {α β : Type} {I : Stk → Prop}

theorem pure {a : α} {V : α → Prop} (h : V a) : Tm I (Pure.pure a) V := by
  intro s hs
  exact ⟨hs, by simp, by intro b hb; simp at hb; exact hb ▸ h⟩

theorem bind {m : M α} {f : α → M β} {V : α → Prop} {W : β → Prop}
    (hm : Tm I m V) (hf : ∀ a, V a → Tm I (f a) W) : Tm I (m >>= f) W := by
  intro s hs
  obtain ⟨h1, h2, h3⟩ := hm s hs
  rw [bind_apply]
  generalize m s = r at *
  obtain ⟨o, s'⟩ := r
  cases o with
  | ok a => exact hf a (h3 a rfl) s' h1
  | err => exact ⟨h1, by simp, by simp⟩
  | panic => exact ⟨h1, by simp, by simp⟩
  | oof => exact absurd rfl h2

theorem weaken {m : M α} {V W : α → Prop} (hm : Tm I m V) (h : ∀ a, V a → W a) : Tm I m W := by
  intro s hs
  obtain ⟨h1, h2, h3⟩ := hm s hs
  exact ⟨h1, h2, fun a ha => h a (h3 a ha)⟩

theorem fail {V : α → Prop} : Tm I (fail : M α) V := by
  intro s hs
  exact ⟨hs, by simp [M.fail], by simp [M.fail]⟩

theorem crash {V : α → Prop} : Tm I (crash : M α) V := by
  intro s hs
  exact ⟨hs, by simp [M.crash], by simp [M.crash]⟩

theorem attempt {m : M α} {V : α → Prop} (hm : Tm I m V) :
    Tm I (attempt m) (fun r => ∀ a, r = some a → V a) := by
  intro s hs
  obtain ⟨h1, h2, h3⟩ := hm s hs
  unfold M.attempt
  generalize m s = r at *
  obtain ⟨o, s'⟩ := r
  cases o with
  | ok a =>
    refine ⟨h1, by simp, ?_⟩
    intro b hb c hc
    simp at hb
    subst hb
    simp at hc
    exact hc ▸ h3 a rfl
  | err => exact ⟨h1, by simp, by simp⟩
  | panic => exact ⟨h1, by simp, by simp⟩
  | oof => exact absurd rfl h2

theorem fresh {J : Stk → Prop} {m : M α} {V : α → Prop} (h0 : J []) (hm : Tm J m V) :
    Tm I (fresh m) V := by
  intro s hs
  obtain ⟨_, h2, h3⟩ := hm [] h0
  exact ⟨hs, h2, h3⟩

theorem thenDelete {m : M α} {V : α → Prop} {name : String} (hd : ∀ s, I s → I (s.del name))
    (hm : Tm I m V) : Tm I (thenDelete name m) V := by
  intro s hs
  obtain ⟨h1, h2, h3⟩ := hm s hs
  exact ⟨hd _ h1, h2, h3⟩

theorem ite {c : Prop} [Decidable c] {m m' : M α} {V : α → Prop} (h1 : c → Tm I m V)
    (h2 : ¬ c → Tm I m' V) : Tm I (if c then m else m') V := by
  split
  · exact h1 ‹_›
  · exact h2 ‹_›

theorem and {J : Stk → Prop} {pan : Prop} {m : M α} {V W : α → Prop} (h1 : Tm I m V)
    (hJ : ∀ s, J s) (h2 : Ens J pan m W) : Tm I m (fun a => V a ∧ W a) := by
  intro s hs
  obtain ⟨a1, a2, a3⟩ := h1 s hs
  exact ⟨a1, a2, fun a ha => ⟨a3 a ha, (h2 s (hJ s)).2.1 a ha⟩⟩

end Tm

/-! ## The termination argument -/

/-- A token whose lines are guarded and whose nesting is within the bounds. -/
structure TokT (N K X : Nat) (t : Token) : Prop where
  guarded : t.All lineGuarded
  depth : tokenD t ≤ K
  ext : tokenX N t ≤ X

/-- Parameters within the bounds. -/
structure CtxT (N K X : Nat) (ctx : Ctx) : Prop where
  esc : ∀ t, ctx.escape = some t → TokT N K X t
  chs : ∀ c ∈ ctx.channels, c.All lineGuarded ∧ channelX N c ≤ X

/-- The recursive call stays within nesting `n` when the measure is at most `n`. -/
def TermRec (n : Nat) (rec : Rec) : Prop :=
  ∀ (N K X : Nat) (t : Token) (ctx : Ctx) (prev cur : Bytes),
    TokT N K X t → CtxT N K X ctx → prev.length ≤ N → cur.length ≤ N →
    cur.length * K + tokenD t + optD ctx.escape + X ≤ n →
    Tm (StkAll (TokT N K X)) (rec t ctx prev cur) (fun _ => True)

theorem any_tok (t : Token) : TokOK Flags.any t := Token.All_of lineAllowed_any t

theorem any_stk (s : Stk) : SI Flags.any s := fun _ e _ => any_tok e.token

theorem any_ctx (ctx : Ctx) : CtxOK Flags.any ctx :=
  ⟨fun t _ => ⟨trivial, any_tok t⟩, fun c _ => Channel.All_of lineAllowed_any c⟩

section
variable {n N K X : Nat} {rec : Rec} (hr : TermRec n rec) (hg : GoodRec Flags.any rec)

/-- The invariant on the map. -/
abbrev TI (N K X : Nat) : Stk → Prop := StkAll (TokT N K X)

include hr hg

theorem tm_plain {t : Token} (ht : t.All lineGuarded) {prev cur : Bytes}
    (hp : prev.length ≤ N) (hcur : cur.length ≤ N) (hn : plainX N t ≤ n) :
    Tm (TI N K X) (fresh (rec t Ctx.plain prev cur)) (fun r => GoodTree Flags.any cur r) := by
  refine Tm.fresh (J := StkAll (TokT N (tokenD t) (tokenX N t))) (stkAll_nil _) ?_
  refine Tm.weaken (Tm.and (hr N (tokenD t) (tokenX N t) t Ctx.plain prev cur
    ⟨ht, Nat.le_refl _, Nat.le_refl _⟩ ⟨by simp [Ctx.plain], by simp [Ctx.plain]⟩ hp hcur ?_)
    any_stk (hg t Ctx.plain prev cur (any_tok t) (any_ctx _))) (fun a h => h.2)
  have : cur.length * tokenD t ≤ N * tokenD t := Nat.mul_le_mul_right _ hcur
  simp only [plainX] at hn
  simp only [Ctx.plain, optD]
  omega

theorem tm_condMatch {o : Option Token} (ho : optAll lineGuarded o) {data : Bytes}
    (hd : data.length ≤ N) (hn : ∀ t, o = some t → plainX N t ≤ n) :
    Tm (TI N K X) (condMatch rec o data) (fun _ => True) := by
  unfold condMatch
  cases o with
  | none => exact Tm.pure trivial
  | some t =>
    exact Tm.bind (tm_plain hr hg (ho t rfl) (Nat.zero_le _) hd (hn t rfl))
      (fun _ _ => Tm.pure trivial)

theorem tm_channel {c : Channel} (hc : c.All lineGuarded) (hX : channelX N c ≤ n)
    {prev cur : Bytes} (hp : prev.length ≤ N) (hcur : cur.length ≤ N) :
    Tm (TI N K X) (channel rec c prev cur) (fun _ => True) := by
  obtain ⟨h1, h2, h3⟩ := channelX_parts N c
  rw [Channel.All_iff] at hc
  unfold channel
  refine Tm.bind (tm_plain hr hg hc.1 hp hcur (by omega)) ?_
  intro t ht
  refine Tm.bind (V := fun _ => True) ?_ (fun _ _ => Tm.pure trivial)
  unfold channelCondition
  have hrem : t.remaining.length ≤ N := Nat.le_trans ht.1.length_le hcur
  refine Tm.bind (tm_condMatch hr hg hc.2.1 hp (fun t ht => Nat.le_trans (h2 t ht) hX)) ?_
  intro _ _
  refine Tm.bind (tm_condMatch hr hg hc.2.2 hrem (fun t ht => Nat.le_trans (h3 t ht) hX)) ?_
  intro _ _
  exact Tm.pure trivial

theorem tm_channelRound {chs : List Channel}
    (hc : ∀ c ∈ chs, c.All lineGuarded ∧ channelX N c ≤ n) (st : ChState)
    (hp : st.prev.length ≤ N) (hcur : st.rem.length ≤ N) :
    Tm (TI N K X) (channelRound rec chs st)
      (fun st' => st'.prev.length ≤ N ∧ st'.rem.length ≤ N) := by
  induction chs generalizing st with
  | nil => exact Tm.pure ⟨hp, hcur⟩
  | cons c cs ih =>
    unfold channelRound
    have hc' := hc c (by simp)
    refine Tm.bind (Tm.attempt (tm_channel hr hg hc'.1 hc'.2 hp hcur)) ?_
    intro r _
    refine Tm.bind (V := fun st' : ChState => st'.prev.length ≤ N ∧ st'.rem.length ≤ N) ?_ ?_
    · unfold channelApply
      split
      · unfold sliceFrom
        refine Tm.bind (V := fun rem : Bytes => rem.length ≤ N) ?_ ?_
        · refine Tm.ite (fun _ => Tm.pure ?_) (fun _ => Tm.crash)
          simp; omega
        · intro rem hrem
          exact Tm.ite (fun _ => Tm.pure ⟨hp, hcur⟩) (fun _ => Tm.pure ⟨hcur, hrem⟩)
      · exact Tm.pure ⟨hp, hcur⟩
    · intro st' hst'
      exact ih (fun c h => hc c (by simp [h])) st' hst'.1 hst'.2

theorem tm_channelLoop {chs : List Channel}
    (hc : ∀ c ∈ chs, c.All lineGuarded ∧ channelX N c ≤ n) {cur : Bytes} (k : Nat) (st : ChState)
    (hp : st.prev.length ≤ N) (hcur : st.rem.length ≤ N) (hk : st.rem.length < k)
    (hok : ChOK Flags.any cur st) :
    Tm (TI N K X) (channelLoop rec chs k st) (fun _ => True) := by
  induction k generalizing st with
  | zero => omega
  | succ k ih =>
    unfold channelLoop
    refine Tm.bind (Tm.and (tm_channelRound hr hg hc st hp hcur) any_stk
      (ens_channelRound hg chs (fun c _ => Channel.All_of lineAllowed_any c) st hok)) ?_
    rintro st' ⟨⟨h1, h2⟩, h3, h4, h5⟩
    refine Tm.ite (fun _ => Tm.pure trivial) (fun hne => ?_)
    exact ih st' h1 h2 (by omega) h3

theorem tm_skipChannels {ctx : Ctx} (hctx : CtxT N K X ctx) (hX : X ≤ n) {prev cur : Bytes}
    (hp : prev.length ≤ N) (hcur : cur.length ≤ N) :
    Tm (TI N K X) (skipChannels rec ctx.channels prev cur) (fun _ => True) := by
  have hc : ∀ c ∈ ctx.channels, c.All lineGuarded ∧ channelX N c ≤ n :=
    fun c h => ⟨(hctx.chs c h).1, Nat.le_trans (hctx.chs c h).2 hX⟩
  unfold skipChannels
  refine Tm.ite (fun _ => Tm.pure trivial) (fun _ => ?_)
  refine Tm.bind (Tm.attempt (V := fun _ => True) ?_) (fun _ _ => Tm.pure trivial)
  unfold channels
  refine Tm.bind (tm_channelLoop hr hg hc (cur := cur) _ _ hp hcur (by simp)
    ⟨Acc.refl _ _, by simp⟩) ?_
  intro st _
  exact Tm.ite (fun _ => Tm.fail) (fun _ => Tm.pure trivial)

theorem tm_elementValue {ctx : Ctx} (hctx : CtxT N K X ctx) (hX : X ≤ n) {prev cur : Bytes}
    (hp : prev.length ≤ N) (hcur : cur.length ≤ N) (number : UInt8) :
    Tm (TI N K X) (elementValue rec number ctx prev cur) (fun _ => True) := by
  unfold elementValue
  refine Tm.bind (tm_skipChannels hr hg hctx hX hp hcur) ?_
  intro r _
  unfold matchByte
  cases r.2 with
  | nil => exact Tm.fail
  | cons b rest => exact Tm.ite (fun _ => Tm.pure trivial) (fun _ => Tm.pure trivial)

theorem tm_elementContent {ctx : Ctx} (hctx : CtxT N K X ctx) {L : Nat} {c : Content}
    (hc : c.All lineGuarded) (hcK : contentD c + 1 ≤ K) (hcX : contentX N c ≤ X)
    (hn : L * K + contentD c + optD ctx.escape + X ≤ n) {prev cur : Bytes}
    (hp : prev.length ≤ N) (hcur : cur.length ≤ N) (hL : cur.length ≤ L)
    (hrec : (Container.element 0 none c).isRecursive = true → cur.length < L) :
    Tm (TI N K X) (elementContent rec c ctx prev cur) (fun _ => True) := by
  have hmul : cur.length * K ≤ L * K := Nat.mul_le_mul_right _ hL
  unfold elementContent
  cases c with
  | value nm number =>
    exact Tm.ite (fun _ => Tm.fail)
      (fun _ => tm_elementValue hr hg hctx (by omega) hp hcur number)
  | external name g =>
    refine Tm.bind (V := fun _ => True) ?_ (fun _ _ => Tm.pure trivial)
    unfold external
    simp only [Content.All, Grammar.All_iff] at hc
    rcases g with ⟨root, chs⟩
    simp only [Grammar.root, Grammar.channels] at hc ⊢
    simp only [contentX, grammarX] at hcX
    refine Tm.bind (Tm.fresh (J := StkAll (TokT N (tokenD root) (max (tokenX N root)
      (channelsX N chs)))) (stkAll_nil _) (hr N (tokenD root) (max (tokenX N root)
      (channelsX N chs)) root _ prev cur ⟨hc.1, Nat.le_refl _, Nat.le_max_left _ _⟩
      ⟨by simp, ?_⟩ hp hcur ?_)) (fun _ _ => Tm.pure trivial)
    · intro c h
      exact ⟨hc.2 c h, Nat.le_trans (channelsX_mem h) (Nat.le_max_right _ _)⟩
    · have : cur.length * tokenD root ≤ N * tokenD root := Nat.mul_le_mul_right _ hcur
      simp only [optD]
      omega
  | token t =>
    simp only [Content.All] at hc
    simp only [contentD] at hcK hn
    simp only [contentX] at hcX
    exact Tm.bind (hr N K X t ctx prev cur ⟨hc, by omega, hcX⟩ hctx hp hcur (by omega))
      (fun _ _ => Tm.pure trivial)
  | everything nm ex esc =>
    obtain ⟨e1, e2, e3⟩ := content_everything_bounds N nm ex esc
    rw [Content.All_everything] at hc
    rw [e1] at hcK hn
    refine Tm.bind (hr N K X ex _ prev cur ⟨hc.1, by omega, by omega⟩ ⟨?_, by simp⟩ hp hcur ?_)
      (fun _ _ => Tm.pure trivial)
    · intro t ht
      simp only at ht
      subst ht
      have := e3 t rfl
      simp only [optD] at hcK
      exact ⟨hc.2 t rfl, by omega, by omega⟩
    · simp only
      omega
  | recursive nm =>
    have hlt := hrec rfl
    refine Tm.bind (V := TokT N K X) ?_ ?_
    · intro s hs
      unfold recursiveToken
      split
      · rename_i e he
        exact ⟨hs, by simp, by intro a ha; simp at ha; exact ha ▸ stkAll_get hs he⟩
      · exact ⟨hs, by simp, by simp⟩
    · intro tok htok
      refine Tm.bind (hr N K X tok ctx prev cur htok hctx hp hcur ?_) (fun _ _ => Tm.pure trivial)
      have h1 : (cur.length + 1) * K ≤ L * K := Nat.mul_le_mul_right _ hlt
      have h2 : (cur.length + 1) * K = cur.length * K + K := Nat.succ_mul _ _
      have := htok.depth
      simp only [contentD] at hn
      omega

theorem tm_elementLoop {ctx : Ctx} (hctx : CtxT N K X ctx) {L : Nat} {c : Content}
    (hc : c.All lineGuarded) (hcK : contentD c + 1 ≤ K) (hcX : contentX N c ≤ X)
    (hn : L * K + contentD c + optD ctx.escape + X ≤ n) {max : Option Nat} (k : Nat) (st : ElState)
    (hp : st.prev.length ≤ N) (hcur : st.rem.length ≤ N) (hL : st.rem.length ≤ L)
    (hrec : (Container.element 0 none c).isRecursive = true → st.rem.length < L)
    (hk : st.rem.length < k) :
    Tm (TI N K X) (elementLoop rec c max ctx k st)
      (fun st' => st'.prev.length ≤ N ∧ st'.rem.length ≤ st.rem.length) := by
  induction k generalizing st with
  | zero => omega
  | succ k ih =>
    unfold elementLoop
    refine Tm.ite (fun _ => Tm.pure ⟨hp, Nat.le_refl _⟩) (fun hne => ?_)
    refine Tm.ite (fun _ => Tm.pure ⟨hp, Nat.le_refl _⟩) (fun _ => ?_)
    have htm : Tm (TI N K X) (element rec c ctx st.prev st.rem) (fun _ => True) := by
      unfold element
      refine Tm.ite (fun _ => Tm.fail) (fun _ => ?_)
      refine Tm.bind (tm_elementContent hr hg hctx hc hcK hcX hn hp hcur hL hrec) ?_
      intro r _
      unfold acceptContent
      cases r with
      | none => exact Tm.fail
      | some x => exact Tm.ite (fun _ => Tm.pure trivial) (fun _ => Tm.fail)
    have ha : containerAllowed Flags.any (.element 0 none c) :=
      lineAllowed_any (.mk [.element 0 none c]) _ (by simp [GLine.containers])
    refine Tm.bind (Tm.attempt (Tm.and htm any_stk (ens_element hg (any_ctx ctx)
      (Content.All_of lineAllowed_any c) ha st.prev st.rem))) ?_
    intro r hr'
    unfold elementNext
    cases r with
    | none => exact Tm.pure ⟨hp, Nat.le_refl _⟩
    | some x =>
      have hlt := (hr' x rfl).2.2.2
      refine Tm.weaken (ih ⟨st.list ++ [x.1], st.rem, x.2⟩ hcur ?_ ?_ ?_ ?_) ?_
      · simp only; omega
      · simp only; omega
      · intro h; simp only; omega
      · simp only; omega
      · intro st' h
        simp only at h
        exact ⟨h.1, by omega⟩

theorem tm_composeLoop {ctx : Ctx} (hctx : CtxT N K X ctx) (hX : X ≤ n) {prev : Bytes}
    (hp : prev.length ≤ N) (es : List (UInt8 × Nat)) {rem : Bytes} (hrem : rem.length ≤ N) :
    Tm (TI N K X) (composeLoop rec ctx prev es rem) (fun _ => True) := by
  induction es generalizing rem with
  | nil => exact Tm.pure trivial
  | cons e es ih =>
    unfold composeLoop
    refine Tm.bind (Tm.and (tm_elementValue hr hg hctx hX hp hrem e.1) any_stk
      (ens_elementValue hg (any_ctx ctx) e.1 prev rem)) ?_
    rintro r ⟨_, hr'⟩
    unfold composeNext
    cases r with
    | none => exact Tm.fail
    | some x =>
      have := (hr' x rfl).1.length_le
      exact ih (by omega)

theorem tm_lineLoop {ctx : Ctx} (hctx : CtxT N K X ctx) {L : Nat} {prev0 : Bytes}
    (hp0 : prev0.length ≤ N) (cs : List Container)
    (hcs : ∀ c ∈ cs, c.All lineGuarded ∧ containerD c + 1 ≤ K ∧ containerX N c ≤ X ∧
      L * K + containerD c + optD ctx.escape + X ≤ n)
    (seen : Bool) (hgd : guardedFrom seen cs) (st : LnState) (hp : st.prev.length ≤ N)
    (hcur : st.rem.length ≤ N) (hL : st.rem.length ≤ L)
    (hseen : seen = true → st.rem.length < L) (hX : X ≤ n) :
    Tm (TI N K X) (lineLoop rec ctx prev0 cs st) (fun _ => True) := by
  induction cs generalizing seen st with
  | nil => exact Tm.pure trivial
  | cons c cs ih =>
    obtain ⟨hg1, hg2⟩ := hgd
    unfold lineLoop
    have hc := hcs c (by simp)
    refine Tm.bind (V := fun st' : LnState => st'.prev.length ≤ N ∧ st'.rem.length ≤ st.rem.length ∧
      (c.mustOccur = true → st'.rem.length < st.rem.length)) ?_ ?_
    · unfold lineStep
      cases c with
      | compose cmp =>
        exact Tm.bind (tm_composeLoop hr hg hctx hX hp0 cmp.list hcur) (fun _ _ => Tm.fail)
      | element min max content =>
        have hrec : (Container.element 0 none content).isRecursive = true → st.rem.length < L := by
          intro h
          apply hseen
          apply hg1
          cases content <;> simp_all [Container.isRecursive]
        have ha : containerAllowed Flags.any (.element 0 max content) :=
          lineAllowed_any (.mk [.element 0 max content]) _ (by simp [GLine.containers])
        simp only [Container.All, containerD, containerX] at hc
        refine Tm.bind (Tm.and (tm_elementLoop hr hg hctx hc.1 hc.2.1 hc.2.2.1 hc.2.2.2
          (max := max) (st.rem.length + 1) ⟨[], st.prev, st.rem⟩ hp hcur hL hrec (by simp)) any_stk
          (ens_elementLoop hg (any_ctx ctx) (Content.All_of lineAllowed_any content) ha
            (cur := st.rem) (st.rem.length + 1) ⟨[], st.prev, st.rem⟩ ⟨Acc.refl _ _, by simp⟩)) ?_
        rintro r ⟨⟨h1, h2⟩, h3⟩
        refine Tm.ite (fun _ => Tm.fail) (fun hmin => Tm.pure ⟨h1, h2, ?_⟩)
        intro hmust
        apply h3.2
        intro hnil
        simp only [Container.mustOccur, decide_eq_true_eq] at hmust
        simp only [hnil, List.length_nil, goMin] at hmin
        rw [if_pos hmust.2] at hmin
        omega
    · intro st' h
      refine ih (fun c h => hcs c (by simp [h])) _ hg2 st' h.1 (by omega) (by omega) ?_
      intro hs
      rcases Bool.or_eq_true _ _ ▸ hs with h' | h'
      · have := hseen h'; omega
      · have := h.2.2 h'; omega

theorem tm_line {ctx : Ctx} (hctx : CtxT N K X ctx) {L : Nat} {tok : Token}
    (htok : TokT N K X tok) (hn : L * K + tokenD tok + optD ctx.escape + X ≤ n + 1) {g : GLine}
    (hgl : g ∈ tok.lines) (idx : Nat) {prev cur : Bytes}
    (hp : prev.length ≤ N) (hcur : cur.length ≤ N) (hL : cur.length ≤ L) :
    Tm (TI N K X) (line rec idx g ctx prev cur) (fun _ => True) := by
  have hX : X ≤ n := by
    have := tokenD_pos tok
    omega
  have hall := Token.All_iff.mp htok.guarded g hgl
  unfold line
  refine Tm.bind (tm_lineLoop hr hg hctx (L := L) hp g.containers ?_ false hall.1 ⟨[], prev, cur⟩ hp
    hcur hL (by simp) hX) (fun _ _ => Tm.pure trivial)
  intro c hc
  have h1 := containerD_lt hgl hc
  have h2 := containerX_le (N := N) hgl hc
  exact ⟨hall.2 c hc, Nat.le_trans h1 htok.depth, Nat.le_trans h2 htok.ext, by omega⟩

theorem tm_reverseLoop {ctx : Ctx} (hctx : CtxT N K X ctx) {L : Nat} {tok : Token}
    (htok : TokT N K X tok) (hn : L * K + tokenD tok + optD ctx.escape + X ≤ n + 1) {g : GLine}
    (hgl : g ∈ tok.lines) (idx : Nat) (k : Nat) (st : RvState)
    (hp : st.prev.length ≤ N) (hcur : st.rem.length ≤ N) (hL : st.rem.length ≤ L)
    (hk : st.rem.length < k) :
    Tm (TI N K X) (reverseLoop rec idx g ctx k st) (fun _ => True) := by
  induction k generalizing st with
  | zero => omega
  | succ k ih =>
    unfold reverseLoop
    refine Tm.ite (fun _ => Tm.pure trivial) (fun _ => ?_)
    refine Tm.bind (V := fun st' : RvState => st'.prev.length ≤ N ∧
      st'.rem.length ≤ st.rem.length) ?_ ?_
    · have hself : st.prev.length ≤ N ∧ st.rem.length ≤ st.rem.length := ⟨hp, Nat.le_refl _⟩
      unfold escapeStep
      cases he : ctx.escape with
      | none => exact Tm.pure hself
      | some esc =>
        have hesc := hctx.esc esc he
        refine Tm.bind (Tm.attempt (Tm.and (hr N K X esc ⟨none, ctx.channels, false⟩ st.prev st.rem
          hesc ⟨by simp, hctx.chs⟩ hp hcur ?_) any_stk
          (hg esc _ st.prev st.rem (any_tok esc) (any_ctx _)))) ?_
        · have hmul : st.rem.length * K ≤ L * K := Nat.mul_le_mul_right _ hL
          have := tokenD_pos tok
          simp only [he, optD] at hn
          simp only [optD]
          omega
        · intro r hr'
          unfold escapeLine
          cases r with
          | none => exact Tm.pure hself
          | some t =>
            have ht := (hr' t rfl).2.1.length_le
            refine Tm.ite (fun _ => ?_) (fun _ => Tm.pure hself)
            refine Tm.bind (Tm.attempt (tm_line hr hg hctx htok hn hgl idx hcur (by omega)
              (by omega))) ?_
            intro x _
            unfold escapeApply
            cases x with
            | none => exact Tm.pure hself
            | some x =>
              refine Tm.ite (fun _ => ?_) (fun _ => Tm.pure hself)
              refine Tm.ite (fun _ => Tm.pure ?_) (fun _ => Tm.crash)
              refine ⟨by simp only; omega, ?_⟩
              simp only [List.length_drop]
              omega
    · intro st' h
      refine Tm.bind (Tm.attempt (tm_line hr hg hctx htok hn hgl idx h.1 (by omega)
        (by omega))) ?_
      intro x _
      unfold reverseNext
      cases x with
      | some _ => exact Tm.pure trivial
      | none =>
        cases hrem : st'.rem with
        | nil => exact Tm.crash
        | cons b rest =>
          have hlen : st'.rem.length = rest.length + 1 := by rw [hrem]; rfl
          simp only
          apply ih
          · simp only [List.length_cons]; omega
          · simp only; omega
          · simp only; omega
          · simp only; omega

theorem tm_blockLoop {ctx : Ctx} (hctx : CtxT N K X ctx) {tok : Token}
    (htok : TokT N K X tok) {prev cur : Bytes}
    (hn : cur.length * K + tokenD tok + optD ctx.escape + X ≤ n + 1)
    (hp : prev.length ≤ N) (hcur : cur.length ≤ N) (idx : Nat) (gs : List GLine)
    (hgs : ∀ g ∈ gs, g ∈ tok.lines) (acc : List TLine) :
    Tm (TI N K X) (blockLoop rec tok ctx prev cur idx gs acc)
      (fun r => r.2.length ≤ cur.length) := by
  induction gs generalizing idx acc with
  | nil => exact Tm.pure (Nat.le_refl _)
  | cons g gs ih =>
    have ih' := fun idx acc => ih idx (fun g h => hgs g (by simp [h])) acc
    unfold blockLoop
    refine Tm.bind (V := fun _ => True) (fun s hs => ⟨hs, by simp [alreadyTried], by simp⟩) ?_
    intro skip _
    refine Tm.ite (fun _ => ih' _ _) (fun _ => ?_)
    refine Tm.bind (V := fun _ => True) ?_ ?_
    · intro s hs
      exact ⟨(ens_recordLine (pan := True) (idx := idx) (cur := cur) htok s hs).1,
        by simp [recordLine], by simp⟩
    intro _ _
    have hgl := hgs g (by simp)
    refine Tm.ite (fun _ => ?_) (fun _ => ?_)
    · unfold reverseLine
      have ha : ∀ c ∈ g.containers, c.All (lineAllowed Flags.any) ∧
          containerAllowed Flags.any c :=
        fun c hc => ⟨Container.All_of lineAllowed_any c, lineAllowed_any g c hc⟩
      refine Tm.bind (Tm.and (tm_reverseLoop hr hg hctx htok hn hgl idx _ _ hp hcur (Nat.le_refl _)
        (Nat.lt_succ_self _)) any_stk (ens_reverseLoop hg (any_ctx ctx) idx ha (cur := cur) _ _
          (Acc.refl _ _))) ?_
      rintro st ⟨_, h⟩
      exact Tm.ite (fun _ => Tm.fail) (fun _ => Tm.pure h.1.length_le)
    · have ha : ∀ c ∈ g.containers, c.All (lineAllowed Flags.any) ∧
          containerAllowed Flags.any c :=
        fun c hc => ⟨Container.All_of lineAllowed_any c, lineAllowed_any g c hc⟩
      refine Tm.bind (Tm.attempt (Tm.and (tm_line hr hg hctx htok hn hgl idx hp hcur
        (Nat.le_refl _)) any_stk (ens_line hg (any_ctx ctx) idx ha prev cur))) ?_
      intro x hx
      unfold lineNext
      cases x with
      | none => exact ih' _ _
      | some x =>
        exact Tm.ite (fun _ => Tm.pure (hx x rfl).2.1.1.1.length_le) (fun _ => ih' _ _)

theorem termRec_tokenBody : TermRec (n + 1) (tokenBody rec) := by
  intro N K X t ctx prev cur ht hctx hp hcur hn
  have hX : X ≤ n := by
    have := tokenD_pos t
    omega
  unfold tokenBody
  refine Tm.bind (V := fun _ => True) ?_ ?_
  · intro s hs
    refine ⟨(ens_enter (pan := True) ht s hs).1, ?_, by simp⟩
    unfold enter
    split <;> simp
  intro _ _
  refine Tm.bind (Tm.thenDelete (fun s hs => stkAll_del hs _)
    (tm_blockLoop hr hg hctx ht hn hp hcur 0 t.lines (fun g h => h) [])) ?_
  intro r hr'
  refine Tm.ite (fun _ => Tm.fail) (fun _ => ?_)
  exact Tm.bind (tm_skipChannels hr hg hctx hX hp (by omega)) (fun _ _ => Tm.pure trivial)

end

theorem token_term (n : Nat) : TermRec n (token n) := by
  induction n with
  | zero =>
    intro N K X t ctx prev cur _ _ _ _ h
    have := tokenD_pos t
    omega
  | succ n ih => exact termRec_tokenBody ih (token_good Flags.any n)

/-- Guarded grammars: the nesting is bounded by `grammarX`. -/
theorem execute_terminates {g : Grammar} (hg : g.All lineGuarded) (input : Bytes) :
    execute (grammarX input.length g) g input ≠ .oof := by
  rcases g with ⟨root, chs⟩
  rw [Grammar.All_iff] at hg
  simp only [Grammar.root, Grammar.channels] at hg
  have := token_term (grammarX input.length (.mk root chs)) input.length (tokenD root)
    (max (tokenX input.length root) (channelsX input.length chs)) root ⟨none, chs, false⟩ [] input
    ⟨hg.1, Nat.le_refl _, Nat.le_max_left _ _⟩ ⟨by simp, ?_⟩ (Nat.zero_le _) (Nat.le_refl _) ?_ []
    (stkAll_nil _)
  · exact this.2.1
  · intro c hc
    exact ⟨hg.2 c hc, Nat.le_trans (channelsX_mem hc) (Nat.le_max_right _ _)⟩
  · simp only [grammarX, optD]
    omega

end Rodkina.Ast
