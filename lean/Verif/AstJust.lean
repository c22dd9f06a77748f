import Verif.AstTerm
import Verif.AstSpec

/-!
# Every returned tree is a derivation

`token_just`: the successful line of every tree returned by the parser is justified in the sense of
`TreeOK`, on inputs shorter than 2^63 bytes (every Go slice is).
-/

namespace Rodkina.Ast

open M

theorem Ens.fresh' {α : Type} {I J : Stk → Prop} {pan : Prop} {m : M α} {V : α → Prop} (h0 : J [])
    (hm : Ens J pan m V) : Ens I pan (M.fresh m) V := by
  intro s hs
  obtain ⟨_, h2, h3⟩ := hm [] h0
  exact ⟨hs, h2, h3⟩

theorem Ens.andAny {α : Type} {I J : Stk → Prop} {pan pan' : Prop} {m : M α} {V W : α → Prop}
    (h1 : Ens I pan m V) (hJ : ∀ s, J s) (h2 : Ens J pan' m W) :
    Ens I pan m (fun a => V a ∧ W a) := by
  intro s hs
  exact ⟨(h1 s hs).1, fun a ha => ⟨(h1 s hs).2.1 a ha, (h2 s (hJ s)).2.1 a ha⟩, (h1 s hs).2.2⟩

/-- Every entry of the map is a token of `path`, stored under its own name. -/
def SP (path : List Token) (s : Stk) : Prop :=
  ∀ k e, (k, e) ∈ s → e.token ∈ path ∧ e.token.name = k

theorem sp_nil (path : List Token) : SP path [] := by simp [SP]

/-- The recursive call returns justified trees on inputs of fewer than 2^63 bytes. -/
def JustRec (rec : Rec) : Prop :=
  ∀ path t ctx prev cur, cur.length < 2 ^ 63 →
    ∀ s, SP path s → SP path (rec t ctx prev cur s).2 ∧
      ∀ tree, (rec t ctx prev cur s).1 = .ok tree → tree.isSuccessful = true →
        TreeOK path ctx.channels ctx.reverse t tree

theorem JustRec.ens {rec : Rec} (h : JustRec rec) (path : List Token) (t : Token) (ctx : Ctx)
    (prev cur : Bytes) (hlen : cur.length < 2 ^ 63) :
    Ens (SP path) True (rec t ctx prev cur)
      (fun tree => tree.isSuccessful = true → TreeOK path ctx.channels ctx.reverse t tree) :=
  fun s hs => ⟨(h path t ctx prev cur hlen s hs).1, (h path t ctx prev cur hlen s hs).2,
    fun _ => trivial⟩

section
variable {rec : Rec} (hj : JustRec rec) (hg : GoodRec Flags.any rec) {path : List Token}
include hj hg

theorem just_condMatch (o : Option Token) (data : Bytes) :
    Ens (SP path) True (condMatch rec o data) (fun _ => True) := by
  unfold condMatch
  cases o with
  | none => exact Ens.pure trivial
  | some t =>
    refine Ens.bind (V := fun _ => True) ?_ (fun _ _ => Ens.pure trivial)
    exact Ens.fresh' (J := fun _ => True) trivial (ens_trivial _)

theorem just_channel {c : Channel} {prev cur : Bytes} (hlen : cur.length < 2 ^ 63) :
    Ens (SP path) True (channel rec c prev cur)
      (fun r => ∀ t, r = some t → t.isSuccessful = true → TreeOK [] [] false c.token t) := by
  unfold channel
  refine Ens.bind (Ens.fresh' (sp_nil []) (hj.ens [] c.token Ctx.plain prev cur hlen)) ?_
  intro t ht
  refine Ens.bind (V := fun _ => True) ?_ ?_
  · unfold channelCondition
    refine Ens.bind (just_condMatch hj hg _ _) (fun _ _ => ?_)
    refine Ens.bind (just_condMatch hj hg _ _) (fun _ _ => Ens.pure trivial)
  · intro b _
    apply Ens.pure
    intro t' h
    cases b
    · simp at h
    · simp at h; exact h ▸ ht

theorem just_channelRound {all chs : List Channel} (hsub : ∀ c ∈ chs, c ∈ all) (st : ChState)
    (hlen : st.rem.length < 2 ^ 63) (hst : ∀ t ∈ st.list, ChannelTree all t) :
    Ens (SP path) True (channelRound rec chs st)
      (fun st' => st'.rem.length < 2 ^ 63 ∧ ∀ t ∈ st'.list, ChannelTree all t) := by
  induction chs generalizing st with
  | nil => exact Ens.pure ⟨hlen, hst⟩
  | cons c cs ih =>
    unfold channelRound
    refine Ens.bind (Ens.attempt (just_channel hj hg hlen)) ?_
    intro r hr
    refine Ens.bind (V := fun st' : ChState => st'.rem.length < 2 ^ 63 ∧
      ∀ t ∈ st'.list, ChannelTree all t) ?_ ?_
    · unfold channelApply
      split
      · rename_i tree
        unfold sliceFrom
        refine Ens.bind (V := fun rem : Bytes => rem = st.rem.drop (tree.bytes true).length) ?_ ?_
        · exact Ens.ite (fun _ => Ens.pure rfl) (fun _ => Ens.crash trivial)
        · intro rem hrem
          subst hrem
          refine Ens.ite (fun _ => Ens.pure ⟨hlen, hst⟩) (fun hne => Ens.pure ⟨?_, ?_⟩)
          · simp only [List.length_drop]; omega
          · intro t ht
            rcases List.mem_append.mp ht with h | h
            · exact hst t h
            · simp only [List.mem_singleton] at h
              subst h
              refine .mk _ c _ (hsub c (by simp)) (hr _ rfl _ rfl ?_)
              cases hs : t.isSuccessful with
              | true => rfl
              | false =>
                exfalso
                apply hne
                simp [Tree.bytes_of_not_successful hs]
      · exact Ens.pure ⟨hlen, hst⟩
    · intro st' h
      exact ih (fun c h => hsub c (by simp [h])) st' h.1 h.2

theorem just_skipChannels (chs : List Channel) {prev cur : Bytes} (hlen : cur.length < 2 ^ 63) :
    Ens (SP path) True (skipChannels rec chs prev cur)
      (fun r => r.2.length < 2 ^ 63 ∧ ∀ t ∈ r.1, ChannelTree chs t) := by
  have hloop : ∀ (k : Nat) (st : ChState), st.rem.length < 2 ^ 63 →
      (∀ t ∈ st.list, ChannelTree chs t) → Ens (SP path) True (channelLoop rec chs k st)
        (fun st' => st'.rem.length < 2 ^ 63 ∧ ∀ t ∈ st'.list, ChannelTree chs t) := by
    intro k
    induction k with
    | zero => intro st _ _; exact Ens.oof
    | succ k ih =>
      intro st h1 h2
      unfold channelLoop
      refine Ens.bind (just_channelRound hj hg (fun c h => h) st h1 h2) ?_
      intro st' h
      exact Ens.ite (fun _ => Ens.pure h) (fun _ => ih st' h.1 h.2)
  unfold skipChannels
  refine Ens.ite (fun _ => Ens.pure ⟨hlen, by simp⟩) (fun _ => ?_)
  refine Ens.bind (Ens.attempt (V := fun r : List Tree × Bytes => r.2.length < 2 ^ 63 ∧
    ∀ t ∈ r.1, ChannelTree chs t) ?_) ?_
  · unfold channels
    refine Ens.bind (hloop _ ⟨[], prev, cur⟩ hlen (by simp)) ?_
    intro st h
    exact Ens.ite (fun _ => Ens.fail) (fun _ => Ens.pure h)
  · intro r hr
    apply Ens.pure
    cases r with
    | none => exact ⟨hlen, by simp [orUnchanged]⟩
    | some x => exact hr x rfl

theorem just_elementValue {ctx : Ctx} {name : String} {number : UInt8} {prev cur : Bytes}
    (hlen : cur.length < 2 ^ 63) :
    Ens (SP path) True (elementValue rec number ctx prev cur)
      (fun r => ∀ x, r = some x → ContentOK path ctx.channels (.value name number) x.1) := by
  unfold elementValue
  refine Ens.bind (just_skipChannels hj hg ctx.channels hlen) ?_
  rintro ⟨pre, rem⟩ ⟨_, h⟩
  unfold matchByte
  cases rem with
  | nil => exact Ens.fail
  | cons b rest =>
    refine Ens.ite (fun hb => Ens.pure ?_) (fun _ => Ens.pure (by simp))
    intro x hx
    simp at hx
    subst hx
    subst hb
    exact .value _ _ _ _ _ h

theorem just_elementContent {ctx : Ctx} (hrev : ctx.reverse = false) {c : Content}
    {prev cur : Bytes} (hlen : cur.length < 2 ^ 63) :
    Ens (SP path) True (elementContent rec c ctx prev cur)
      (fun r => ∀ x, r = some x → x.1.isSuccessful = true → ContentOK path ctx.channels c x.1) := by
  unfold elementContent
  cases c with
  | value name number =>
    refine Ens.ite (fun _ => Ens.fail) (fun _ => ?_)
    refine Ens.weaken (just_elementValue hj hg (name := name) hlen) ?_
    intro r h x hx _
    exact h x hx
  | external name g =>
    rcases g with ⟨root, chs⟩
    refine Ens.bind (V := fun t => t.isSuccessful = true → ContentOK path ctx.channels
      (.external name (.mk root chs)) (.tree t)) ?_ ?_
    · unfold external
      simp only [Grammar.root, Grammar.channels]
      refine Ens.bind (Ens.fresh' (sp_nil []) (hj.ens [] root ⟨none, chs, ctx.reverse⟩ prev cur
        hlen)) ?_
      intro t ht
      apply Ens.pure
      intro hs
      have hs' : t.isSuccessful = true := hs
      have h := ht hs'
      simp only [hrev] at h
      rcases t with ⟨tg, ⟨ls, _ | l⟩, suf, r⟩
      · simp [Tree.isSuccessful, Tree.block, Block.successful] at hs'
      · simp only [Tree.block]
        have htg : tg = root := by cases h <;> rfl
        subst htg
        exact .external _ _ _ _ _ _ _ _ _ h
    · intro t ht
      apply Ens.pure
      intro x hx
      simp only [treeContent, Option.some.injEq] at hx
      subst hx
      exact ht
  | token t =>
    refine Ens.bind (hj.ens path t ctx prev cur hlen) ?_
    intro t ht
    apply Ens.pure
    intro x hx
    simp only [treeContent, Option.some.injEq] at hx
    subst hx
    intro hs
    rw [hrev] at ht
    exact .token _ _ _ _ (ht hs)
  | everything n ex esc =>
    refine Ens.bind (hj.ens path ex _ prev cur hlen) ?_
    intro t ht
    apply Ens.pure
    intro x hx
    simp only [treeContent, Option.some.injEq] at hx
    subst hx
    intro hs
    simp only [hrev, Bool.not_false] at ht
    exact .everything _ _ _ _ _ _ (ht hs)
  | recursive n =>
    refine Ens.bind (V := fun tok => tok ∈ path ∧ tok.name = n) ?_ ?_
    · intro s hs
      unfold recursiveToken
      split
      · rename_i e he
        refine ⟨hs, ?_, by simp⟩
        intro a ha
        simp at ha
        exact ha ▸ hs _ _ (get_mem he)
      · exact ⟨hs, by simp, by simp⟩
    · rintro tok ⟨hmem, rfl⟩
      refine Ens.bind (hj.ens path tok ctx prev cur hlen) ?_
      intro t ht
      apply Ens.pure
      intro x hx
      simp only [treeContent, Option.some.injEq] at hx
      subst hx
      intro hs
      rw [hrev] at ht
      exact .recursive _ _ _ _ hmem (ht hs)

theorem just_element {ctx : Ctx} (hrev : ctx.reverse = false) {c : Content}
    {prev cur : Bytes} (hlen : cur.length < 2 ^ 63) :
    Ens (SP path) True (element rec c ctx prev cur)
      (fun x => ContentOK path ctx.channels c x.1 ∧ x.2.length < cur.length) := by
  have ha : containerAllowed Flags.any (.element 0 none c) :=
    lineAllowed_any (.mk [.element 0 none c]) _ (by simp [GLine.containers])
  have h1 : Ens (SP path) True (element rec c ctx prev cur)
      (fun x => ContentOK path ctx.channels c x.1) := by
    unfold element
    refine Ens.ite (fun _ => Ens.fail) (fun _ => ?_)
    refine Ens.bind (just_elementContent hj hg hrev hlen) ?_
    intro r hr
    unfold acceptContent
    cases r with
    | none => exact Ens.fail
    | some x => exact Ens.ite (fun hs => Ens.pure (hr x rfl hs)) (fun _ => Ens.fail)
  refine Ens.weaken (Ens.andAny h1 any_stk (ens_element hg (any_ctx ctx)
    (Content.All_of lineAllowed_any c) ha prev cur)) ?_
  rintro x ⟨a, _, _, b⟩
  exact ⟨a, b⟩

/-- Invariant of the element loop. -/
def ElJ (path : List Token) (chs : List Channel) (c : Content) (max : Option Nat) (L : Nat)
    (st : ElState) : Prop :=
  st.list.length + st.rem.length ≤ L ∧ (∀ m, max = some m → st.list.length ≤ m) ∧
  ∀ x ∈ st.list, ContentOK path chs c x

theorem just_elementLoop {ctx : Ctx} (hrev : ctx.reverse = false) {c : Content} {max : Option Nat}
    {L : Nat} (hL : L < 2 ^ 63) (k : Nat) (st : ElState)
    (hst : ElJ path ctx.channels c max L st) :
    Ens (SP path) True (elementLoop rec c max ctx k st) (ElJ path ctx.channels c max L) := by
  induction k generalizing st with
  | zero => exact Ens.oof
  | succ k ih =>
    unfold elementLoop
    refine Ens.ite (fun _ => Ens.pure hst) (fun _ => ?_)
    refine Ens.ite (fun _ => Ens.pure hst) (fun hmax => ?_)
    have hlen : st.rem.length < 2 ^ 63 := by have := hst.1; omega
    refine Ens.bind (Ens.attempt (just_element hj hg hrev hlen)) ?_
    intro r hr
    unfold elementNext
    cases r with
    | none => exact Ens.pure hst
    | some x =>
      obtain ⟨hx, hlt⟩ := hr x rfl
      apply ih
      refine ⟨?_, ?_, ?_⟩
      · have := hst.1
        simp only [List.length_append, List.length_singleton]
        omega
      · intro m hm
        subst hm
        simp only [reachedMax, decide_eq_true_eq, not_le] at hmax
        simp only [List.length_append, List.length_singleton]
        omega
      · intro y hy
        rcases List.mem_append.mp hy with h | h
        · exact hst.2.2 y h
        · simp only [List.mem_singleton] at h
          exact h ▸ hx

end

/-! ### A finished token is forgotten -/

/-- After a call that returns a tree, the name of the token is no longer in the map. -/
def Forgets (rec : Rec) : Prop :=
  ∀ t ctx prev cur s tree, (rec t ctx prev cur s).1 = .ok tree →
    (rec t ctx prev cur s).2.get t.name = none

theorem Ens.also {α : Type} {I : Stk → Prop} {pan : Prop} {m : M α} {V W : α → Prop}
    (h1 : Ens I pan m V) (h2 : ∀ s, I s → ∀ a, (m s).1 = .ok a → W a) :
    Ens I pan m (fun a => V a ∧ W a) := by
  intro s hs
  exact ⟨(h1 s hs).1, fun a ha => ⟨(h1 s hs).2.1 a ha, h2 s hs a ha⟩, (h1 s hs).2.2⟩

/-- Channels use maps of their own. -/
theorem skipChannels_stk (rec : Rec) (chs : List Channel) (prev cur : Bytes) (I : Stk → Prop) :
    Ens I True (skipChannels rec chs prev cur) (fun _ => True) := by
  have hcond : ∀ o d, Ens I True (condMatch rec o d) (fun _ => True) := by
    intro o d
    unfold condMatch
    cases o with
    | none => exact Ens.pure trivial
    | some t =>
      exact Ens.bind (V := fun _ => True) (Ens.fresh' (J := fun _ => True) trivial (ens_trivial _))
        (fun _ _ => Ens.pure trivial)
  have hround : ∀ (cs : List Channel) (st : ChState),
      Ens I True (channelRound rec cs st) (fun _ => True) := by
    intro cs
    induction cs with
    | nil => intro st; exact Ens.pure trivial
    | cons c cs ih =>
      intro st
      unfold channelRound
      refine Ens.bind (V := fun _ => True) (Ens.weaken (Ens.attempt (V := fun _ => True) ?_)
        (fun _ _ => trivial)) (fun r _ => ?_)
      · unfold channel
        refine Ens.bind (V := fun _ => True)
          (Ens.fresh' (J := fun _ => True) trivial (ens_trivial _)) (fun t _ => ?_)
        refine Ens.bind (V := fun _ => True) ?_ (fun _ _ => Ens.pure trivial)
        unfold channelCondition
        exact Ens.bind (hcond _ _) (fun _ _ => Ens.bind (hcond _ _) (fun _ _ => Ens.pure trivial))
      · refine Ens.bind (V := fun _ => True) ?_ (fun st' _ => ih st')
        unfold channelApply
        split
        · unfold sliceFrom
          refine Ens.bind (V := fun _ => True)
            (Ens.ite (fun _ => Ens.pure trivial) (fun _ => Ens.crash trivial)) (fun rem _ => ?_)
          exact Ens.ite (fun _ => Ens.pure trivial) (fun _ => Ens.pure trivial)
        · exact Ens.pure trivial
  have hloop : ∀ (k : Nat) (st : ChState), Ens I True (channelLoop rec chs k st) (fun _ => True) := by
    intro k
    induction k with
    | zero => intro st; exact Ens.oof
    | succ k ih =>
      intro st
      unfold channelLoop
      refine Ens.bind (hround chs st) (fun st' _ => ?_)
      exact Ens.ite (fun _ => Ens.pure trivial) (fun _ => ih st')
  unfold skipChannels
  refine Ens.ite (fun _ => Ens.pure trivial) (fun _ => ?_)
  refine Ens.bind (V := fun _ => True) (Ens.weaken (Ens.attempt (V := fun _ => True) ?_)
    (fun _ _ => trivial)) (fun _ _ => Ens.pure trivial)
  unfold channels
  exact Ens.bind (hloop _ _) (fun _ _ => Ens.ite (fun _ => Ens.fail) (fun _ => Ens.pure trivial))

theorem get_del (s : Stk) (k : String) : (s.del k).get k = none := by
  unfold Stk.get Stk.del
  rw [List.lookup_eq_none_iff]
  intro p hp
  have := (List.mem_filter.mp hp).2
  simp only [bne_iff_ne, ne_eq] at this
  simpa using fun h => this h.symm

theorem forgets_tokenBody (rec : Rec) : Forgets (tokenBody rec) := by
  intro tok ctx prev cur s tree
  unfold tokenBody
  rw [bind_apply]
  rcases enter tok s with ⟨o, s1⟩
  cases o with
  | err => simp
  | panic => simp
  | oof => simp
  | ok u =>
    simp only
    rw [bind_apply]
    unfold M.thenDelete
    rcases blockLoop rec tok ctx prev cur 0 tok.lines [] s1 with ⟨o, s2⟩
    cases o with
    | err => simp
    | panic => simp
    | oof => simp
    | ok r =>
      simp only
      have : Ens (fun s => s.get tok.name = none) True
          (if r.1.isEmpty then fail else do
            let s ← skipChannels rec ctx.channels prev r.2
            pure (Tree.mk tok (mkBlock r.1) s.1 s.2)) (fun _ => True) :=
        Ens.ite (fun _ => Ens.fail) (fun _ =>
          Ens.bind (skipChannels_stk rec _ _ _ _) (fun _ _ => Ens.pure trivial))
      intro _
      exact (this _ (get_del s2 tok.name)).1

theorem token_forgets (n : Nat) : Forgets (token n) := by
  cases n with
  | zero => intro t ctx prev cur s tree h; simp [token, M.oof] at h
  | succ n => exact forgets_tokenBody (token n)

/-- A reference by name matches at most once in a row: after the first match its token is
forgotten. -/
theorem once_elementLoop {rec : Rec} (hf : Forgets rec) {path : List Token} {s : Stk}
    (hs : SP path s) {name : String} {max : Option Nat} {ctx : Ctx} {k : Nat} {prev rem : Bytes}
    {r : ElState}
    (h : (elementLoop rec (.recursive name) max ctx k ⟨[], prev, rem⟩ s).1 = .ok r) :
    r.list.length ≤ 1 := by
  have helem : ∀ p d s x, SP path s → (element rec (.recursive name) ctx p d s).1 = .ok x →
      (element rec (.recursive name) ctx p d s).2.get name = none := by
    intro p d s x hs hx
    unfold element at hx ⊢
    by_cases hd : d.isEmpty = true
    · rw [if_pos hd] at hx; simp [M.fail] at hx
    · rw [if_neg hd] at hx ⊢
      simp only [elementContent] at hx ⊢
      rw [bind_apply, bind_apply] at hx ⊢
      unfold recursiveToken at hx ⊢
      cases hg : s.get name with
      | none => rw [hg] at hx; simp at hx
      | some e =>
        have hn : e.token.name = name := (hs _ _ (get_mem hg)).2
        rw [hg] at hx
        simp only at hx ⊢
        rw [bind_apply] at hx ⊢
        rcases hr : rec e.token ctx p d s with ⟨o, s'⟩
        rw [hr] at hx
        cases o with
        | err => simp at hx
        | panic => simp at hx
        | oof => simp at hx
        | ok t =>
          have := hf e.token ctx p d s t (by rw [hr])
          rw [hr, hn] at this
          simp only [pure, M.ret, acceptContent, treeContent]
          split
          · exact this
          · exact this
  have hnone : ∀ p d s, s.get name = none → (element rec (.recursive name) ctx p d s).1 = .err := by
    intro p d s hg
    unfold element
    by_cases hd : d.isEmpty = true
    · rw [if_pos hd]; rfl
    · rw [if_neg hd]
      simp only [elementContent]
      rw [bind_apply, bind_apply]
      unfold recursiveToken
      rw [hg]
  cases k with
  | zero => simp [elementLoop, M.oof] at h
  | succ k =>
    rw [elementLoop] at h
    simp only at h
    by_cases h1 : rem.isEmpty = true
    · rw [if_pos h1] at h; simp only [pure, M.ret, Out.ok.injEq] at h; subst h; simp
    rw [if_neg h1] at h
    by_cases h2 : reachedMax max (List.length ([] : List TContent)) = true
    · rw [if_pos h2] at h; simp only [pure, M.ret, Out.ok.injEq] at h; subst h; simp
    rw [if_neg h2, bind_apply] at h
    unfold M.attempt at h
    have he := helem prev rem s
    rcases hel : element rec (.recursive name) ctx prev rem s with ⟨o, s'⟩
    rw [hel] at h he
    cases o with
    | panic => simp at h
    | oof => simp at h
    | err =>
      simp only [elementNext, pure, M.ret, Out.ok.injEq] at h
      subst h
      simp
    | ok x =>
      have hg := he x hs rfl
      simp only [elementNext, List.nil_append] at h
      cases k with
      | zero => simp [elementLoop, M.oof] at h
      | succ k =>
        rw [elementLoop] at h
        simp only at h
        by_cases h3 : x.2.isEmpty = true
        · rw [if_pos h3] at h; simp only [pure, M.ret, Out.ok.injEq] at h; subst h; simp
        rw [if_neg h3] at h
        by_cases h4 : reachedMax max (List.length [x.1]) = true
        · rw [if_pos h4] at h; simp only [pure, M.ret, Out.ok.injEq] at h; subst h; simp
        rw [if_neg h4, bind_apply] at h
        unfold M.attempt at h
        have hn := hnone rem x.2 s' hg
        rcases hel' : element rec (.recursive name) ctx rem x.2 s' with ⟨o', s''⟩
        rw [hel'] at h hn
        simp only at hn
        subst hn
        simp only [elementNext, pure, M.ret, Out.ok.injEq] at h
        subst h
        simp

/-- `ElementsOK` with the minima that `line` itself checks. -/
inductive ElementsW : List Token → List Channel → List Container → List TElement → Prop
  | nil (path : List Token) (chs : List Channel) : ElementsW path chs [] []
  | absent (path : List Token) (chs : List Channel) (min : Nat) (max : Option Nat) (c : Content)
      (cs : List Container) (es : List TElement) : goMin min = 0 →
      ElementsW path chs cs es → ElementsW path chs (.element min max c :: cs) es
  | present (path : List Token) (chs : List Channel) (min : Nat) (max : Option Nat) (c : Content)
      (cs : List Container) (xs : List TContent) (es : List TElement) :
      xs ≠ [] → (∀ m, max = some m → xs.length ≤ m) →
      (∀ name, c = .recursive name → xs.length = 1) →
      (∀ x ∈ xs, ContentOK path chs c x) →
      ElementsW path chs cs es →
      ElementsW path chs (.element min max c :: cs) (.mk (some (.element min max c)) xs :: es)

theorem ElementsW.append {path : List Token} {chs : List Channel} {a b : List Container}
    {x y : List TElement} (h1 : ElementsW path chs a x) (h2 : ElementsW path chs b y) :
    ElementsW path chs (a ++ b) (x ++ y) := by
  induction h1 with
  | nil => exact h2
  | absent min max c cs es h _ ih => exact .absent _ _ _ _ _ _ _ h ih
  | present min max c cs xs es ha hb hr hc _ ih =>
    exact .present _ _ _ _ _ _ _ _ ha hb hr hc ih

theorem elementsOK_of {path : List Token} {chs : List Channel} {cs : List Container}
    {es : List TElement} (h : ElementsW path chs cs es)
    (hok : ∀ e ∈ es, e.isSuccessful = true)
    (hmin : ∀ min max c, Container.element min max c ∈ cs → goMin min = 0 → min = 0) :
    ElementsOK path chs cs es := by
  induction h with
  | nil => exact .nil _ _
  | absent min max c cs es h0 _ ih =>
    have : min = 0 := hmin min max c (by simp) h0
    subst this
    exact .absent _ _ _ _ _ _ (ih hok (fun mi ma co h => hmin mi ma co (by simp [h])))
  | present min max c cs xs es ha hb hr hc _ ih =>
    refine .present _ _ _ _ _ _ _ _ ha ?_ hb hr hc
      (ih (fun e he => hok e (by simp [he])) (fun mi ma co h => hmin mi ma co (by simp [h])))
    have := hok _ (List.mem_cons_self ..)
    simp [TElement.isSuccessful] at this
    exact this.1

section
variable {rec : Rec} (hj : JustRec rec) (hg : GoodRec Flags.any rec) (hf : Forgets rec)
  {path : List Token}
include hj hg hf

theorem just_lineLoop {ctx : Ctx} (hrev : ctx.reverse = false) {prev0 : Bytes} {L : Nat}
    (hL : L < 2 ^ 63) (done cs : List Container) (st : LnState)
    (hW : ElementsW path ctx.channels done st.list) (hrem : st.rem.length ≤ L)
    (ham : ∀ e ∈ st.list, e.amount < 2 ^ 63) :
    Ens (SP path) True (lineLoop rec ctx prev0 cs st)
      (fun st' => ElementsW path ctx.channels (done ++ cs) st'.list ∧
        ∀ e ∈ st'.list, e.amount < 2 ^ 63) := by
  induction cs generalizing done st with
  | nil =>
    rw [List.append_nil]
    exact Ens.pure ⟨hW, ham⟩
  | cons c cs ih =>
    unfold lineLoop
    refine Ens.bind (V := fun st' : LnState =>
      ElementsW path ctx.channels (done ++ [c]) st'.list ∧ st'.rem.length ≤ L ∧
        ∀ e ∈ st'.list, e.amount < 2 ^ 63) ?_ ?_
    · unfold lineStep
      cases c with
      | compose cmp =>
        refine Ens.bind (V := fun _ => True) ?_ (fun _ _ => Ens.fail)
        have : ∀ (es : List (UInt8 × Nat)) (rem : Bytes), rem.length < 2 ^ 63 →
            Ens (SP path) True (composeLoop rec ctx prev0 es rem) (fun _ => True) := by
          intro es
          induction es with
          | nil => intro _ _; exact Ens.pure trivial
          | cons e es ih =>
            intro rem hrem
            unfold composeLoop
            refine Ens.bind (Ens.andAny (just_elementValue hj hg (name := "") hrem) any_stk
              (ens_elementValue hg (any_ctx ctx) e.1 prev0 rem)) ?_
            rintro r ⟨_, hr⟩
            unfold composeNext
            cases r with
            | none => exact Ens.fail
            | some x =>
              have := (hr x rfl).1.length_le
              exact ih _ (by omega)
        exact this _ _ (by omega)
      | element min max content =>
        refine Ens.bind (Ens.also (just_elementLoop hj hg hrev hL (max := max) (c := content) _
          ⟨[], st.prev, st.rem⟩ ⟨by simpa using hrem, by simp, by simp⟩)
          (W := fun r => ∀ name, content = .recursive name → r.list.length ≤ 1)
          (fun s hs r h name hn => by subst hn; exact once_elementLoop hf hs h)) ?_
        rintro r ⟨hr, honce⟩
        refine Ens.ite (fun _ => Ens.fail) (fun hmin => Ens.pure ?_)
        have hrem' : r.rem.length ≤ L := by have := hr.1; omega
        cases hl : r.list with
        | nil =>
          simp only [hl, List.length_nil, Nat.not_lt, Nat.le_zero] at hmin
          refine ⟨?_, hrem', by simpa using ham⟩
          have := hW.append (.absent path ctx.channels min max content [] [] hmin (.nil _ _))
          simpa using this
        | cons x xs =>
          have hP := ElementsW.present path ctx.channels min max content [] r.list []
            (by simp [hl]) hr.2.1 (fun name hn => by
              have := honce name hn
              rw [hl, List.length_cons] at this
              rw [hl, List.length_cons]
              omega) hr.2.2 (.nil _ _)
          refine ⟨?_, hrem', ?_⟩
          · have := hW.append hP
            simpa [hl] using this
          · intro e he
            simp only [List.isEmpty_cons, Bool.false_eq_true, if_false, List.mem_append,
              List.mem_singleton] at he
            rcases he with he | he
            · exact ham e he
            · subst he
              have := hr.1
              rw [hl] at this
              simp only [TElement.amount, TElement.contents]
              omega
    · intro st' h
      have := ih (done ++ [c]) st' h.1 h.2.1 h.2.2
      simpa using this

theorem just_line {ctx : Ctx} (hrev : ctx.reverse = false) {prev cur : Bytes}
    (hlen : cur.length < 2 ^ 63) (idx : Nat) (g : GLine) :
    Ens (SP path) True (line rec idx g ctx prev cur)
      (fun r => ∃ es, r.1 = .mk idx g false es ∧
        (r.1.isSuccessful = true → es ≠ [] ∧ ElementsOK path ctx.channels g.containers es)) := by
  unfold line
  refine Ens.bind (just_lineLoop hj hg hf hrev hlen [] g.containers ⟨[], prev, cur⟩ (.nil _ _)
    (Nat.le_refl _) (by simp)) ?_
  rintro st ⟨hW, ham⟩
  apply Ens.pure
  refine ⟨st.list, rfl, ?_⟩
  intro hs
  simp only [TLine.isSuccessful, Bool.false_or, Bool.and_eq_true, Bool.not_eq_true',
    List.isEmpty_eq_false_iff, List.all_eq_true] at hs
  obtain ⟨⟨hne, hall⟩, hsat⟩ := hs
  refine ⟨hne, elementsOK_of (by simpa using hW) hall ?_⟩
  intro min max c hc h0
  by_contra hmin
  have hge : 2 ^ 63 ≤ min := by
    unfold goMin at h0
    split at h0
    · exact absurd h0 hmin
    · omega
  have := hsat _ hc
  simp only [containerSatisfied, Bool.or_eq_true, decide_eq_true_eq, hmin, false_or,
    Option.any_eq_true] at this
  obtain ⟨e, he, hle⟩ := this
  have hmem : e ∈ st.list := by
    have := List.mem_of_find?_eq_some he
    simpa using this
  have := ham e hmem
  omega

end

theorem sp_put_enter {path : List Token} {tok : Token} {s : Stk} {e : Entry}
    (hs : SP (tok :: path) s) (he : e.token ∈ tok :: path) (hn : e.token.name = tok.name) :
    SP (tok :: path) (s.put tok.name e) := by
  intro k e' he'
  rcases List.mem_cons.mp he' with h | h
  · cases h; exact ⟨he, hn⟩
  · exact hs k e' (List.mem_filter.mp h).1

theorem sp_record {path : List Token} {tok : Token} {idx : Nat} {cur : Bytes} :
    Ens (SP (tok :: path)) True (recordLine tok idx cur) (fun _ => True) := by
  intro s hs
  refine ⟨?_, by simp, by simp⟩
  unfold recordLine
  cases hg : s.get tok.name with
  | none => exact sp_put_enter hs (by simp) rfl
  | some e =>
    have := hs _ _ (get_mem hg)
    exact sp_put_enter hs this.1 this.2

/-- What `block` returns: the first successful line is a justified line. -/
def BlkJ (path : List Token) (chs : List Channel) (rev : Bool) (tok : Token)
    (r : List TLine × Bytes) : Prop :=
  ∀ l, r.1.find? TLine.isSuccessful = some l →
    (rev = false ∧ ∃ i g es, l = .mk i g false es ∧ tok.lines[i]? = some g ∧ es ≠ [] ∧
      ElementsOK (tok :: path) chs g.containers es) ∨
    (rev = true ∧ ∃ i g bs, l = .mk i g true [.mk none (bs.map (.value []))] ∧
      tok.lines[i]? = some g ∧ bs ≠ [])

/-- Contents that are plain bytes. -/
def PlainBytes (cs : List TContent) : Prop := ∃ bs : Bytes, cs = bs.map (.value [])

theorem plainBytes_append {a b : List TContent} (ha : PlainBytes a) (hb : PlainBytes b) :
    PlainBytes (a ++ b) := by
  obtain ⟨x, rfl⟩ := ha
  obtain ⟨y, rfl⟩ := hb
  exact ⟨x ++ y, by simp⟩

section
variable {rec : Rec} (hj : JustRec rec) (hg : GoodRec Flags.any rec) (hf : Forgets rec)
  {path : List Token}
include hj hg

/-- In reverse mode only the map invariant matters for nested lines. -/
theorem sp_line {ctx : Ctx} {prev cur : Bytes} (hlen : cur.length < 2 ^ 63) (idx : Nat) (g : GLine) :
    Ens (SP path) True (line rec idx g ctx prev cur) (fun _ => True) := by
  have helem : ∀ (c : Content) (prev cur : Bytes), cur.length < 2 ^ 63 →
      Ens (SP path) True (element rec c ctx prev cur) (fun x => x.2.length < cur.length) := by
    intro c prev cur hlen
    have ha : containerAllowed Flags.any (.element 0 none c) :=
      lineAllowed_any (.mk [.element 0 none c]) _ (by simp [GLine.containers])
    have h1 : Ens (SP path) True (element rec c ctx prev cur) (fun _ => True) := by
      unfold element
      refine Ens.ite (fun _ => Ens.fail) (fun _ => ?_)
      refine Ens.bind (V := fun _ => True) ?_ ?_
      · unfold elementContent
        cases c with
        | value name number =>
          exact Ens.ite (fun _ => Ens.fail)
            (fun _ => Ens.weaken (just_elementValue hj hg (name := name) hlen) (fun _ _ => trivial))
        | external name g =>
          refine Ens.bind (V := fun _ => True) ?_ (fun _ _ => Ens.pure trivial)
          unfold external
          exact Ens.bind (V := fun _ => True)
            (Ens.fresh' (J := fun _ => True) trivial (ens_trivial _))
            (fun _ _ => Ens.pure trivial)
        | token t =>
          exact Ens.bind (hj.ens path t ctx prev cur hlen) (fun _ _ => Ens.pure trivial)
        | everything n ex esc =>
          exact Ens.bind (hj.ens path ex _ prev cur hlen) (fun _ _ => Ens.pure trivial)
        | recursive n =>
          refine Ens.bind (V := fun _ => True) ?_ ?_
          · intro s hs
            unfold recursiveToken
            split
            · exact ⟨hs, by simp, by simp⟩
            · exact ⟨hs, by simp, by simp⟩
          · intro tok _
            exact Ens.bind (hj.ens path tok ctx prev cur hlen) (fun _ _ => Ens.pure trivial)
      · intro r _
        unfold acceptContent
        cases r with
        | none => exact Ens.fail
        | some x => exact Ens.ite (fun hs => Ens.pure trivial) (fun _ => Ens.fail)
    refine Ens.weaken (Ens.andAny h1 any_stk (ens_element hg (any_ctx ctx)
      (Content.All_of lineAllowed_any c) ha prev cur)) ?_
    rintro x ⟨_, _, _, b⟩
    exact b
  have hloop : ∀ (c : Content) (max : Option Nat) (k : Nat) (st : ElState),
      st.rem.length < 2 ^ 63 → Ens (SP path) True (elementLoop rec c max ctx k st)
        (fun st' => st'.rem.length < 2 ^ 63) := by
    intro c max k
    induction k with
    | zero => intro st _; exact Ens.oof
    | succ k ih =>
      intro st hst
      unfold elementLoop
      refine Ens.ite (fun _ => Ens.pure hst) (fun _ => ?_)
      refine Ens.ite (fun _ => Ens.pure hst) (fun _ => ?_)
      refine Ens.bind (Ens.attempt (helem c _ _ hst)) ?_
      intro r hr
      unfold elementNext
      cases r with
      | none => exact Ens.pure hst
      | some x =>
        have := hr x rfl
        exact ih _ (by simp only; omega)
  have hcomp : ∀ (es : List (UInt8 × Nat)) (rem : Bytes), rem.length < 2 ^ 63 →
      Ens (SP path) True (composeLoop rec ctx prev es rem) (fun _ => True) := by
    intro es
    induction es with
    | nil => intro _ _; exact Ens.pure trivial
    | cons e es ih =>
      intro rem hrem
      unfold composeLoop
      refine Ens.bind (Ens.andAny (just_elementValue hj hg (name := "") hrem) any_stk
        (ens_elementValue hg (any_ctx ctx) e.1 prev rem)) ?_
      rintro r ⟨_, hr⟩
      unfold composeNext
      cases r with
      | none => exact Ens.fail
      | some x =>
        have := (hr x rfl).1.length_le
        exact ih _ (by omega)
  have hll : ∀ (cs : List Container) (st : LnState), st.rem.length < 2 ^ 63 →
      Ens (SP path) True (lineLoop rec ctx prev cs st) (fun _ => True) := by
    intro cs
    induction cs with
    | nil => intro _ _; exact Ens.pure trivial
    | cons c cs ih =>
      intro st hst
      unfold lineLoop
      refine Ens.bind (V := fun st' : LnState => st'.rem.length < 2 ^ 63) ?_ (fun st' h => ih st' h)
      unfold lineStep
      cases c with
      | compose cmp => exact Ens.bind (hcomp _ _ hst) (fun _ _ => Ens.fail)
      | element min max content =>
        refine Ens.bind (hloop content max _ ⟨[], st.prev, st.rem⟩ hst) ?_
        intro r hr
        exact Ens.ite (fun _ => Ens.fail) (fun _ => Ens.pure hr)
  unfold line
  exact Ens.bind (hll _ ⟨[], prev, cur⟩ hlen) (fun _ _ => Ens.pure trivial)

theorem just_reverseLoop {ctx : Ctx} (idx : Nat) (g : GLine) (k : Nat) (st : RvState)
    (hlen : st.rem.length < 2 ^ 63) (hst : PlainBytes st.list) :
    Ens (SP path) True (reverseLoop rec idx g ctx k st) (fun st' => PlainBytes st'.list) := by
  induction k generalizing st with
  | zero => exact Ens.oof
  | succ k ih =>
    unfold reverseLoop
    refine Ens.ite (fun _ => Ens.pure hst) (fun _ => ?_)
    refine Ens.bind (V := fun st' : RvState => st'.rem.length < 2 ^ 63 ∧ PlainBytes st'.list) ?_ ?_
    · unfold escapeStep
      cases ctx.escape with
      | none => exact Ens.pure ⟨hlen, hst⟩
      | some esc =>
        refine Ens.bind (Ens.attempt (Ens.andAny (hj.ens path esc _ st.prev st.rem hlen) any_stk
          (hg esc ⟨none, ctx.channels, false⟩ st.prev st.rem (any_tok _) (any_ctx _)))) ?_
        intro r hr
        unfold escapeLine
        cases r with
        | none => exact Ens.pure ⟨hlen, hst⟩
        | some t =>
          have ht := (hr t rfl).2.1.length_le
          refine Ens.ite (fun _ => ?_) (fun _ => Ens.pure ⟨hlen, hst⟩)
          refine Ens.bind (Ens.attempt (sp_line hj hg (by omega) idx g)) ?_
          intro r _
          unfold escapeApply
          cases r with
          | none => exact Ens.pure ⟨hlen, hst⟩
          | some x =>
            refine Ens.ite (fun _ => ?_) (fun _ => Ens.pure ⟨hlen, hst⟩)
            refine Ens.ite (fun _ => Ens.pure ⟨?_, plainBytes_append hst ⟨_, rfl⟩⟩)
              (fun _ => Ens.crash trivial)
            simp only [List.length_drop]
            omega
    · intro st' h
      refine Ens.bind (Ens.attempt (sp_line hj hg h.1 idx g)) ?_
      intro r _
      unfold reverseNext
      cases r with
      | some _ => exact Ens.pure h.2
      | none =>
        cases hrem : st'.rem with
        | nil => exact Ens.crash trivial
        | cons b rest =>
          have h1 := h.1
          rw [hrem, List.length_cons] at h1
          simp only
          exact ih _ (by simp only; omega) (plainBytes_append h.2 ⟨[b], rfl⟩)

include hf in
theorem just_blockLoop {ctx : Ctx} {tok : Token} {prev cur : Bytes}
    (hlen : cur.length < 2 ^ 63) (idx : Nat) (gs : List GLine)
    (hgs : ∀ i : Nat, gs[i]? = tok.lines[idx + i]?) (acc : List TLine)
    (hacc : ∀ l ∈ acc, l.isSuccessful = false) :
    Ens (SP (tok :: path)) True (blockLoop rec tok ctx prev cur idx gs acc)
      (BlkJ path ctx.channels ctx.reverse tok) := by
  have hnone : ∀ a : List TLine, (∀ l ∈ a, l.isSuccessful = false) →
      a.find? TLine.isSuccessful = none := by
    intro a ha
    rw [List.find?_eq_none]
    intro l hl
    simp [ha l hl]
  induction gs generalizing idx acc with
  | nil =>
    unfold blockLoop
    apply Ens.pure
    intro l hl
    rw [hnone acc hacc] at hl
    exact absurd hl (by simp)
  | cons g gs ih =>
    have hgi : tok.lines[idx]? = some g := by
      have := hgs 0
      simpa using this.symm
    have ih' := fun acc => ih (idx + 1) (fun i => by
      have := hgs (i + 1)
      rw [List.getElem?_cons_succ] at this
      rw [this]
      congr 1
      omega) acc
    unfold blockLoop
    refine Ens.bind ens_alreadyTried ?_
    intro skip _
    refine Ens.ite (fun _ => ih' _ hacc) (fun _ => ?_)
    refine Ens.bind sp_record ?_
    intro _ _
    refine Ens.ite (fun hrev => ?_) (fun hrev => ?_)
    · unfold reverseLine
      refine Ens.bind (just_reverseLoop hj hg idx g _ ⟨[], prev, cur⟩ hlen ⟨[], rfl⟩) ?_
      rintro st ⟨bs, hbs⟩
      refine Ens.ite (fun _ => Ens.fail) (fun hne => Ens.pure ?_)
      intro l hl
      simp only [List.find?_append, hnone acc hacc, Option.none_or] at hl
      have hm := List.mem_of_find?_eq_some hl
      simp only [List.mem_singleton] at hm
      right
      refine ⟨hrev, idx, g, bs, by rw [hm, hbs], hgi, ?_⟩
      intro h
      subst h
      simp [hbs] at hne
    · have hrev' : ctx.reverse = false := by simpa using hrev
      refine Ens.bind (Ens.attempt (just_line hj hg hf hrev' hlen idx g)) ?_
      intro r hr
      unfold lineNext
      cases r with
      | none => exact ih' _ hacc
      | some x =>
        obtain ⟨es, hx, hok⟩ := hr x rfl
        refine Ens.ite (fun hs => Ens.pure ?_) (fun hs => ?_)
        · intro l hl
          simp only [List.find?_append, hnone acc hacc, Option.none_or] at hl
          have hm := List.mem_of_find?_eq_some hl
          simp only [List.mem_singleton] at hm
          left
          have := hok hs
          exact ⟨hrev', idx, g, es, hm.trans hx, hgi, this.1, this.2⟩
        · apply ih'
          intro l hl
          rcases List.mem_append.mp hl with h | h
          · exact hacc l h
          · simp only [List.mem_singleton] at h
            subst h
            simpa using hs

include hf in
theorem justRec_tokenBody : JustRec (tokenBody rec) := by
  intro path tok ctx prev cur hlen s hs
  have hs' : SP (tok :: path) s := fun k e h => ⟨List.mem_cons_of_mem _ (hs k e h).1, (hs k e h).2⟩
  have hbody : Ens (SP (tok :: path)) True (blockLoop rec tok ctx prev cur 0 tok.lines [])
      (fun r => BlkJ path ctx.channels ctx.reverse tok r ∧ BlkOK Flags.any cur r) :=
    Ens.andAny (just_blockLoop hj hg hf hlen 0 tok.lines (fun i => by simp) [] (by simp)) any_stk
      (ens_blockLoop hg (any_ctx ctx) (any_tok tok) prev cur 0 tok.lines
        (fun g _ c hc => ⟨Container.All_of lineAllowed_any c, lineAllowed_any g c hc⟩) [] (by simp))
  have henter : ∃ s1, enter tok s = (.ok (), s1) ∧ SP (tok :: path) s1 := by
    unfold enter
    cases hget : s.get tok.name with
    | some e => exact ⟨s, rfl, hs'⟩
    | none => exact ⟨_, rfl, sp_put_enter hs' (by simp) rfl⟩
  obtain ⟨s1, he1, hs1⟩ := henter
  have hb := hbody s1 hs1
  have hdel : SP path ((blockLoop rec tok ctx prev cur 0 tok.lines [] s1).2.del tok.name) := by
    intro k e hke
    have hmem := List.mem_filter.mp hke
    have h1 := hb.1 k e hmem.1
    have hk : k ≠ tok.name := by simpa using hmem.2
    refine ⟨?_, h1.2⟩
    rcases List.mem_cons.mp h1.1 with h | h
    · exfalso; apply hk; rw [← h1.2, h]
    · exact h
  unfold tokenBody
  rw [bind_apply, he1]
  simp only
  rw [bind_apply]
  unfold M.thenDelete
  generalize blockLoop rec tok ctx prev cur 0 tok.lines [] s1 = rr at *
  obtain ⟨o, s2⟩ := rr
  cases o with
  | err => exact ⟨hdel, by simp⟩
  | panic => exact ⟨hdel, by simp⟩
  | oof => exact ⟨hdel, by simp⟩
  | ok r =>
    simp only at hdel ⊢
    obtain ⟨hJ, hG⟩ := hb.2.1 r rfl
    have hlen2 : r.2.length < 2 ^ 63 := by have := hG.1.length_le; omega
    have hfin : Ens (SP path) True (if r.1.isEmpty then fail else do
        let s ← skipChannels rec ctx.channels prev r.2
        pure (Tree.mk tok (mkBlock r.1) s.1 s.2))
        (fun tree => tree.isSuccessful = true → TreeOK path ctx.channels ctx.reverse tok tree) := by
      refine Ens.ite (fun _ => Ens.fail) (fun _ => ?_)
      refine Ens.bind (just_skipChannels hj hg ctx.channels hlen2) ?_
      rintro ⟨suf, rem⟩ ⟨_, hsuf⟩
      apply Ens.pure
      intro hsucc
      simp only [Tree.isSuccessful, Tree.block, mkBlock, Block.successful] at hsucc
      obtain ⟨l, hl⟩ := Option.isSome_iff_exists.mp hsucc
      simp only [mkBlock, hl]
      rcases hJ l hl with ⟨hrev, i, g, es, rfl, hgi, hne, hok⟩ | ⟨hrev, i, g, bs, rfl, hgi, hne⟩
      · rw [hrev]
        exact .forward _ _ _ _ _ _ _ _ _ hgi hok hne hsuf
      · rw [hrev]
        exact .reverse _ _ _ _ _ _ _ _ _ hgi hne hsuf
    have h := hfin _ hdel
    exact ⟨h.1, h.2.1⟩

end

theorem token_just (n : Nat) : JustRec (token n) := by
  induction n with
  | zero =>
    intro path t ctx prev cur _ s hs
    exact ⟨hs, by intro tree h; simp [token, M.oof] at h⟩
  | succ n ih => exact justRec_tokenBody ih (token_good Flags.any n) (token_forgets n)

end Rodkina.Ast
