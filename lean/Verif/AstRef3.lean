import Verif.AstRef2

/-!
# The reference interpreter: channels, whole grammars
-/

namespace Rodkina.Ast

open M

/-! ### Channels -/

section
variable {n : Nat}

/-- A token read with plain parameters and a new map gives what the reference interpreter says. -/
def PlainR (n : Nat) (t : Token) : Prop :=
  ∀ prev cur, FoundR (token n t Ctx.plain prev cur []) [] (refToken Mode.plain t prev cur)

theorem plain_no_panic {t : Token} (ht : TokOK Flags.noEscape t) (prev cur : Bytes) :
    (token n t Ctx.plain prev cur []).1 ≠ .panic := fun h =>
  (token_good Flags.noEscape n t Ctx.plain prev cur ht (ctxOK_plain _) [] (stkAll_nil _)).2.2 h

theorem run_condMatch {o : Option Token} (ho : ∀ e, o = some e → PlainR n e ∧ TokOK Flags.noEscape e)
    (d : Bytes) (s : Stk) :
    condMatch (token n) o d s = if refCondition o d then (.ok true, s) else (.err, s) := by
  cases o with
  | none => rfl
  | some e =>
    obtain ⟨h1, h2⟩ := ho e rfl
    have hf := h1 [] d
    have hp := plain_no_panic (n := n) h2 [] d
    have hstep : condMatch (token n) (some e) d s =
        match (token n e Ctx.plain [] d []).1 with
        | .ok _ => (.ok true, s)
        | .err => (.err, s)
        | .panic => (.panic, s)
        | .oof => (.oof, s) := by
      simp only [condMatch]
      rw [bind_apply]
      unfold M.fresh
      cases (token n e Ctx.plain [] d []).1 <;> rfl
    rw [hstep, refCondition]
    beta_reduce
    unfold FoundR at hf
    cases hr : refToken Mode.plain e [] d with
    | found x =>
      rw [hr] at hf
      obtain ⟨t, h, _⟩ := hf
      rw [h]
      rfl
    | blank =>
      rw [hr] at hf
      obtain ⟨t, h, _⟩ := hf
      rw [h]
      rfl
    | refused =>
      rw [hr] at hf
      simp only at hf
      rw [hf]
      rfl
    | crash =>
      rw [hr] at hf
      exact absurd hf hp

/-- What is known of the parts of a channel. -/
structure ChanR (n : Nat) (c : Channel) : Prop where
  tok : PlainR n c.token
  exact : TokOK Flags.none c.token
  previous : ∀ e, c.previous = some e → PlainR n e ∧ TokOK Flags.noEscape e
  next : ∀ e, c.next = some e → PlainR n e ∧ TokOK Flags.noEscape e

/-- One step of a channel state. -/
def ChTo (st st' : ChState) (r : Option Bytes) : Prop :=
  match r with
  | none => st' = st
  | some d => st'.prev = st.rem ∧ st'.rem = d ∧ st.list.length < st'.list.length ∧
      d.length < st.rem.length

theorem refRun_channel {c : Channel} (hc : ChanR n c) (st : ChState) (s : Stk) :
    ∃ st', (do let r ← attempt (channel (token n) c st.prev st.rem); channelApply st r : M ChState) s
      = (.ok st', s) ∧ ChTo st st' (refChannel c st.prev st.rem) := by
  rcases c with ⟨tok, a, b⟩
  obtain ⟨h1, h2, h3, h4⟩ := hc
  simp only [Channel.token, Channel.previous, Channel.next] at h1 h2 h3 h4
  have hf := h1 st.prev st.rem
  have hgood := token_good Flags.none n tok Ctx.plain st.prev st.rem h2 (ctxOK_plain _) []
    (stkAll_nil _)
  have hcond : ∀ d, channelCondition (token n) (.mk tok a b) st.prev d s
      = if refCondition a st.prev && refCondition b d then (.ok true, s) else (.err, s) := by
    intro d
    simp only [channelCondition, Channel.previous, Channel.next]
    rw [bind_apply, run_condMatch h3]
    cases refCondition a st.prev with
    | false => rfl
    | true =>
      simp only [if_true, Bool.true_and]
      rw [bind_apply, run_condMatch h4]
      cases refCondition b d <;> rfl
  have hch : channel (token n) (.mk tok a b) st.prev st.rem s =
      match (token n tok Ctx.plain st.prev st.rem []).1 with
      | .ok t => if refCondition a st.prev && refCondition b t.remaining then (.ok (some t), s)
          else (.err, s)
      | .err => (.err, s)
      | .panic => (.panic, s)
      | .oof => (.oof, s) := by
    unfold channel
    rw [bind_apply]
    unfold M.fresh
    simp only [Channel.token]
    cases (token n tok Ctx.plain st.prev st.rem []).1 with
    | ok t =>
      simp only
      rw [bind_apply, hcond]
      cases (refCondition a st.prev && refCondition b t.remaining) <;> rfl
    | err => rfl
    | panic => rfl
    | oof => rfl
  rw [bind_apply]
  unfold M.attempt
  rw [hch, refChannel]
  beta_reduce
  unfold FoundR at hf
  cases hp : refToken Mode.plain tok st.prev st.rem with
  | crash =>
    rw [hp] at hf
    exact absurd hf (fun h => hgood.2.2 h)
  | refused =>
    rw [hp] at hf
    simp only at hf
    rw [hf]
    exact ⟨st, rfl, rfl⟩
  | blank =>
    rw [hp] at hf
    obtain ⟨t, h, hs⟩ := hf
    rw [h]
    simp only
    cases (refCondition a st.prev && refCondition b t.remaining) with
    | false => exact ⟨st, rfl, rfl⟩
    | true =>
      simp only [if_true, channelApply, Tree.bytes_of_not_successful hs, List.length_nil]
      refine ⟨st, ?_, rfl⟩
      rw [bind_apply]
      simp only [sliceFrom, Nat.zero_le, if_true, pure_apply, List.drop_zero]
  | found x =>
    rw [hp] at hf
    obtain ⟨t, h, hs, _, hr⟩ := hf
    have hgood' := hgood.2.1
    rw [h] at hgood'
    obtain ⟨⟨_, _, hexact⟩, hlt⟩ := (hgood' t rfl).2 hs
    have heq := hexact Flags.none_exact
    rw [h]
    simp only [hr]
    cases hcnd : (refCondition a st.prev && refCondition b x.2) with
    | false => exact ⟨st, rfl, rfl⟩
    | true =>
      simp only [if_true, channelApply]
      have hle : (t.bytes true).length ≤ st.rem.length := by
        have := congrArg List.length heq
        simp only [List.length_append] at this
        omega
      have hdrop : st.rem.drop (t.bytes true).length = x.2 := by
        rw [← hr, ← heq]
        simp
      rw [hr] at hlt
      refine ⟨⟨st.list ++ [t], st.rem, x.2⟩, ?_, rfl, rfl, by simp, hlt⟩
      rw [bind_apply]
      simp only [sliceFrom, hle, if_true, pure_apply, hdrop]
      rw [if_neg (by omega)]
      rfl

theorem refRun_channelRound {chs : List Channel} (hc : ∀ c ∈ chs, ChanR n c)
    (st : ChState) (s : Stk) :
    ∃ st', channelRound (token n) chs st s = (.ok st', s) ∧
      (st'.prev, st'.rem) = channelsOnce (refChannels chs) st.prev st.rem ∧
      (st' = st ∨ st.list.length < st'.list.length ∧ st'.rem.length < st.rem.length) := by
  induction chs generalizing st with
  | nil => exact ⟨st, rfl, rfl, .inl rfl⟩
  | cons c cs ih =>
    obtain ⟨st1, h1, h2⟩ := refRun_channel (hc c (by simp)) st s
    obtain ⟨st2, h3, h4, h5⟩ := ih (fun c h => hc c (by simp [h])) st1
    have hstep : channelRound (token n) (c :: cs) st = (do
        let st' ← (do let r ← attempt (channel (token n) c st.prev st.rem); channelApply st r)
        channelRound (token n) cs st') := by
      rw [channelRound]
      funext s
      simp only [bind_apply]
      rcases attempt (channel (token n) c st.prev st.rem) s with ⟨a | _ | _ | _, s'⟩ <;> rfl
    refine ⟨st2, by rw [hstep, bind_apply, h1]; exact h3, ?_, ?_⟩
    · rw [refChannels, channelsOnce, h4]
      unfold ChTo at h2
      cases hr : refChannel c st.prev st.rem with
      | none =>
        rw [hr] at h2
        rw [h2]
      | some d =>
        rw [hr] at h2
        rw [h2.1, h2.2.1]
    · unfold ChTo at h2
      cases hr : refChannel c st.prev st.rem with
      | none =>
        rw [hr] at h2
        rw [h2] at h5
        exact h5
      | some d =>
        rw [hr] at h2
        obtain ⟨_, hd, hl, hlt⟩ := h2
        rw [← hd] at hlt
        right
        rcases h5 with h5 | h5
        · rw [h5]
          exact ⟨hl, hlt⟩
        · omega

theorem refRun_channelLoop {chs : List Channel} (hc : ∀ c ∈ chs, ChanR n c)
    (k : Nat) (st : ChState) (s : Stk) (hk : st.rem.length < k) :
    ∃ st', channelLoop (token n) chs k st s = (.ok st', s) ∧
      st'.rem = channelsSkip (refChannels chs) k st.prev st.rem ∧
      (st' = st ∨ st.list.length < st'.list.length) := by
  induction k generalizing st with
  | zero => omega
  | succ k ih =>
    obtain ⟨st1, h1, h2, h3⟩ := refRun_channelRound hc st s
    unfold channelLoop channelsSkip
    rw [bind_apply, h1]
    simp only [← h2]
    rcases h3 with h3 | ⟨h3, h4⟩
    · subst h3
      rw [if_pos rfl, if_pos rfl]
      exact ⟨st1, rfl, rfl, .inl rfl⟩
    · have hne : st1.rem ≠ st.rem := fun h => by rw [h] at h4; omega
      rw [if_neg (by omega), if_neg hne]
      obtain ⟨st2, h5, h6, h7⟩ := ih st1 (by omega)
      refine ⟨st2, h5, h6, .inr ?_⟩
      rcases h7 with h7 | h7
      · rw [h7]; exact h3
      · omega

/-- Skipping channels is what the reference interpreter says. -/
theorem skipR_channels {chs : List Channel} (hc : ∀ c ∈ chs, ChanR n c) :
    SkipR (token n) chs (fun p d => channelsSkip (refChannels chs) (d.length + 1) p d) := by
  intro prev cur s
  unfold skipChannels
  cases hch : chs with
  | nil =>
    refine ⟨[], ?_⟩
    simp [refChannels, channelsSkip, channelsOnce]
  | cons c cs =>
    rw [← hch]
    have hne : chs.isEmpty = false := by rw [hch]; rfl
    simp only [hne, Bool.false_eq_true, if_false]
    obtain ⟨st, h1, h2, h3⟩ := refRun_channelLoop hc (cur.length + 1) ⟨[], prev, cur⟩ s (by simp)
    rw [bind_apply]
    unfold M.attempt channels
    rw [bind_apply, h1]
    simp only at h2
    simp only
    cases hl : st.list with
    | nil =>
      refine ⟨[], ?_⟩
      have : st = ⟨[], prev, cur⟩ := by
        rcases h3 with h3 | h3
        · exact h3
        · rw [hl] at h3; simp at h3
      rw [← h2, this]
      rfl
    | cons a b =>
      refine ⟨a :: b, ?_⟩
      simp only [List.isEmpty_cons, Bool.false_eq_true, if_false, pure_apply, orUnchanged, h2]

end

/-! ### Grammars -/

/-- Parameters of the parser and mode of the reference interpreter, at nesting at least `N`, inside
tokens with names in `P`. -/
structure CtxR (N : Nat) (P : List String) (ctx : Ctx) (m : Mode) : Prop where
  rev : m.reverse = ctx.reverse
  skip : ∀ n, N ≤ n → SkipR (token n) ctx.channels m.skip
  esc : ∀ n, N ≤ n → ∀ s, KeysIn P s → EscR n ctx s m.escape

/-- The statement for tokens up to a size. -/
def RefAll (K : Nat) : Prop :=
  ∀ t, sizeOf t ≤ K → ∀ path P ctx m N, RefTok path t → path ⊆ P → tokenNames t ⊆ P →
    CtxR N P ctx m → ∀ n, N + sizeOf t ≤ n → ∀ prev cur s, KeysIn path s →
      FoundR (token n t ctx prev cur s) s (refToken m t prev cur)

theorem keysIn_mono {path P : List String} (h : path ⊆ P) {s : Stk} (hs : KeysIn path s) :
    KeysIn P s := fun k e hk => h (hs k e hk)

theorem ctxR_plain (P : List String) : CtxR 0 P Ctx.plain Mode.plain :=
  ⟨rfl, fun n _ => skipR_nil (token n), fun _ _ _ _ => trivial⟩

theorem RefAll.plain {K : Nat} (h : RefAll K) {t : Token} (hK : sizeOf t ≤ K) {path : List String}
    (ht : RefTok path t) {n : Nat} (hn : sizeOf t ≤ n) (prev cur : Bytes) {s : Stk}
    (hs : KeysIn path s) :
    FoundR (token n t Ctx.plain prev cur s) s (refToken Mode.plain t prev cur) :=
  h t hK path (path ++ tokenNames t) Ctx.plain Mode.plain 0 ht (by simp) (by simp) (ctxR_plain _) n
    (by omega) prev cur s hs

theorem mem_refChans {c : Channel} {cs : List Channel} (h : RefChans cs) (hc : c ∈ cs) :
    RefChan c := by
  induction cs with
  | nil => simp at hc
  | cons a cs ih =>
    unfold RefChans at h
    rcases List.mem_cons.mp hc with rfl | hc
    · exact h.1
    · exact ih h.2 hc

theorem mem_refLines {path : List String} {g : GLine} {gs : List GLine} (h : RefLines path gs)
    (hg : g ∈ gs) : RefLine path g := by
  induction gs with
  | nil => simp at hg
  | cons a gs ih =>
    unfold RefLines at h
    rcases List.mem_cons.mp hg with rfl | hg
    · exact h.1
    · exact ih h.2 hg

theorem mem_refConts {path : List String} {c : Container} {cs : List Container}
    (h : RefConts path cs) (hc : c ∈ cs) : RefCont path c := by
  induction cs with
  | nil => simp at hc
  | cons a cs ih =>
    unfold RefConts at h
    rcases List.mem_cons.mp hc with rfl | hc
    · exact h.1
    · exact ih h.2 hc

theorem linesNames_mem {g : GLine} {gs : List GLine} (h : g ∈ gs) :
    lineNames g ⊆ linesNames gs := by
  induction gs with
  | nil => simp at h
  | cons a gs ih =>
    rw [linesNames]
    rcases List.mem_cons.mp h with rfl | h
    · exact List.subset_append_left _ _
    · exact (ih h).trans (List.subset_append_right _ _)

theorem containersNames_mem {c : Container} {cs : List Container} (h : c ∈ cs) :
    containerNames c ⊆ containersNames cs := by
  induction cs with
  | nil => simp at h
  | cons a cs ih =>
    rw [containersNames]
    rcases List.mem_cons.mp h with rfl | h
    · exact List.subset_append_left _ _
    · exact (ih h).trans (List.subset_append_right _ _)

/-- Skipping the channels of a grammar. -/
theorem RefAll.skip {K : Nat} (h : RefAll K) {chs : List Channel} (hc : RefChans chs)
    (hK : sizeOf chs ≤ K) {n : Nat} (hn : sizeOf chs ≤ n) :
    SkipR (token n) chs (fun p d => channelsSkip (refChannels chs) (d.length + 1) p d) := by
  refine skipR_channels (fun c hmem => ?_)
  have hlt := List.sizeOf_lt_of_mem hmem
  have hcc := mem_refChans hc hmem
  rcases c with ⟨t, a, b⟩
  unfold RefChan at hcc
  obtain ⟨⟨h1, h2⟩, ⟨h3, h4⟩, ⟨h5, h6⟩⟩ := hcc
  simp only [Channel.mk.sizeOf_spec] at hlt
  refine ⟨?_, h2, ?_, ?_⟩
  · intro prev cur
    exact h.plain (t := t) (by omega) h1 (by omega) prev cur (keysIn_nil _)
  · intro e he
    simp only [Channel.previous] at he
    subst he
    simp only [Option.some.sizeOf_spec] at hlt
    refine ⟨fun prev cur => h.plain (t := e) (by omega) (by simpa [RefOpt] using h3) (by omega)
      prev cur (keysIn_nil _), h4 e rfl⟩
  · intro e he
    simp only [Channel.next] at he
    subst he
    simp only [Option.some.sizeOf_spec] at hlt
    refine ⟨fun prev cur => h.plain (t := e) (by omega) (by simpa [RefOpt] using h5) (by omega)
      prev cur (keysIn_nil _), h6 e rfl⟩

theorem Tree.shape_rename (name : String) (root : Token) (b : Block) (suf suf' : List Tree)
    (rem rem' : Bytes) (ls : List GLine) (ss : List Suite) :
    (Tree.mk (.mk name ls ss) b suf' rem').shape = (Tree.mk root b suf rem).shape.rename name := by
  rcases b with ⟨l, _ | ⟨i, g, r, es⟩⟩
  · simp [Tree.shape, Block.shape, Shape.rename, Token.name]
  · simp [Tree.shape, Block.shape, Shape.rename, Token.name, TLine.shape]

theorem refRun_content {K n N : Nat} (h : RefAll K) {path P : List String} {ctx : Ctx} {m : Mode}
    (hctx : CtxR N P ctx m) {c : Content} (hK : sizeOf c ≤ K) (hc : RefContent path c)
    (hpath : path ⊆ P) (hnames : contentNames c ⊆ P) (hn : N + sizeOf c ≤ n) {s : Stk}
    (hs : KeysIn path s) :
    ElemR (token n) c ctx (refContent m c) s := by
  cases c with
  | value name b =>
    have : refContent m (.value name b) = oneByte m.skip b := by rw [refContent]
    rw [this]
    exact refRun_value (hctx.skip n (by omega)) name b s
  | token t =>
    rw [refContent]
    simp only [Content.token.sizeOf_spec] at hK hn
    rw [contentNames] at hnames
    rw [RefContent] at hc
    exact refRun_tree (run := fun prev cur => token n t ctx prev cur) (fun _ _ => rfl)
      (fun prev cur => h t (by omega) path P ctx m N hc hpath hnames hctx n (by omega) prev cur s hs)
  | everything name ex esc =>
    rw [refContent]
    simp only [Content.everything.sizeOf_spec] at hK hn
    rw [contentNames] at hnames
    rw [RefContent] at hc
    refine refRun_tree (run := fun prev cur => token n ex ⟨esc, [], !ctx.reverse⟩ prev cur)
      (fun _ _ => rfl) (fun prev cur => ?_)
    refine h ex (by omega) path (tokenNames ex ++ path) _ _ (sizeOf esc) hc.1
      (List.subset_append_right _ _) (List.subset_append_left _ _) ?_ n (by omega) prev cur s hs
    refine ⟨by rw [hctx.rev], fun n _ => skipR_nil (token n), ?_⟩
    intro n' hn' s' hs'
    unfold EscR
    cases esc with
    | none => rw [refEscape]; trivial
    | some e =>
      rw [refEscape]
      simp only [Option.some.sizeOf_spec] at hn' hK
      intro prev cur
      exact h.plain (t := e) (by omega) (by simpa [RefOpt] using hc.2) (by omega) prev cur hs'
  | external name g =>
    rcases g with ⟨root, chs⟩
    rw [refContent]
    simp only [Content.external.sizeOf_spec, Grammar.mk.sizeOf_spec] at hK hn
    rw [RefContent, RefGrammar] at hc
    have hcx : CtxR (sizeOf chs) (tokenNames root) ⟨none, chs, ctx.reverse⟩ ⟨none,
        fun p d => channelsSkip (refChannels chs) (d.length + 1) p d, m.reverse⟩ :=
      ⟨hctx.rev, fun n hn => h.skip hc.2 (by omega) hn, fun _ _ _ _ => trivial⟩
    have hf := fun prev cur => h root (by omega) [] _ _ _ _ hc.1 (by simp) (fun _ h => h) hcx n
      (by omega) prev cur [] (keysIn_nil _)
    have hrun : ∀ prev cur, FoundR (external (token n) name (.mk root chs) ctx.reverse prev cur s) s
        ((refGrammar m.reverse (.mk root chs) prev cur).map (fun x => (x.1.rename name, []))) := by
      intro prev cur
      have hf := hf prev cur
      rw [refGrammar]
      unfold external
      simp only [Grammar.root, Grammar.channels]
      generalize refToken ⟨none, fun p d => channelsSkip (refChannels chs) (d.length + 1) p d,
        m.reverse⟩ root prev cur = r at hf ⊢
      cases r with
      | found x =>
        obtain ⟨t, h1, h2, h3, h4⟩ := hf
        refine ⟨.mk (.mk name root.lines root.suites) t.block [] [], ?_, h2, ?_, rfl⟩
        · rw [bind_apply]
          unfold M.fresh
          rw [h1]
          rfl
        · rcases t with ⟨g, b, suf, rem⟩
          show _ = Shape.rename name x.1
          rw [← h3]
          exact Tree.shape_rename name g b suf [] rem [] root.lines root.suites
      | blank =>
        obtain ⟨t, h1, h2⟩ := hf
        refine ⟨.mk (.mk name root.lines root.suites) t.block [] [], ?_, h2⟩
        rw [bind_apply]
        unfold M.fresh
        rw [h1]
        rfl
      | refused =>
        simp only [Ans.map, FoundR] at hf ⊢
        rw [bind_apply]
        unfold M.fresh
        rw [hf]
      | crash =>
        simp only [Ans.map, FoundR] at hf ⊢
        refine bind_panic ?_
        exact hf
    have := refRun_tree (run := fun prev cur => external (token n) name (.mk root chs) ctx.reverse
      prev cur) (c := .external name (.mk root chs)) (ctx := ctx) (n := n) (fun _ _ => rfl) hrun
    have heq : (fun p d => ((refGrammar m.reverse (.mk root chs) p d).map
        (fun x => (x.1.rename name, ([] : Bytes)))).strict) =
        (fun p d => (refGrammar m.reverse (.mk root chs) p d).strict.map
          (fun x => (x.1.rename name, []))) := by
      funext p d
      cases refGrammar m.reverse (.mk root chs) p d <;> rfl
    rw [heq] at this
    exact this
  | recursive name => exact absurd hc (by simp [RefContent])

theorem refAll (K : Nat) : RefAll K := by
  induction K with
  | zero =>
    intro t ht
    rcases t with ⟨name, ls, ss⟩
    simp at ht
  | succ K ih =>
    intro t hK path P ctx m N ht hpath hnames hctx n hn prev cur s hs
    rcases t with ⟨name, ls, ss⟩
    rw [RefTok] at ht
    rw [tokenNames] at hnames
    simp only [Token.mk.sizeOf_spec] at hK hn
    obtain ⟨n', rfl⟩ : ∃ n', n = n' + 1 := ⟨n - 1, by omega⟩
    have hname : name ∈ P := hnames (by simp)
    have hpath' : name :: path ⊆ P := List.cons_subset.mpr ⟨hname, hpath⟩
    have hs' : ∀ e, KeysIn (name :: path) ((name, e) :: s) := fun e => keysIn_cons hs name e
    refine refRun_token (tok := .mk name ls ss) hctx.rev hs ht.1 (hctx.skip n' (by omega))
      (fun e => hctx.esc n' (by omega) _ (keysIn_mono hpath' (hs' e))) ?_ prev cur
    intro g hg
    simp only [Token.lines, Token.name] at hg ⊢
    have hgl := mem_refLines ht.2 hg
    have hgs := List.sizeOf_lt_of_mem hg
    have hgn : lineNames g ⊆ P := (linesNames_mem hg).trans
      ((List.subset_cons_self _ _).trans hnames)
    rcases g with ⟨cs⟩
    rw [RefLine] at hgl
    rw [lineNames] at hgn
    simp only [GLine.mk.sizeOf_spec] at hgs
    refine ⟨hgl.1, fun e idx prev cur => ?_⟩
    refine refRun_line (hctx.skip n' (by omega)) prev cur cs ?_ ?_ idx
    · intro min max c hc
      have := mem_refConts hgl.2 hc
      rw [RefCont] at this
      exact this.1
    · intro min max c hc
      have h1 := mem_refConts hgl.2 hc
      have h2 := List.sizeOf_lt_of_mem hc
      have h3 := (containersNames_mem hc).trans hgn
      rw [RefCont] at h1
      rw [containerNames] at h3
      simp only [Container.element.sizeOf_spec] at h2
      exact refRun_content ih hctx (by omega) h1.2 hpath' h3 (by omega) (hs' e)

/-- Outcome of parsing predicted by the reference interpreter. -/
def AgreesR (g : Grammar) (input : Bytes) (r : Ans (Shape × Bytes)) : Prop :=
  match r with
  | .found x => ∃ t, Parses g input (.ok t) ∧ t.isSuccessful = true ∧ t.shape = x.1 ∧
      t.remaining = x.2
  | .blank => ∃ t, Parses g input (.ok t) ∧ t.isSuccessful = false
  | .refused => Parses g input .err
  | .crash => Parses g input .panic

/-- The parser computes the reference interpretation of every grammar without references by name whose
names are different along every nesting path. -/
theorem ref_execute (g : Grammar) (hg : RefGrammar g) (input : Bytes) :
    AgreesR g input (refGrammar false g [] input) := by
  rcases g with ⟨root, chs⟩
  rw [RefGrammar] at hg
  have hall := refAll (sizeOf root + sizeOf chs)
  have hcx : CtxR (sizeOf chs) (tokenNames root) ⟨none, chs, false⟩ ⟨none,
      fun p d => channelsSkip (refChannels chs) (d.length + 1) p d, false⟩ :=
    ⟨rfl, fun n hn => hall.skip hg.2 (by omega) hn, fun _ _ _ _ => trivial⟩
  have hf := hall root (by omega) [] _ _ _ _ hg.1 (by simp) (fun _ h => h) hcx _
    (Nat.le_refl _) [] input [] (keysIn_nil _)
  rw [refGrammar]
  generalize refToken ⟨none, fun p d => channelsSkip (refChannels chs) (d.length + 1) p d,
    false⟩ root [] input = r at hf ⊢
  cases r with
  | found x =>
    obtain ⟨t, h1, h2⟩ := hf
    exact ⟨t, ⟨trivial, _, by unfold execute; simp only [Grammar.root, Grammar.channels]; rw [h1]⟩, h2⟩
  | blank =>
    obtain ⟨t, h1, h2⟩ := hf
    exact ⟨t, ⟨trivial, _, by unfold execute; simp only [Grammar.root, Grammar.channels]; rw [h1]⟩, h2⟩
  | refused =>
    simp only [FoundR] at hf
    exact ⟨trivial, _, by unfold execute; simp only [Grammar.root, Grammar.channels]; rw [hf]⟩
  | crash =>
    exact ⟨trivial, _, hf⟩

end Rodkina.Ast
