import Verif.AstPeg

/-!
# Skipping channels agrees with the reference interpreter

For channels without conditions whose tokens are in the class of the reference interpreter.
-/

namespace Rodkina.Ast

open M

/-- No escape tokens and no external grammars. -/
def Flags.none : Flags := ⟨False, False⟩

theorem Flags.none_exact : Flags.none.exact := ⟨id, id⟩

/-- Channels the reference interpreter covers, with nesting depth at most `N`. -/
structure PegChannel (N : Nat) (c : Channel) : Prop where
  previous : c.previous = Option.none
  next : c.next = Option.none
  tok : PegTok [] c.token
  exact : TokOK Flags.none c.token
  depth : tokenD c.token ≤ N

/-- A channel state one step later. -/
def ChNext (st st' : ChState) (d : Bytes) : Prop :=
  st'.rem = d ∧ (d = st.rem → st' = st) ∧
    (d ≠ st.rem → st'.list.length > st.list.length ∧ d.length < st.rem.length)

section
variable {N n : Nat}

theorem run_plain {c : Channel} (hc : PegChannel N c) (hn : N ≤ n) (prev cur : Bytes) :
    Found (token n c.token Ctx.plain prev cur []) [] (pegToken id c.token cur) :=
  peg_token (ctx := Ctx.plain) (sk := id) (N := 0) rfl (fun m _ => skipIs_nil (token m)) N n
    (by omega) c.token [] hc.tok hc.depth prev cur [] (keysIn_nil [])

theorem run_channel {c : Channel} (hc : PegChannel N c) (hn : N ≤ n) (st : ChState) (s : Stk) :
    ∃ st', (do let r ← attempt (channel (token n) c st.prev st.rem); channelApply st r : M ChState) s
      = (.ok st', s) ∧ ChNext st st' (chStep st.rem c) := by
  have hf := run_plain hc hn st.prev st.rem
  have hgood := (token_good Flags.none n c.token Ctx.plain st.prev st.rem hc.exact
    (ctxOK_plain _) [] (stkAll_nil _)).2.1
  have hcond : ∀ d, channelCondition (token n) c st.prev d s = (.ok true, s) := by
    intro d
    simp only [channelCondition, hc.previous, hc.next, condMatch]
    rfl
  have hch : channel (token n) c st.prev st.rem s =
      match (token n c.token Ctx.plain st.prev st.rem []).1 with
      | .ok t => (.ok (some t), s)
      | .err => (.err, s)
      | .panic => (.panic, s)
      | .oof => (.oof, s) := by
    unfold channel
    rw [bind_apply]
    unfold M.fresh
    cases (token n c.token Ctx.plain st.prev st.rem []).1 with
    | ok t =>
      simp only
      rw [bind_apply, hcond]
      rfl
    | err => rfl
    | panic => rfl
    | oof => rfl
  rw [bind_apply]
  unfold M.attempt
  rw [hch]
  unfold chStep
  unfold Found at hf
  cases hp : pegToken id c.token st.rem with
  | none =>
    rw [hp] at hf
    rcases hf with h | ⟨t, h, hs⟩
    · rw [h]
      exact ⟨st, rfl, rfl, fun _ => rfl, fun h => absurd rfl h⟩
    · rw [h]
      simp only [channelApply, Tree.bytes_of_not_successful hs, List.length_nil]
      refine ⟨st, ?_, rfl, fun _ => rfl, fun h => absurd rfl h⟩
      rw [bind_apply]
      simp only [sliceFrom, Nat.zero_le, if_true, pure_apply, List.drop_zero]
  | some x =>
    rw [hp] at hf
    obtain ⟨t, h, hs, _, hr⟩ := hf
    rw [h] at hgood
    have hg := (hgood t rfl).2 hs
    obtain ⟨⟨_, _, hexact⟩, hlt⟩ := hg
    have heq := hexact Flags.none_exact
    rw [h]
    simp only [channelApply]
    have hle : (t.bytes true).length ≤ st.rem.length := by
      have := congrArg List.length heq
      simp only [List.length_append] at this
      omega
    have hdrop : st.rem.drop (t.bytes true).length = x.2 := by
      rw [← hr, ← heq]
      simp
    refine ⟨⟨st.list ++ [t], st.rem, x.2⟩, ?_, rfl, ?_, ?_⟩
    · rw [bind_apply]
      simp only [sliceFrom, hle, if_true, pure_apply, hdrop]
      rw [hr] at hlt
      rw [if_neg (by omega)]
      rfl
    · intro h
      rw [hr] at hlt
      simp only [h] at hlt
      omega
    · intro _
      rw [hr] at hlt
      exact ⟨by simp, hlt⟩

theorem ChNext.trans {a b c : ChState} {d e : Bytes} (h1 : ChNext a b d) (h2 : ChNext b c e) :
    ChNext a c e := by
  obtain ⟨h1r, h1e, h1n⟩ := h1
  obtain ⟨h2r, h2e, h2n⟩ := h2
  rw [h1r] at h2e h2n
  by_cases hd : d = a.rem <;> by_cases he : e = d
  · subst he
    have := h1e hd
    subst this
    exact ⟨h2r, fun _ => h2e rfl, fun h => absurd hd h⟩
  · have := h1e hd
    subst this
    rw [hd] at h2n h2e he
    exact ⟨h2r, fun h => absurd h he, h2n⟩
  · subst he
    have := h2e rfl
    subst this
    exact ⟨h2r, fun h => absurd h hd, h1n⟩
  · have ha := h1n hd
    have hb := h2n he
    refine ⟨h2r, fun h => ?_, fun _ => ⟨by omega, by omega⟩⟩
    subst h
    omega

theorem run_channelRound {chs : List Channel} (hc : ∀ c ∈ chs, PegChannel N c) (hn : N ≤ n)
    (st : ChState) (s : Stk) :
    ∃ st', channelRound (token n) chs st s = (.ok st', s) ∧ ChNext st st' (chRound chs st.rem) := by
  induction chs generalizing st with
  | nil => exact ⟨st, rfl, rfl, fun _ => rfl, fun h => absurd rfl h⟩
  | cons c cs ih =>
    obtain ⟨st1, h1, h2⟩ := run_channel (hc c (by simp)) hn st s
    obtain ⟨st2, h3, h4⟩ := ih (fun c h => hc c (by simp [h])) st1
    refine ⟨st2, ?_, ?_⟩
    · have : channelRound (token n) (c :: cs) st = (do
          let st' ← (do let r ← attempt (channel (token n) c st.prev st.rem); channelApply st r)
          channelRound (token n) cs st') := by
        rw [channelRound]
        funext s
        simp only [bind_apply]
        rcases attempt (channel (token n) c st.prev st.rem) s with ⟨a | _ | _ | _, s'⟩ <;> rfl
      rw [this, bind_apply, h1]
      exact h3
    · have hr : chRound (c :: cs) st.rem = chRound cs (chStep st.rem c) := rfl
      rw [hr, ← h2.1]
      rw [← h2.1] at h2
      exact h2.trans h4

theorem run_channelLoop {chs : List Channel} (hc : ∀ c ∈ chs, PegChannel N c) (hn : N ≤ n)
    (k : Nat) (st : ChState) (s : Stk) (hk : st.rem.length < k) :
    ∃ st', channelLoop (token n) chs k st s = (.ok st', s) ∧ ChNext st st' (chSkip chs k st.rem) := by
  induction k generalizing st with
  | zero => omega
  | succ k ih =>
    obtain ⟨st1, h1, h2⟩ := run_channelRound hc hn st s
    unfold channelLoop chSkip
    rw [bind_apply, h1]
    simp only
    by_cases he : chRound chs st.rem = st.rem
    · have := h2.2.1 he
      subst this
      rw [if_pos rfl, if_pos he]
      exact ⟨st1, rfl, rfl, fun _ => rfl, fun h => absurd rfl h⟩
    · have := h2.2.2 he
      rw [if_neg (by omega), if_neg he]
      obtain ⟨st2, h3, h4⟩ := ih st1 (by rw [h2.1]; omega)
      rw [← h2.1]
      rw [← h2.1] at h2
      exact ⟨st2, h3, h2.trans h4⟩

/-- Skipping channels computes `skipAll`. -/
theorem skipIs_channels {chs : List Channel} (hc : ∀ c ∈ chs, PegChannel N c) (hn : N ≤ n) :
    SkipIs (token n) chs (skipAll chs) := by
  intro prev cur s
  unfold skipChannels
  cases hch : chs with
  | nil =>
    refine ⟨[], ?_⟩
    have : skipAll [] cur = cur := by
      unfold skipAll chSkip
      have h : chRound [] cur = cur := rfl
      rw [if_pos h]
    simp [this]
  | cons c cs =>
    rw [← hch]
    have hne : chs.isEmpty = false := by rw [hch]; rfl
    simp only [hne, Bool.false_eq_true, if_false]
    obtain ⟨st, h1, h2⟩ := run_channelLoop hc hn (cur.length + 1) ⟨[], prev, cur⟩ s (by simp)
    rw [bind_apply]
    unfold M.attempt channels
    rw [bind_apply, h1]
    simp only
    cases hl : st.list with
    | nil =>
      refine ⟨[], ?_⟩
      have : chSkip chs (cur.length + 1) cur = cur := by
        by_contra hcon
        have := (h2.2.2 hcon).1
        simp [hl] at this
      simp only [List.isEmpty_nil, if_true, M.fail, orUnchanged, pure_apply, skipAll, this]
    | cons a b =>
      refine ⟨a :: b, ?_⟩
      simp only [List.isEmpty_cons, Bool.false_eq_true, if_false, pure_apply, orUnchanged, skipAll,
        h2.1]

theorem pegToken_lt_id {c : Channel} (hc : PegChannel N c) {d : Bytes} {x : Shape × Bytes}
    (h : pegToken id c.token d = some x) : x.2.length < d.length := by
  have hf := run_plain hc (Nat.le_refl N) [] d
  rw [h] at hf
  obtain ⟨t, h1, h2, _, h4⟩ := hf
  have hgood := (token_good Flags.none N c.token Ctx.plain [] d hc.exact
    (ctxOK_plain _) [] (stkAll_nil _)).2.1
  rw [h1] at hgood
  have := ((hgood t rfl).2 h2).2
  rw [h4] at this
  exact this

end

end Rodkina.Ast
