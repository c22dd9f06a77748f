import Verif.AstPartsSpec
import Verif.AstRecProps2

/-!
# The parts of a grammar, one at a time: helper lemmas
-/

namespace Rodkina.Ast

open Rodkina.Props

/-- No external grammars. -/
def Flags.noExternal : Flags := ⟨True, False⟩

/-! ### What was read before plays no role, without external grammars -/

mutual
theorem unseen_token {m : Mode} (hm : m.Blind) : ∀ t : Token, TokOK Flags.noExternal t →
    Blind (refToken m t)
  | .mk name ls ss => by
    intro h
    rw [refToken]
    unfold TokOK at h
    rw [Token.All] at h
    exact blind_tokenOf hm name (unseen_lines hm ls h)
theorem unseen_lines {m : Mode} (hm : m.Blind) : ∀ gs : List GLine,
    linesAll (lineAllowed Flags.noExternal) gs → ∀ f ∈ refLines m gs, Blind f
  | [] => by simp [refLines]
  | g :: gs => by
    intro h f hf
    rw [linesAll] at h
    rw [refLines] at hf
    rcases List.mem_cons.mp hf with rfl | hf
    · exact unseen_line hm g h.1
    · exact unseen_lines hm gs h.2 f hf
theorem unseen_line {m : Mode} (hm : m.Blind) : ∀ g : GLine,
    GLine.All (lineAllowed Flags.noExternal) g → Blind (refLine m g)
  | .mk cs => by
    intro h p p' d
    rw [GLine.All] at h
    rw [refLine]
    beta_reduce
    rw [unseen_seq hm cs h.2 h.1 p p' d]
theorem unseen_seq {m : Mode} (hm : m.Blind) : ∀ cs : List Container,
    containersAll (lineAllowed Flags.noExternal) cs → (∀ c ∈ cs, containerAllowed Flags.noExternal c) →
    Blind (refSeq m cs)
  | [] => by
    intro _ _ p p' d
    rw [refSeq]
  | c :: cs => by
    intro h ha p p' d
    rw [containersAll] at h
    rw [refSeq]
    beta_reduce
    have hs := unseen_seq hm cs h.2 (fun c hc => ha c (by simp [hc]))
    have hc := unseen_container hm c h.1 (ha c (by simp)) p p' d
    refine bind_dropPrev hc (fun x x' hxx => ?_)
    simp only [dropPrev, Prod.mk.injEq] at hxx
    rw [hs x.2.1 x'.2.1 x.2.2, hxx.1, hxx.2]
theorem unseen_container {m : Mode} (hm : m.Blind) : ∀ c : Container,
    Container.All (lineAllowed Flags.noExternal) c → containerAllowed Flags.noExternal c →
    ∀ p p' d, (refContainer m c p d).map dropPrev = (refContainer m c p' d).map dropPrev
  | .element min max c => by
    intro h ha p p' d
    rw [Container.All] at h
    rw [refContainer]
    exact blind_timesOf (unseen_content hm c h (by
      cases c with
      | external _ _ => exact False.elim ha
      | everything _ _ e => trivial
      | value _ _ => trivial
      | token _ => trivial
      | recursive _ => trivial)) min max p p' d
  | .compose _ => by
    intro _ _ p p' d
    rw [refContainer]
theorem unseen_content {m : Mode} (hm : m.Blind) : ∀ c : Content,
    Content.All (lineAllowed Flags.noExternal) c →
    (match c with
      | .external _ _ => False
      | _ => True) → Blind (refContent m c)
  | .value _ b => by
    intro _ _ p p' d
    rw [refContent]
    unfold oneByte
    rw [hm.skip p p' d]
  | .token t => by
    intro h _ p p' d
    rw [Content.All] at h
    rw [refContent]
    beta_reduce
    rw [unseen_token hm t h p p' d]
  | .everything _ ex none => by
    intro h _ p p' d
    rw [Content.All] at h
    rw [refContent, refEscape]
    beta_reduce
    rw [unseen_token (m := ⟨none, fun _ d => d, !m.reverse⟩)
      ⟨fun _ _ _ => rfl, fun _ h => by simp at h⟩ ex h p p' d]
  | .everything _ ex (some t) => by
    intro h _ p p' d
    rw [Content.All] at h
    rw [refContent, refEscape]
    beta_reduce
    rw [unseen_token (m := ⟨some (refToken Mode.plain t), fun _ d => d, !m.reverse⟩)
      ⟨fun _ _ _ => rfl, fun _ he => by
        simp only [Option.some.injEq] at he
        subst he
        exact unseen_token Mode.plain_blind t h.2⟩ ex h.1 p p' d]
  | .external _ _ => by
    intro _ h
    exact False.elim h
  | .recursive _ => by
    intro _ _ p p' d
    rw [refContent]
end

theorem blind_knot {f : Matcher Shape → Matcher Shape} (hf : ∀ g, Blind g → Blind (f g)) (k : Nat) :
    Blind (knot f k) := by
  induction k with
  | zero => intro p p' d; rfl
  | succ k ih => exact hf _ ih

mutual
theorem recBlind_token {m : Mode} (hm : m.Blind) : ∀ (t : Token) (env : Env), TokOK Flags.noExternal t →
    (∀ k ∈ tokenFree t, Blind (env k)) → Blind (recToken m env t)
  | .mk name ls ss, env => by
    intro h he p p' d
    unfold TokOK at h
    rw [Token.All] at h
    rw [recToken]
    refine blind_knot (fun self hself => ?_) (d.length + 1) p p' d
    refine blind_tokenOf hm name (recBlind_lines hm ls _ h (fun k hk => ?_))
    unfold Env.set
    by_cases hkn : k = name
    · rw [if_pos hkn]; exact hself
    · rw [if_neg hkn]
      refine he k ?_
      rw [tokenFree]
      exact List.mem_filter.mpr ⟨hk, by simpa using hkn⟩
theorem recBlind_lines {m : Mode} (hm : m.Blind) : ∀ (gs : List GLine) (env : Env),
    linesAll (lineAllowed Flags.noExternal) gs → (∀ k ∈ linesFree gs, Blind (env k)) →
    ∀ f ∈ recLines m env gs, Blind f
  | [], _ => by simp [recLines]
  | g :: gs, env => by
    intro h he f hf
    rw [linesAll] at h
    rw [linesFree] at he
    rw [recLines] at hf
    rcases List.mem_cons.mp hf with rfl | hf
    · exact recBlind_line hm g env h.1 (fun k hk => he k (by simp [hk]))
    · exact recBlind_lines hm gs env h.2 (fun k hk => he k (by simp [hk])) f hf
theorem recBlind_line {m : Mode} (hm : m.Blind) : ∀ (g : GLine) (env : Env),
    GLine.All (lineAllowed Flags.noExternal) g → (∀ k ∈ lineFree g, Blind (env k)) →
    Blind (recLine m env g)
  | .mk cs, env => by
    intro h he p p' d
    rw [GLine.All] at h
    rw [recLine]
    beta_reduce
    rw [recBlind_seq hm cs env h.2 h.1 he p p' d]
theorem recBlind_seq {m : Mode} (hm : m.Blind) : ∀ (cs : List Container) (env : Env),
    containersAll (lineAllowed Flags.noExternal) cs → (∀ c ∈ cs, containerAllowed Flags.noExternal c) →
    (∀ k ∈ contsFree cs, Blind (env k)) → Blind (recSeq m env cs)
  | [], env => by
    intro _ _ _ p p' d
    rw [recSeq]
  | c :: cs, env => by
    intro h ha he p p' d
    rw [containersAll] at h
    rw [contsFree] at he
    rw [recSeq]
    beta_reduce
    have hs := recBlind_seq hm cs env h.2 (fun c hc => ha c (by simp [hc])) (fun k hk => he k (by simp [hk]))
    have hc := recBlind_container hm c env h.1 (ha c (by simp)) (fun k hk => he k (by simp [hk])) p p' d
    refine bind_dropPrev hc (fun x x' hxx => ?_)
    simp only [dropPrev, Prod.mk.injEq] at hxx
    rw [hs x.2.1 x'.2.1 x.2.2, hxx.1, hxx.2]
theorem recBlind_container {m : Mode} (hm : m.Blind) : ∀ (c : Container) (env : Env),
    Container.All (lineAllowed Flags.noExternal) c → containerAllowed Flags.noExternal c →
    (∀ k ∈ contFree c, Blind (env k)) →
    ∀ p p' d, (recContainer m env c p d).map dropPrev = (recContainer m env c p' d).map dropPrev
  | .element min max c, env => by
    intro h ha he p p' d
    rw [Container.All] at h
    rw [recContainer]
    exact blind_timesOf (recBlind_content hm c env h (by
      cases c with
      | external _ _ => exact False.elim ha
      | everything _ _ e => trivial
      | value _ _ => trivial
      | token _ => trivial
      | recursive _ => trivial) he) min max p p' d
  | .compose _, _ => by
    intro _ _ _ p p' d
    rw [recContainer]
theorem recBlind_content {m : Mode} (hm : m.Blind) : ∀ (c : Content) (env : Env),
    Content.All (lineAllowed Flags.noExternal) c →
    (match c with
      | .external _ _ => False
      | _ => True) → (∀ k ∈ contentFree c, Blind (env k)) → Blind (recContent m env c)
  | .value n b, _ => by
    intro h h' _
    rw [recContent]
    exact unseen_content hm (.value n b) h h'
  | .token t, env => by
    intro h _ he p p' d
    rw [Content.All] at h
    rw [recContent]
    beta_reduce
    rw [recBlind_token hm t env h he p p' d]
  | .everything n ex esc, _ => by
    intro h h' _
    rw [recContent]
    exact unseen_content hm (.everything n ex esc) h h'
  | .external _ _, _ => by
    intro _ h
    exact False.elim h
  | .recursive n, env => by
    intro _ _ he p p' d
    rw [recContent]
    beta_reduce
    rw [he n (by simp [contentFree]) p p' d]
end

/-! ### Only the names a part refers to play a role -/

mutual
theorem recToken_env (m : Mode) : ∀ (t : Token) (env env' : Env), (∀ k ∈ tokenFree t, env k = env' k) →
    recToken m env t = recToken m env' t
  | .mk name ls ss, env, env' => by
    intro he
    have : (fun self => tokenOf m name (recLines m (env.set name self) ls))
        = fun self => tokenOf m name (recLines m (env'.set name self) ls) := by
      funext self
      rw [recLines_env m ls (env.set name self) (env'.set name self) (fun k hk => ?_)]
      unfold Env.set
      by_cases hkn : k = name
      · rw [if_pos hkn, if_pos hkn]
      · rw [if_neg hkn, if_neg hkn]
        refine he k ?_
        rw [tokenFree]
        exact List.mem_filter.mpr ⟨hk, by simpa using hkn⟩
    rw [recToken, recToken, this]
theorem recLines_env (m : Mode) : ∀ (gs : List GLine) (env env' : Env),
    (∀ k ∈ linesFree gs, env k = env' k) → recLines m env gs = recLines m env' gs
  | [], _, _ => by simp [recLines]
  | g :: gs, env, env' => by
    intro he
    rw [linesFree] at he
    rw [recLines, recLines, recLine_env m g env env' (fun k hk => he k (by simp [hk])),
      recLines_env m gs env env' (fun k hk => he k (by simp [hk]))]
theorem recLine_env (m : Mode) : ∀ (g : GLine) (env env' : Env),
    (∀ k ∈ lineFree g, env k = env' k) → recLine m env g = recLine m env' g
  | .mk cs, env, env' => by
    intro he
    rw [recLine, recLine, recSeq_env m cs env env' he]
theorem recSeq_env (m : Mode) : ∀ (cs : List Container) (env env' : Env),
    (∀ k ∈ contsFree cs, env k = env' k) → recSeq m env cs = recSeq m env' cs
  | [], _, _ => by
    intro _
    rw [recSeq, recSeq]
  | c :: cs, env, env' => by
    intro he
    rw [contsFree] at he
    rw [recSeq, recSeq, recContainer_env m c env env' (fun k hk => he k (by simp [hk])),
      recSeq_env m cs env env' (fun k hk => he k (by simp [hk]))]
theorem recContainer_env (m : Mode) : ∀ (c : Container) (env env' : Env),
    (∀ k ∈ contFree c, env k = env' k) → recContainer m env c = recContainer m env' c
  | .element min max c, env, env' => by
    intro he
    rw [recContainer, recContainer, recContent_env m c env env' he]
  | .compose _, _, _ => by
    intro _
    rw [recContainer, recContainer]
theorem recContent_env (m : Mode) : ∀ (c : Content) (env env' : Env),
    (∀ k ∈ contentFree c, env k = env' k) → recContent m env c = recContent m env' c
  | .value n b, _, _ => by
    intro _
    rw [recContent, recContent]
  | .token t, env, env' => by
    intro he
    rw [recContent, recContent, recToken_env m t env env' he]
  | .everything n ex esc, _, _ => by
    intro _
    rw [recContent, recContent]
  | .external _ _, _, _ => by
    intro _
    rw [recContent, recContent]
  | .recursive n, env, env' => by
    intro he
    rw [recContent, recContent, he n (by simp [contentFree])]
end

/-! ### Parts are covered -/

/-- Replace the token of a name in a list. -/
def swap (name : String) (w : Token) (t : Token) : Token := if t.name = name then w else t

theorem swap_name {name : String} {w : Token} (hw : w.name = name) (t : Token) :
    (swap name w t).name = t.name := by
  unfold swap
  split
  · rename_i h; rw [hw, h]
  · rfl

theorem swap_names {name : String} {w : Token} (hw : w.name = name) (toks : List Token) :
    (toks.map (swap name w)).map Token.name = toks.map Token.name := by
  rw [List.map_map]
  congr 1
  funext t
  exact swap_name hw t

theorem swap_mem {name : String} {w : Token} {toks : List Token} {t : Token} (h : t ∈ toks)
    (hn : t.name ≠ name) : t ∈ toks.map (swap name w) :=
  List.mem_map.mpr ⟨t, h, by unfold swap; rw [if_neg hn]⟩

mutual
theorem linTok_swap {name : String} {w : Token} (hw : w.name = name) {toks : List Token} :
    ∀ (t : Token) (path : List String), name ∈ path → LinTok toks path t →
      LinTok (toks.map (swap name w)) path t
  | .mk n ls ss, path => by
    intro hp h
    rw [LinTok] at h ⊢
    refine ⟨swap_mem h.1 ?_, h.2.1, linLines_swap hw ls _ (by simp [hp]) h.2.2.1, h.2.2.2⟩
    intro e
    exact h.2.1 (by rw [show n = name from e]; exact hp)
theorem linLines_swap {name : String} {w : Token} (hw : w.name = name) {toks : List Token} :
    ∀ (gs : List GLine) (path : List String), name ∈ path → LinLines toks path gs →
      LinLines (toks.map (swap name w)) path gs
  | [], _ => by simp [LinLines]
  | g :: gs, path => by
    intro hp h
    rw [LinLines] at h ⊢
    exact ⟨linLine_swap hw g path hp h.1, linLines_swap hw gs path hp h.2⟩
theorem linLine_swap {name : String} {w : Token} (hw : w.name = name) {toks : List Token} :
    ∀ (g : GLine) (path : List String), name ∈ path → LinLine toks path g →
      LinLine (toks.map (swap name w)) path g
  | .mk cs, path => by
    intro hp h
    rw [LinLine] at h ⊢
    exact ⟨h.1, h.2.1, h.2.2.1, linConts_swap hw cs path hp h.2.2.2⟩
theorem linConts_swap {name : String} {w : Token} (hw : w.name = name) {toks : List Token} :
    ∀ (cs : List Container) (path : List String), name ∈ path → LinConts toks path cs →
      LinConts (toks.map (swap name w)) path cs
  | [], _ => by simp [LinConts]
  | c :: cs, path => by
    intro hp h
    rw [LinConts] at h ⊢
    exact ⟨linCont_swap hw c path hp h.1, linConts_swap hw cs path hp h.2⟩
theorem linCont_swap {name : String} {w : Token} (hw : w.name = name) {toks : List Token} :
    ∀ (c : Container) (path : List String), name ∈ path → LinCont toks path c →
      LinCont (toks.map (swap name w)) path c
  | .element min max c, path => by
    intro hp h
    rw [LinCont] at h ⊢
    exact ⟨h.1, h.2.1, linContent_swap hw c path hp h.2.2⟩
  | .compose _, _ => by simp [LinCont]
theorem linContent_swap {name : String} {w : Token} (hw : w.name = name) {toks : List Token} :
    ∀ (c : Content) (path : List String), name ∈ path → LinContent toks path c →
      LinContent (toks.map (swap name w)) path c
  | .value _ _, _ => by simp [LinContent]
  | .token t, path => by
    intro hp h
    rw [LinContent] at h ⊢
    rw [swap_names hw]
    exact h.imp id (linTok_swap hw t path hp)
  | .everything n ex esc, path => by
    intro hp h
    rw [LinContent] at h ⊢
    rw [swap_names hw]
    exact h
  | .external n g, path => by
    intro hp h
    rw [LinContent] at h ⊢
    rw [swap_names hw]
    exact h
  | .recursive n, path => by
    intro hp h
    rw [LinContent] at h ⊢
    exact h
end

mutual
theorem refTok_fewer : ∀ (t : Token) (path path' : List String), path' ⊆ path → RefTok path t → RefTok path' t
  | .mk n ls ss, path, path' => by
    intro hp h
    rw [RefTok] at h ⊢
    exact ⟨fun e => h.1 (hp e), refLines_fewer ls _ _ (List.cons_subset_cons n hp) h.2⟩
theorem refLines_fewer : ∀ (gs : List GLine) (path path' : List String), path' ⊆ path → RefLines path gs →
    RefLines path' gs
  | [], _, _ => by simp [RefLines]
  | g :: gs, path, path' => by
    intro hp h
    rw [RefLines] at h ⊢
    exact ⟨refLine_fewer g _ _ hp h.1, refLines_fewer gs _ _ hp h.2⟩
theorem refLine_fewer : ∀ (g : GLine) (path path' : List String), path' ⊆ path → RefLine path g →
    RefLine path' g
  | .mk cs, path, path' => by
    intro hp h
    rw [RefLine] at h ⊢
    exact ⟨h.1, refConts_fewer cs _ _ hp h.2⟩
theorem refConts_fewer : ∀ (cs : List Container) (path path' : List String), path' ⊆ path → RefConts path cs →
    RefConts path' cs
  | [], _, _ => by simp [RefConts]
  | c :: cs, path, path' => by
    intro hp h
    rw [RefConts] at h ⊢
    exact ⟨refCont_fewer c _ _ hp h.1, refConts_fewer cs _ _ hp h.2⟩
theorem refCont_fewer : ∀ (c : Container) (path path' : List String), path' ⊆ path → RefCont path c →
    RefCont path' c
  | .element _ _ c, path, path' => by
    intro hp h
    rw [RefCont] at h ⊢
    exact ⟨h.1, refContent_fewer c _ _ hp h.2⟩
  | .compose _, _, _ => by simp [RefCont]
theorem refContent_fewer : ∀ (c : Content) (path path' : List String), path' ⊆ path → RefContent path c →
    RefContent path' c
  | .value _ _, _, _ => by simp [RefContent]
  | .token t, path, path' => by
    intro hp h
    rw [RefContent] at h ⊢
    exact refTok_fewer t _ _ hp h
  | .everything _ ex none, path, path' => by
    intro hp h
    rw [RefContent] at h ⊢
    exact ⟨refTok_fewer ex _ _ hp h.1, by simp [RefOpt]⟩
  | .everything _ ex (some e), path, path' => by
    intro hp h
    rw [RefContent, RefOpt] at h ⊢
    refine ⟨refTok_fewer ex _ _ hp h.1, refTok_fewer e _ _ ?_ h.2⟩
    intro k hk
    rcases List.mem_append.mp hk with hk | hk
    · exact List.mem_append.mpr (.inl hk)
    · exact List.mem_append.mpr (.inr (hp hk))
  | .external _ g, path, path' => by
    intro hp h
    rw [RefContent] at h ⊢
    exact h
  | .recursive _, _, _ => by
    intro _ h
    rw [RefContent] at h
    exact h.elim
end

mutual
theorem linTok_fewer {toks : List Token} : ∀ (t : Token) (path path' : List String), path' ⊆ path →
    tokenFree t ⊆ path' → LinTok toks path t → LinTok toks path' t
  | .mk n ls ss, path, path' => by
    intro hp hf h
    rw [LinTok] at h ⊢
    refine ⟨h.1, fun e => h.2.1 (hp e), linLines_fewer ls _ _ (List.cons_subset_cons n hp) ?_ h.2.2.1, h.2.2.2⟩
    intro k hk
    rw [tokenFree] at hf
    by_cases hkn : k = n
    · simp [hkn]
    · exact List.mem_cons_of_mem _ (hf (List.mem_filter.mpr ⟨hk, by simpa using hkn⟩))
theorem linLines_fewer {toks : List Token} : ∀ (gs : List GLine) (path path' : List String), path' ⊆ path →
    linesFree gs ⊆ path' → LinLines toks path gs → LinLines toks path' gs
  | [], _, _ => by simp [LinLines]
  | g :: gs, path, path' => by
    intro hp hf h
    rw [linesFree] at hf
    rw [LinLines] at h ⊢
    exact ⟨linLine_fewer g _ _ hp (fun k hk => hf (by simp [hk])) h.1,
      linLines_fewer gs _ _ hp (fun k hk => hf (by simp [hk])) h.2⟩
theorem linLine_fewer {toks : List Token} : ∀ (g : GLine) (path path' : List String), path' ⊆ path →
    lineFree g ⊆ path' → LinLine toks path g → LinLine toks path' g
  | .mk cs, path, path' => by
    intro hp hf h
    rw [lineFree] at hf
    rw [LinLine] at h ⊢
    exact ⟨h.1, h.2.1, h.2.2.1, linConts_fewer cs _ _ hp hf h.2.2.2⟩
theorem linConts_fewer {toks : List Token} : ∀ (cs : List Container) (path path' : List String), path' ⊆ path →
    contsFree cs ⊆ path' → LinConts toks path cs → LinConts toks path' cs
  | [], _, _ => by simp [LinConts]
  | c :: cs, path, path' => by
    intro hp hf h
    rw [contsFree] at hf
    rw [LinConts] at h ⊢
    exact ⟨linCont_fewer c _ _ hp (fun k hk => hf (by simp [hk])) h.1,
      linConts_fewer cs _ _ hp (fun k hk => hf (by simp [hk])) h.2⟩
theorem linCont_fewer {toks : List Token} : ∀ (c : Container) (path path' : List String), path' ⊆ path →
    contFree c ⊆ path' → LinCont toks path c → LinCont toks path' c
  | .element _ _ c, path, path' => by
    intro hp hf h
    rw [contFree] at hf
    rw [LinCont] at h ⊢
    exact ⟨h.1, h.2.1, linContent_fewer c _ _ hp hf h.2.2⟩
  | .compose _, _, _ => by simp [LinCont]
theorem linContent_fewer {toks : List Token} : ∀ (c : Content) (path path' : List String), path' ⊆ path →
    contentFree c ⊆ path' → LinContent toks path c → LinContent toks path' c
  | .value _ _, _, _ => by simp [LinContent]
  | .token t, path, path' => by
    intro hp hf h
    rw [contentFree] at hf
    rw [LinContent] at h ⊢
    exact h.imp id (linTok_fewer t _ _ hp hf)
  | .everything n ex esc, path, path' => by
    intro hp hf h
    rw [LinContent] at h ⊢
    exact h
  | .external n g, path, path' => by
    intro hp hf h
    rw [LinContent] at h ⊢
    exact h
  | .recursive n, path, path' => by
    intro hp hf h
    rw [LinContent]
    exact hf (by simp [contentFree])
end

theorem sameNames_one (c : Container) : sameNames [c] := by
  intro a ha b hb _
  simp only [List.mem_singleton] at ha hb
  rw [ha, hb]
  exact Nat.le_max_right _ _

/-- A closed part of the root, on its own, is covered. -/
theorem interpreted_single {g : Grammar} (hg : Interpreted g) {cs : List Container} (hl : GLine.mk cs ∈ g.root.lines)
    {min : Nat} {max : Option Nat} {c : Content} (hc : Container.element min max c ∈ cs)
    (hf : contentFree c = []) : Interpreted (single g.root.name c) := by
  rcases g with ⟨⟨name, ls, ss⟩, chs⟩
  simp only [Grammar.root, Token.name, Token.lines] at hl ⊢
  rcases hg with h | h
  · refine .inl ?_
    rw [RefGrammar, RefTok] at h
    have h1 := mem_refLines h.1.2 hl
    rw [RefLine] at h1
    have h2 := mem_refConts h1.2 hc
    rw [RefCont] at h2
    simp only [single, RefGrammar, RefTok, RefLines, RefLine, RefConts, RefCont, RefChans, and_true]
    exact ⟨h.1.1, sameNames_one _, by decide, h2.2⟩
  · refine .inr ?_
    obtain ⟨_, toks, hnd, ht⟩ := h
    rw [LinTok] at ht
    have h1 := mem_linLines ht.2.2.1 hl
    rw [LinLine] at h1
    have h2 := mem_linConts h1.2.2.2 hc
    rw [LinCont] at h2
    obtain ⟨w, hw⟩ : ∃ w : Token, w = .mk name [.mk [.element 1 (some 1) c]] [] := ⟨_, rfl⟩
    have hwn : w.name = name := by rw [hw]; rfl
    refine ⟨trivial, toks.map (swap name w), by rw [swap_names hwn]; exact hnd, ?_⟩
    have hwf : tokenFree w = [] := by
      simp [hw, tokenFree, linesFree, lineFree, contsFree, contFree, hf]
    simp only [LinTok, LinLines, LinLine, LinConts, LinCont]
    refine ⟨List.mem_map.mpr ⟨_, ht.1, by simp [swap, Token.name, hw]⟩, by simp,
      ⟨⟨sameNames_one _, ?_, by simp [oneOpen, contsFree], ⟨by decide, by simp, ?_⟩, trivial⟩, trivial⟩, ?_⟩
    · cases c with
      | recursive n => simp [contentFree] at hf
      | _ => simp [guardedFrom, Container.isRecursive]
    · exact linContent_swap hwn c _ (by simp) h2.2.2
    · rw [← hw]
      exact fun e => absurd hwf e

/-- A closed token of the root, on its own, is covered. -/
theorem interpreted_token {g : Grammar} (hg : Interpreted g) {cs : List Container} (hl : GLine.mk cs ∈ g.root.lines)
    {min : Nat} {max : Option Nat} {t : Token} (hc : Container.element min max (.token t) ∈ cs)
    (hf : tokenFree t = []) : Interpreted (.mk t []) := by
  rcases g with ⟨⟨name, ls, ss⟩, chs⟩
  simp only [Grammar.root, Token.lines] at hl
  rcases hg with h | h
  · refine .inl ?_
    rw [RefGrammar, RefTok] at h
    have h1 := mem_refLines h.1.2 hl
    rw [RefLine] at h1
    have h2 := mem_refConts h1.2 hc
    rw [RefCont, RefContent] at h2
    rw [RefGrammar, RefChans]
    exact ⟨refTok_fewer t _ _ (by simp) h2.2, trivial⟩
  · obtain ⟨_, toks, hnd, ht⟩ := h
    rw [LinTok] at ht
    have h1 := mem_linLines ht.2.2.1 hl
    rw [LinLine] at h1
    have h2 := mem_linConts h1.2.2.2 hc
    rw [LinCont, LinContent] at h2
    rcases h2.2.2 with h3 | h3
    · refine .inl ?_
      rw [RefGrammar, RefChans]
      exact ⟨refTok_fewer t _ _ (by simp) h3.2, trivial⟩
    · exact .inr ⟨trivial, toks, hnd, linTok_fewer t _ _ (by simp) (by rw [hf]; simp) h3⟩

/-- Without channels the root is read as its equation says. -/
theorem interpreted_fix {g : Grammar} (hg : Interpreted g) (p d : Bytes) :
    recGrammar g p d = rootLap g (recGrammar g) p d := by
  rcases hg with h | h
  · rcases g with ⟨⟨name, ls, ss⟩, chs⟩
    rw [RefGrammar] at h
    have h1 := refTok_noRefs _ h.1
    rw [recGrammar, recToken_noRefs _ _ _ h1, refToken]
    rw [tokenRefs] at h1
    unfold rootLap
    simp only [Grammar.root, Token.lines, Token.name]
    rw [recLines_noRefs _ _ _ h1]
    rfl
  · exact (C44_recursive_choice_partial g h []).2.1 p d

end Rodkina.Ast
