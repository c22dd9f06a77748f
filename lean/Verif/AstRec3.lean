import Verif.AstRec2

/-!
# The parser agrees with the reference interpreter of AstRecSpec.lean: grammars
-/

namespace Rodkina.Ast

open M

/-- A token read for a reference is what its name stands for, with less than `L` bytes. -/
def Means (toks : List Token) (ctx : Ctx) (env : Env) (path : List String) (L : Nat) (o : String)
    (n : Nat) : Prop :=
  ∀ t ∈ toks, t.name = o → ∀ prev cur s, Aged toks [] cur.length s → cur.length < L →
    FoundD (token n t ctx prev cur s) s (fun D => ∀ k ∈ D, k ∉ after o path) (env o prev cur)

theorem same_token {toks : List Token} (hnd : (toks.map Token.name).Nodup) {t u : Token}
    (ht : t ∈ toks) (hu : u ∈ toks) (h : t.name = u.name) : t = u := by
  induction toks with
  | nil => simp at ht
  | cons a l ih =>
    rw [List.map_cons, List.nodup_cons] at hnd
    rcases List.mem_cons.mp ht with e1 | h1 <;> rcases List.mem_cons.mp hu with e2 | h2
    · rw [e1, e2]
    · exact absurd (List.mem_map.mpr ⟨u, h2, by rw [← h, e1]⟩) hnd.1
    · exact absurd (List.mem_map.mpr ⟨t, h1, by rw [h, e2]⟩) hnd.1
    · exact ih hnd.2 h1 h2

/-- From some nesting depth on. -/
def Eventually (P : Nat → Prop) : Prop := ∃ n0, ∀ n, n0 ≤ n → P n

theorem Eventually.of_forall {P : Nat → Prop} (h : ∀ n, P n) : Eventually P := ⟨0, fun n _ => h n⟩

theorem Eventually.mono {P P' : Nat → Prop} (h : Eventually P) (hm : ∀ n, P n → P' n) :
    Eventually P' := by
  obtain ⟨n0, h⟩ := h
  exact ⟨n0, fun n hn => hm n (h n hn)⟩

theorem Eventually.and {P P' : Nat → Prop} (h : Eventually P) (h' : Eventually P') :
    Eventually (fun n => P n ∧ P' n) := by
  obtain ⟨n0, h⟩ := h
  obtain ⟨n1, h'⟩ := h'
  exact ⟨max n0 n1, fun n hn => ⟨h n (by omega), h' n (by omega)⟩⟩

theorem Eventually.all_mem {α : Type} {P : α → Nat → Prop} (l : List α)
    (h : ∀ a ∈ l, Eventually (P a)) : Eventually (fun n => ∀ a ∈ l, P a n) := by
  induction l with
  | nil => exact ⟨0, by simp⟩
  | cons a l ih =>
    have h1 := h a (by simp)
    have h2 := ih (fun b hb => h b (by simp [hb]))
    refine (h1.and h2).mono (fun n hn b hb => ?_)
    rcases List.mem_cons.mp hb with rfl | hb
    · exact hn.1
    · exact hn.2 b hb

theorem Eventually.all_le {P : Nat → Nat → Prop} (L : Nat) (h : ∀ l, l ≤ L → Eventually (P l)) :
    Eventually (fun n => ∀ l, l ≤ L → P l n) := by
  have := Eventually.all_mem (P := P) (List.range (L + 1))
    (fun l hl => h l (by rw [List.mem_range] at hl; omega))
  exact this.mono (fun n hn l hl => hn l (by rw [List.mem_range]; omega))

theorem Eventually.pred {P : Nat → Prop} (h : Eventually P) :
    Eventually (fun n => ∃ n', n = n' + 1 ∧ P n') := by
  obtain ⟨n0, h⟩ := h
  exact ⟨n0 + 1, fun n hn => ⟨n - 1, by omega, h _ (by omega)⟩⟩

section
variable {toks : List Token} {ctx : Ctx} {m : Mode} {N : Nat}

/-- A token is read as `f` says, with at most `L` bytes. -/
def TokD (toks : List Token) (ctx : Ctx) (path : List String) (L : Nat) (t : Token)
    (f : Matcher Shape) (n : Nat) : Prop :=
  ∀ prev cur s, Aged toks path cur.length s → cur.length ≤ L →
    (∀ o ∈ tokenFree t, (s.get o).isSome = true) →
    FoundD (token n t ctx prev cur s) s (Spares path (tokenFree t)) (f prev cur)

/-- The statement for tokens up to a size. -/
def LinAll (toks : List Token) (ctx : Ctx) (m : Mode) (K : Nat) : Prop :=
  ∀ t, sizeOf t ≤ K → ∀ path env L, LinTok toks path t →
    (∀ o ∈ tokenFree t, Eventually (Means toks ctx env path L o)) →
    Eventually (TokD toks ctx path L t (recToken m env t))

theorem linRun_content {K : Nat} (hall : LinAll toks ctx m K) (hnd : (toks.map Token.name).Nodup)
    (hctx : ∀ P, CtxR N P ctx m) {path : List String} {env : Env} {L : Nat} {c : Content}
    (hK : sizeOf c ≤ K) (hc : LinContent toks path c)
    (henv : ∀ o ∈ contentFree c, Eventually (Means toks ctx env path L o)) :
    Eventually (fun n => ElemD (token n) c ctx (recContent m env c) (Ready toks path L c)
      (Spares path (contentFree c))) := by
  have plain : ∀ c : Content, contentRefs c = [] → RefContent (toks.map Token.name) c →
      Eventually (fun n => ElemD (token n) c ctx (recContent m env c) (Ready toks path L c)
        (Spares path (contentFree c))) := by
    intro c hr hrc
    refine ⟨N + sizeOf c, fun n hn => ?_⟩
    rw [recContent_noRefs m env c hr]
    refine ElemD.of_ref (spares_nil _ _) (fun s cur hR => ?_)
    exact refRun_content (refAll (sizeOf c)) (hctx (toks.map Token.name ++ contentNames c))
      (Nat.le_refl _) hrc (List.subset_append_left _ _) (List.subset_append_right _ _) hn
      hR.1.keysIn
  cases c with
  | value name b => exact plain _ (by simp [contentRefs]) (by simp [RefContent])
  | everything name ex esc => exact plain _ (by simp [contentRefs]) (by rwa [LinContent] at hc)
  | external name g => exact plain _ (by simp [contentRefs]) (by rwa [LinContent] at hc)
  | token t =>
    rw [LinContent] at hc
    rcases hc with hc | hc
    · exact plain _ (by rw [contentRefs]; exact hc.1) (by rw [RefContent]; exact hc.2)
    · simp only [Content.token.sizeOf_spec] at hK
      have := hall t (by omega) path env L hc (by
        intro o ho
        exact henv o (by rw [contentFree]; exact ho))
      refine this.mono (fun n hn => ?_)
      rw [recContent]
      rw [contentFree]
      refine recRun_tree (run := fun prev cur => token n t ctx prev cur) (fun _ _ _ _ => rfl) ?_
      intro prev cur s hR
      exact hn prev cur s hR.1 hR.2.1 (fun o ho => hR.2.2.2 o (by rw [contentFree]; exact ho))
  | recursive name =>
    have := henv name (by simp [contentFree])
    refine this.mono (fun n hn => ?_)
    rw [recContent, contentFree]
    have hget : ∀ s cur, Ready toks path L (.recursive name) s cur →
        ∃ e, s.get name = some e ∧ e.token ∈ toks ∧ e.token.name = name := by
      intro s cur hR
      have h1 := hR.2.2.2 name (by simp [contentFree])
      rw [Option.isSome_iff_exists] at h1
      obtain ⟨e, he⟩ := h1
      exact ⟨e, he, hR.1.tok _ _ (get_mem he)⟩
    by_cases hex : ∃ t ∈ toks, t.name = name
    · obtain ⟨t, ht, htn⟩ := hex
      refine recRun_tree (run := fun prev cur => token n t ctx prev cur) ?_ ?_
      · intro prev cur s hR
        obtain ⟨e, he, het, hen⟩ := hget s cur hR
        have : e.token = t := same_token hnd het ht (hen.trans htn.symm)
        simp only [elementContent]
        rw [bind_apply]
        simp only [recursiveToken, he, this]
      · intro prev cur s hR
        have h := hR.2.2.1 rfl
        refine (hn t ht htn prev cur s h.1 h.2).mono ?_
        intro D hD k hk
        refine ⟨fun h => by simp at h, fun o ho => ?_⟩
        simp only [List.mem_singleton] at ho
        subst ho
        exact hD k hk
    · intro prev cur s _ hR
      obtain ⟨e, he, het, hen⟩ := hget s cur hR
      exact absurd ⟨e.token, het, hen⟩ hex

/-- One lap: below the token its name stands for `self`. -/
theorem linRun_lap {K : Nat} (hall : LinAll toks ctx m K) (hnd : (toks.map Token.name).Nodup)
    (hctx : ∀ P, CtxR N P ctx m) (hrev : ctx.reverse = false) {path : List String} {env : Env}
    {L : Nat} {name : String} {ls : List GLine} {ss : List Suite}
    (hK : sizeOf ls ≤ K) (ht : LinTok toks path (.mk name ls ss))
    (henv : ∀ o ∈ linesFree ls, Eventually (Means toks ctx env (name :: path) L o)) :
    Eventually (TokD toks ctx path L (.mk name ls ss) (tokenOf m name (recLines m env ls))) := by
  rw [LinTok] at ht
  obtain ⟨hmem, hk, hls, hone⟩ := ht
  have hlines : Eventually (fun n => ∀ g ∈ ls, ∀ c ∈ g.containers,
      ∀ min max ct, c = .element min max ct →
      ElemD (token n) ct ctx (recContent m env ct) (Ready toks (name :: path) L ct)
        (Spares (name :: path) (contentFree ct))) := by
    refine Eventually.all_mem ls (fun g hg => Eventually.all_mem g.containers (fun c hc => ?_))
    have hgl := mem_linLines hls hg
    have h1 := List.sizeOf_lt_of_mem hg
    have hfr := linesFree_mem hg
    rcases g with ⟨cs⟩
    simp only [GLine.containers] at hc
    rw [LinLine] at hgl
    rw [lineFree] at hfr
    have h2 := List.sizeOf_lt_of_mem hc
    simp only [GLine.mk.sizeOf_spec] at h1
    have hcl := mem_linConts hgl.2.2.2 hc
    have hfr2 := contsFree_mem hc
    cases c with
    | compose cmp => exact Eventually.of_forall (fun n min max ct h => by simp at h)
    | element min max ct =>
      rw [LinCont] at hcl
      rw [contFree] at hfr2
      simp only [Container.element.sizeOf_spec] at h2
      have := linRun_content hall hnd hctx (c := ct) (by omega) hcl.2.2
        (fun o ho => henv o (hfr (hfr2 ho)))
      refine this.mono (fun n hn min' max' ct' h => ?_)
      cases h
      exact hn
  refine ((hlines.and ⟨N, fun n hn => hn⟩ : Eventually (fun n => _ ∧ N ≤ n)).pred).mono ?_
  rintro _ ⟨n, rfl, hn, hN⟩
  intro prev cur s hag hL hpres
  refine recRun_token (tok := .mk name ls ss) hrev (by rw [(hctx []).rev]; exact hrev) hmem hk
    ((hctx []).skip n hN) ?_ ?_ ?_ prev cur s hL hag hpres
  · intro g hg
    simp only [Token.lines, Token.name] at hg ⊢
    have hgl := mem_linLines hls hg
    have hng := hn g hg
    rcases g with ⟨cs⟩
    simp only [GLine.containers] at hng ⊢
    have hlf := linLine_free _ hgl
    rw [LinLine] at hgl
    rw [lineFree] at hlf ⊢
    refine ⟨hgl.1, fun idx prev cur s hag hL hpres => ?_⟩
    refine recRun_line ((hctx []).skip n hN) cs ?_ hgl.2.2.1 hlf ?_ hgl.2.1 idx prev cur s hag hL
      hpres
    · intro min max c hc
      have := mem_linConts hgl.2.2.2 hc
      rw [LinCont] at this
      exact ⟨this.1, this.2.1⟩
    · intro min max c hc
      exact hng _ hc min max c rfl
  · intro hex
    obtain ⟨o, ho, hne⟩ := hex
    refine hone (List.ne_nil_of_mem (a := o) ?_)
    rw [tokenFree, List.mem_filter]
    simp only [Token.name] at hne
    exact ⟨ho, by simpa using hne⟩
  · exact linLines_free ls hls

/-- A token that refers to itself refers to no token around it. -/
theorem linTok_closed {path : List String} {name : String} {ls : List GLine} {ss : List Suite}
    (ht : LinTok toks path (.mk name ls ss)) (hself : name ∈ linesFree ls) :
    tokenFree (.mk name ls ss) = [] := by
  rw [LinTok] at ht
  by_contra hne
  have hle := ht.2.2.2 hne
  obtain ⟨o, ho⟩ := List.exists_mem_of_ne_nil _ hne
  rw [tokenFree, List.mem_filter] at ho
  have h1 := linesFree_refs ls hself
  have h2 := linesFree_refs ls ho.1
  have hon : o ≠ name := by simpa using ho.2
  match hl : linesRefs ls with
  | [] => rw [hl] at h1; simp at h1
  | [a] =>
    rw [hl] at h1 h2
    simp only [List.mem_singleton] at h1 h2
    exact hon (h2.trans h1.symm)
  | a :: b :: r => rw [hl] at hle; simp at hle

/-- What the names below a token stand for. -/
theorem linRun_env (hnd : (toks.map Token.name).Nodup) {path : List String} {env : Env}
    {L : Nat} {name : String} {ls : List GLine} {ss : List Suite}
    (ht : LinTok toks path (.mk name ls ss))
    (henv : ∀ o ∈ tokenFree (.mk name ls ss), Eventually (Means toks ctx env path L o))
    {self : Matcher Shape}
    (hself : tokenFree (.mk name ls ss) = [] →
      ∀ L', L = L' + 1 → Eventually (TokD toks ctx path L' (.mk name ls ss) self)) :
    ∀ o ∈ linesFree ls, Eventually (Means toks ctx (env.set name self) (name :: path) L o) := by
  intro o ho
  by_cases hon : o = name
  · subst hon
    have hcl := linTok_closed ht ho
    cases L with
    | zero =>
      exact Eventually.of_forall (fun n t _ _ prev cur s _ h => absurd h (Nat.not_lt_zero _))
    | succ L' =>
      refine (hself hcl L' rfl).mono (fun n hn => ?_)
      intro t htm htn prev cur s hag hlt
      have hmem := ht
      rw [LinTok] at hmem
      have : t = .mk o ls ss := same_token hnd htm hmem.1 (by rw [htn]; rfl)
      subst this
      have hset : (env.set o self) o = self := by simp [Env.set]
      rw [hset, after_self]
      refine (hn prev cur s (hag.weaken _) (by omega) (by rw [hcl]; simp)).mono ?_
      intro D hD k hk
      exact (hD k hk).1 hcl
  · have hof : o ∈ tokenFree (.mk name ls ss) := by
      rw [tokenFree, List.mem_filter]
      exact ⟨ho, by simpa using hon⟩
    refine (henv o hof).mono (fun n hn => ?_)
    intro t htm htn prev cur s hag hlt
    have hset : (env.set name self) o = env o := by simp [Env.set, hon]
    rw [hset, after_other hon]
    exact hn t htm htn prev cur s hag hlt

theorem Means.le {env : Env} {path : List String} {L L' : Nat} {o : String} {n : Nat}
    (h : Means toks ctx env path L o n) (hL : L' ≤ L) : Means toks ctx env path L' o n :=
  fun t ht htn prev cur s hag hlt => h t ht htn prev cur s hag (by omega)

theorem linAll (hnd : (toks.map Token.name).Nodup) (hctx : ∀ P, CtxR N P ctx m)
    (hrev : ctx.reverse = false) (K : Nat) : LinAll toks ctx m K := by
  induction K with
  | zero =>
    intro t ht
    rcases t with ⟨name, ls, ss⟩
    simp at ht
  | succ K ih =>
    intro t hK path env L ht henv
    rcases t with ⟨name, ls, ss⟩
    simp only [Token.mk.sizeOf_spec] at hK
    have key : ∀ l, l ≤ L → ∀ k, l < k → Eventually (TokD toks ctx path l (.mk name ls ss)
        (knot (fun self => tokenOf m name (recLines m (env.set name self) ls)) k)) := by
      intro l
      induction l with
      | zero =>
        intro hl k hk
        obtain ⟨k', rfl⟩ : ∃ k', k = k' + 1 := ⟨k - 1, by omega⟩
        rw [knot]
        refine linRun_lap ih hnd hctx hrev (by omega) ht ?_
        refine linRun_env hnd ht (fun o ho => (henv o ho).mono (fun n hn => hn.le hl)) ?_
        intro _ L' h
        omega
      | succ l ihl =>
        intro hl k hk
        obtain ⟨k', rfl⟩ : ∃ k', k = k' + 1 := ⟨k - 1, by omega⟩
        rw [knot]
        refine linRun_lap ih hnd hctx hrev (by omega) ht ?_
        refine linRun_env hnd ht (fun o ho => (henv o ho).mono (fun n hn => hn.le hl)) ?_
        intro _ L' h
        obtain rfl : l = L' := by omega
        exact ihl (by omega) k' (by omega)
    have := Eventually.all_le L (fun l hl => key l hl (l + 1) (by omega))
    refine this.mono (fun n hn prev cur s hag hL hpres => ?_)
    rw [recToken]
    exact hn cur.length hL prev cur s hag (Nat.le_refl _) hpres

/-- The same for every meaning of the token that satisfies its equation. -/
theorem linRun_fix (hnd : (toks.map Token.name).Nodup) (hctx : ∀ P, CtxR N P ctx m)
    (hrev : ctx.reverse = false) {path : List String} {env : Env} {name : String}
    {ls : List GLine} {ss : List Suite} (ht : LinTok toks path (.mk name ls ss))
    (hcl : tokenFree (.mk name ls ss) = []) {self : Matcher Shape}
    (hself : ∀ p d, self p d = tokenOf m name (recLines m (env.set name self) ls) p d) (L : Nat) :
    Eventually (TokD toks ctx path L (.mk name ls ss) self) := by
  have hs : self = tokenOf m name (recLines m (env.set name self) ls) := by
    funext p d
    exact hself p d
  have hall := linAll hnd hctx hrev (sizeOf ls)
  induction L with
  | zero =>
    conv => rhs; rw [hs]
    refine linRun_lap hall hnd hctx hrev (Nat.le_refl _) ht ?_
    exact linRun_env hnd ht (by rw [hcl]; simp) (fun _ L' h => by omega)
  | succ L ih =>
    conv => rhs; rw [hs]
    refine linRun_lap hall hnd hctx hrev (Nat.le_refl _) ht ?_
    refine linRun_env hnd ht (by rw [hcl]; simp) (fun _ L' h => ?_)
    obtain rfl : L = L' := by omega
    exact ih

/-- The interpreter satisfies the equation: below the token its name stands for the token itself. -/
theorem recToken_fix (hnd : (toks.map Token.name).Nodup) (hctx : ∀ P, CtxR N P ctx m)
    (hrev : ctx.reverse = false) {path : List String} {env : Env} {name : String}
    {ls : List GLine} {ss : List Suite} (ht : LinTok toks path (.mk name ls ss))
    (hcl : tokenFree (.mk name ls ss) = []) (p d : Bytes) :
    recToken m env (.mk name ls ss) p d
      = tokenOf m name (recLines m (env.set name (recToken m env (.mk name ls ss))) ls) p d := by
  have hall := linAll hnd hctx hrev
  have h1 : ∀ L, Eventually (TokD toks ctx path L (.mk name ls ss)
      (recToken m env (.mk name ls ss))) := fun L =>
    hall _ _ (Nat.le_refl _) path env L ht (by rw [hcl]; simp)
  have h2 : Eventually (TokD toks ctx path d.length (.mk name ls ss)
      (tokenOf m name (recLines m (env.set name (recToken m env (.mk name ls ss))) ls))) := by
    refine linRun_lap (hall (sizeOf ls)) hnd hctx hrev (Nat.le_refl _) ht ?_
    exact linRun_env hnd ht (by rw [hcl]; simp) (fun _ L' _ => h1 L')
  obtain ⟨n0, hn⟩ := (h1 d.length).and h2
  obtain ⟨a, b⟩ := hn n0 (Nat.le_refl _)
  exact (a p d [] (aged_nil _ _ _) (Nat.le_refl _) (by rw [hcl]; simp)).unique
    (b p d [] (aged_nil _ _ _) (Nat.le_refl _) (by rw [hcl]; simp))

end

/-! ### Grammars -/

theorem FoundD.agrees {n : Nat} {root : Token} {chs : List Channel} {input : Bytes}
    {Q : List String → Prop} {r : Ans (Shape × Bytes)}
    (hf : FoundD (token n root ⟨none, chs, false⟩ [] input []) [] Q r) :
    AgreesR (.mk root chs) input r := by
  cases r with
  | found x =>
    obtain ⟨t, D, _, h1, h2⟩ := hf
    exact ⟨t, ⟨trivial, n, by unfold execute; simp only [Grammar.root, Grammar.channels]; rw [h1]⟩, h2⟩
  | blank =>
    obtain ⟨t, D, _, h1, h2⟩ := hf
    exact ⟨t, ⟨trivial, n, by unfold execute; simp only [Grammar.root, Grammar.channels]; rw [h1]⟩, h2⟩
  | refused =>
    obtain ⟨D, _, h1⟩ := hf
    exact ⟨trivial, n, by unfold execute; simp only [Grammar.root, Grammar.channels]; rw [h1]⟩
  | crash =>
    exact ⟨trivial, n, hf⟩

theorem rec_ctx {chs : List Channel} (h : RefChans chs) (P : List String) :
    CtxR (sizeOf chs) P ⟨none, chs, false⟩ ⟨none,
      fun p d => channelsSkip (refChannels chs) (d.length + 1) p d, false⟩ :=
  ⟨rfl, fun _ hn => (refAll (sizeOf chs)).skip h (Nat.le_refl _) hn, fun _ _ _ _ => trivial⟩

theorem linTok_root {toks : List Token} {root : Token} (h : LinTok toks [] root) :
    tokenFree root = [] := eq_nil_of_subset_nil' (linTok_free root h)

/-- The parser computes the reference interpretation of every grammar with references by name in the
class above. -/
theorem rec_execute (g : Grammar) (hg : RecGrammar g) (input : Bytes) :
    AgreesR g input (recGrammar g [] input) := by
  rcases g with ⟨root, chs⟩
  obtain ⟨hchs, toks, hnd, ht⟩ := hg
  have hcl := linTok_root ht
  obtain ⟨n, hn⟩ := linAll hnd (rec_ctx hchs) rfl (sizeOf root) root (Nat.le_refl _) [] Env.empty
    input.length ht (by rw [hcl]; simp)
  exact (hn n (Nat.le_refl _) [] input [] (aged_nil _ _ _) (Nat.le_refl _)
    (by rw [hcl]; simp)).agrees

end Rodkina.Ast
