import Verif.AstRec

/-!
# The parser agrees with the reference interpreter of AstRecSpec.lean: tokens
-/

namespace Rodkina.Ast

open M

/-! ### Alternatives -/

/-- The map while the alternatives of a token are tried, from number `idx` on. -/
structure Trying (toks : List Token) (path : List String) (name : String) (cur : Bytes) (idx : Nat)
    (s : Stk) : Prop where
  aged : Aged toks (name :: path) cur.length s
  own : ∀ e, (name, e) ∈ s → ∀ p ∈ e.lines, idx ≤ p.1 → cur.length < p.2.length

section
variable {toks : List Token} {path : List String} {tok : Token} {cur : Bytes} {idx : Nat} {s : Stk}

theorem Trying.without (h : Trying toks path tok.name cur idx s) (D : List String) :
    Trying toks path tok.name cur idx (s.without D) :=
  ⟨h.aged.without D, fun e he => h.own e (mem_without.mp he).1⟩

theorem Trying.tried (h : Trying toks path tok.name cur idx s) :
    alreadyTried tok idx cur s = (.ok false, s) := by
  unfold alreadyTried
  cases hg : s.get tok.name with
  | none => rfl
  | some e =>
    have hm := get_mem hg
    have : (e.lines.lookup idx == some cur) = false := by
      cases hl : e.lines.lookup idx with
      | none => rfl
      | some d =>
        have hd : (idx, d) ∈ e.lines := by
          obtain ⟨l1, l2, h, _⟩ := List.lookup_eq_some_iff.mp hl
          rw [h]
          simp
        have := h.own e hm (idx, d) hd (Nat.le_refl _)
        simp only [beq_eq_false_iff_ne, ne_eq, Option.some.injEq]
        rintro rfl
        simp at this
    simp only [Option.any_some, this]

theorem Trying.record (h : Trying toks path tok.name cur idx s) (ht : tok ∈ toks) :
    ∃ e, recordLine tok idx cur s = (.ok (), (tok.name, e) :: s.without [tok.name]) ∧
      Trying toks path tok.name cur (idx + 1) ((tok.name, e) :: s.without [tok.name]) := by
  have key : ∀ e : Entry, e.token ∈ toks → e.token.name = tok.name →
      (∀ p ∈ e.lines, cur.length ≤ p.2.length ∧ (idx ≤ p.1 → cur.length < p.2.length)) →
      Trying toks path tok.name cur (idx + 1)
        ((tok.name, ⟨e.token, (idx, cur) :: e.lines⟩) :: s.without [tok.name]) := by
    intro e he1 he2 he3
    refine ⟨⟨?_, ?_⟩, ?_⟩
    · intro k e' hm
      rcases List.mem_cons.mp hm with hm | hm
      · cases hm; exact ⟨he1, he2⟩
      · exact h.aged.tok k e' (mem_without.mp hm).1
    · intro k e' hm p hp
      rcases List.mem_cons.mp hm with hm | hm
      · cases hm
        refine ⟨?_, fun hk => absurd (List.mem_cons_self) hk⟩
        rcases List.mem_cons.mp hp with rfl | hp
        · exact Nat.le_refl _
        · exact (he3 p hp).1
      · exact h.aged.old k e' (mem_without.mp hm).1 p hp
    · intro e' hm p hp hi
      rcases List.mem_cons.mp hm with hm | hm
      · cases hm
        rcases List.mem_cons.mp hp with rfl | hp
        · simp only at hi; omega
        · exact (he3 p hp).2 (by omega)
      · exact absurd (mem_without.mp hm).2 (by simp)
  unfold recordLine
  simp only [Stk.put, del_eq_without]
  cases hg : s.get tok.name with
  | none =>
    exact ⟨_, rfl, key ⟨tok, []⟩ ht rfl (by simp)⟩
  | some e =>
    have hm := get_mem hg
    obtain ⟨h1, h2⟩ := h.aged.tok _ e hm
    exact ⟨_, rfl, key e h1 h2 (fun p hp => ⟨(h.aged.old _ e hm p hp).1, h.own e hm p hp⟩)⟩

/-- Entering a token. -/
theorem Aged.enter (h : Aged toks path cur.length s) (ht : tok ∈ toks) (hk : tok.name ∉ path) :
    ∃ s', enter tok s = (.ok (), s') ∧ Trying toks path tok.name cur 0 s' ∧
      s'.without [tok.name] = s.without [tok.name] := by
  have hkk : ∀ k, k ∉ tok.name :: path → k ∉ path := fun k h hm => h (List.mem_cons_of_mem _ hm)
  unfold Ast.enter
  cases hg : s.get tok.name with
  | some e =>
    refine ⟨s, rfl, ⟨⟨h.tok, fun k e hm p hp => ?_⟩, fun e hm p hp _ => ?_⟩, rfl⟩
    · exact ⟨(h.old k e hm p hp).1, fun hn => (h.old k e hm p hp).2 (hkk k hn)⟩
    · exact (h.old _ e hm p hp).2 hk
  | none =>
    refine ⟨_, rfl, ⟨⟨?_, ?_⟩, ?_⟩, ?_⟩
    · intro k e hm
      simp only [Stk.put, del_eq_without] at hm
      rcases List.mem_cons.mp hm with hm | hm
      · cases hm; exact ⟨ht, rfl⟩
      · exact h.tok k e (mem_without.mp hm).1
    · intro k e hm p hp
      simp only [Stk.put, del_eq_without] at hm
      rcases List.mem_cons.mp hm with hm | hm
      · cases hm; simp at hp
      · have hm := (mem_without.mp hm).1
        exact ⟨(h.old k e hm p hp).1, fun hn => (h.old k e hm p hp).2 (hkk k hn)⟩
    · intro e hm p hp _
      simp only [Stk.put, del_eq_without] at hm
      rcases List.mem_cons.mp hm with hm | hm
      · cases hm; simp at hp
      · exact absurd (mem_without.mp hm).2 (by simp)
    · simp only [Stk.put, del_eq_without]
      rw [without_cons, if_pos (by simp), without_without]
      exact without_congr s (by simp)

end

/-! ### References -/

mutual
theorem tokenFree_refs (t : Token) : tokenFree t ⊆ tokenRefs t := by
  rcases t with ⟨name, ls, ss⟩
  rw [tokenFree, tokenRefs]
  exact fun o ho => linesFree_refs ls (List.mem_filter.mp ho).1
theorem linesFree_refs (ls : List GLine) : linesFree ls ⊆ linesRefs ls := by
  cases ls with
  | nil => simp [linesFree]
  | cons g gs =>
    rw [linesFree, linesRefs]
    exact List.append_subset.mpr ⟨(lineFree_refs g).trans (List.subset_append_left _ _),
      (linesFree_refs gs).trans (List.subset_append_right _ _)⟩
theorem lineFree_refs (g : GLine) : lineFree g ⊆ lineRefs g := by
  rcases g with ⟨cs⟩
  rw [lineFree, lineRefs]
  exact contsFree_refs cs
theorem contsFree_refs (cs : List Container) : contsFree cs ⊆ contsRefs cs := by
  cases cs with
  | nil => simp [contsFree]
  | cons g gs =>
    rw [contsFree, contsRefs]
    exact List.append_subset.mpr ⟨(contFree_refs g).trans (List.subset_append_left _ _),
      (contsFree_refs gs).trans (List.subset_append_right _ _)⟩
theorem contFree_refs (c : Container) : contFree c ⊆ contRefs c := by
  cases c with
  | element min max c =>
    rw [contFree, contRefs]
    exact contentFree_refs c
  | compose c => simp [contFree]
theorem contentFree_refs (c : Content) : contentFree c ⊆ contentRefs c := by
  cases c with
  | token t =>
    rw [contentFree, contentRefs]
    exact tokenFree_refs t
  | recursive name => simp [contentFree, contentRefs]
  | value name b => simp [contentFree]
  | everything name ex esc => simp [contentFree]
  | external name g => simp [contentFree]
end

theorem mem_linLines {toks : List Token} {path : List String} {g : GLine} {gs : List GLine}
    (h : LinLines toks path gs) (hg : g ∈ gs) : LinLine toks path g := by
  induction gs with
  | nil => simp at hg
  | cons a gs ih =>
    rw [LinLines] at h
    rcases List.mem_cons.mp hg with rfl | hg
    · exact h.1
    · exact ih h.2 hg

theorem mem_linConts {toks : List Token} {path : List String} {c : Container} {cs : List Container}
    (h : LinConts toks path cs) (hc : c ∈ cs) : LinCont toks path c := by
  induction cs with
  | nil => simp at hc
  | cons a cs ih =>
    rw [LinConts] at h
    rcases List.mem_cons.mp hc with rfl | hc
    · exact h.1
    · exact ih h.2 hc

theorem contsFree_mem {c : Container} {cs : List Container} (h : c ∈ cs) :
    contFree c ⊆ contsFree cs := by
  induction cs with
  | nil => simp at h
  | cons a cs ih =>
    rw [contsFree]
    rcases List.mem_cons.mp h with rfl | h
    · exact List.subset_append_left _ _
    · exact (ih h).trans (List.subset_append_right _ _)

theorem linesFree_mem {g : GLine} {gs : List GLine} (h : g ∈ gs) :
    lineFree g ⊆ linesFree gs := by
  induction gs with
  | nil => simp at h
  | cons a gs ih =>
    rw [linesFree]
    rcases List.mem_cons.mp h with rfl | h
    · exact List.subset_append_left _ _
    · exact (ih h).trans (List.subset_append_right _ _)

theorem eq_nil_of_subset_nil' {l : List String} (h : l ⊆ []) : l = [] :=
  List.eq_nil_iff_forall_not_mem.mpr (fun a ha => by have := h ha; simp at this)

mutual
theorem tokenFree_of_noRefs (t : Token) (h : tokenRefs t = []) : tokenFree t = [] :=
  eq_nil_of_subset_nil' (h ▸ tokenFree_refs t)
end

mutual
theorem linTok_free {toks : List Token} {path : List String} (t : Token)
    (h : LinTok toks path t) : tokenFree t ⊆ path := by
  rcases t with ⟨name, ls, ss⟩
  rw [LinTok] at h
  have := linLines_free ls h.2.2.1
  rw [tokenFree]
  intro o ho
  rw [List.mem_filter] at ho
  rcases List.mem_cons.mp (this ho.1) with e | e
  · simp [e] at ho
  · exact e
theorem linLines_free {toks : List Token} {path : List String} (ls : List GLine)
    (h : LinLines toks path ls) : linesFree ls ⊆ path := by
  cases ls with
  | nil => simp [linesFree]
  | cons g gs =>
    rw [LinLines] at h
    rw [linesFree]
    exact List.append_subset.mpr ⟨linLine_free g h.1, linLines_free gs h.2⟩
theorem linLine_free {toks : List Token} {path : List String} (g : GLine)
    (h : LinLine toks path g) : lineFree g ⊆ path := by
  rcases g with ⟨cs⟩
  rw [LinLine] at h
  rw [lineFree]
  exact linConts_free cs h.2.2.2
theorem linConts_free {toks : List Token} {path : List String} (cs : List Container)
    (h : LinConts toks path cs) : contsFree cs ⊆ path := by
  cases cs with
  | nil => simp [contsFree]
  | cons c cs =>
    rw [LinConts] at h
    rw [contsFree]
    exact List.append_subset.mpr ⟨linCont_free c h.1, linConts_free cs h.2⟩
theorem linCont_free {toks : List Token} {path : List String} (c : Container)
    (h : LinCont toks path c) : contFree c ⊆ path := by
  cases c with
  | element min max c =>
    rw [LinCont] at h
    rw [contFree]
    exact linContent_free c h.2.2
  | compose c => simp [contFree]
theorem linContent_free {toks : List Token} {path : List String} (c : Content)
    (h : LinContent toks path c) : contentFree c ⊆ path := by
  cases c with
  | token t =>
    rw [LinContent] at h
    rw [contentFree]
    rcases h with h | h
    · rw [tokenFree_of_noRefs t h.1]; simp
    · exact linTok_free t h
  | recursive name =>
    rw [LinContent] at h
    simp [contentFree, h]
  | value name b => simp [contentFree]
  | everything name ex esc => simp [contentFree]
  | external name g => simp [contentFree]
end

/-! ### Without references nothing changes -/

mutual
theorem recToken_noRefs (m : Mode) (env : Env) (t : Token) (h : tokenRefs t = []) :
    recToken m env t = refToken m t := by
  rcases t with ⟨name, ls, ss⟩
  rw [tokenRefs] at h
  funext p d
  rw [recToken, refToken]
  simp only [knot]
  rw [recLines_noRefs m _ ls h]
theorem recLines_noRefs (m : Mode) (env : Env) (ls : List GLine) (h : linesRefs ls = []) :
    recLines m env ls = refLines m ls := by
  cases ls with
  | nil => rw [recLines, refLines]
  | cons g gs =>
    rw [linesRefs, List.append_eq_nil_iff] at h
    rw [recLines, refLines, recLine_noRefs m env g h.1, recLines_noRefs m env gs h.2]
theorem recLine_noRefs (m : Mode) (env : Env) (g : GLine) (h : lineRefs g = []) :
    recLine m env g = refLine m g := by
  rcases g with ⟨cs⟩
  rw [lineRefs] at h
  rw [recLine, refLine, recSeq_noRefs m env cs h]
theorem recSeq_noRefs (m : Mode) (env : Env) (cs : List Container) (h : contsRefs cs = []) :
    recSeq m env cs = refSeq m cs := by
  cases cs with
  | nil => rw [recSeq, refSeq]
  | cons c cs =>
    rw [contsRefs, List.append_eq_nil_iff] at h
    rw [recSeq, refSeq, recContainer_noRefs m env c h.1, recSeq_noRefs m env cs h.2]
theorem recContainer_noRefs (m : Mode) (env : Env) (c : Container) (h : contRefs c = []) :
    recContainer m env c = refContainer m c := by
  cases c with
  | element min max c =>
    rw [contRefs] at h
    rw [recContainer, refContainer, recContent_noRefs m env c h]
  | compose c => rw [recContainer, refContainer]
theorem recContent_noRefs (m : Mode) (env : Env) (c : Content) (h : contentRefs c = []) :
    recContent m env c = refContent m c := by
  cases c with
  | token t =>
    rw [contentRefs] at h
    rw [recContent, refContent, recToken_noRefs m env t h]
  | recursive name => simp [contentRefs] at h
  | value name b => rw [recContent]
  | everything name ex esc => rw [recContent]
  | external name g => rw [recContent]
end

theorem recLines_map (m : Mode) (env : Env) (ls : List GLine) :
    recLines m env ls = ls.map (recLine m env) := by
  induction ls with
  | nil => rw [recLines]; rfl
  | cons g gs ih => rw [recLines, ih]; rfl

/-! ### Alternatives -/

/-- Two kinds of references in the alternatives of a token: a token that refers to a token around it
has no second reference. -/
def OneRef (name : String) (gs : List GLine) : Prop :=
  (∃ o ∈ linesFree gs, o ≠ name) → (linesRefs gs).length ≤ 1

theorem OneRef.tail {name : String} {g : GLine} {gs : List GLine} (h : OneRef name (g :: gs)) :
    OneRef name gs := by
  rintro ⟨o, ho, hne⟩
  have := h ⟨o, by rw [linesFree]; simp [ho], hne⟩
  rw [linesRefs, List.length_append] at this
  omega

theorem OneRef.head {name : String} {g : GLine} {gs : List GLine} (h : OneRef name (g :: gs))
    {o : String} (ho : o ∈ linesFree gs) (hne : o ≠ name) : lineFree g = [] := by
  have := h ⟨o, by rw [linesFree]; simp [ho], hne⟩
  rw [linesRefs, List.length_append] at this
  have h1 : 0 < (linesRefs gs).length := List.length_pos_of_mem (linesFree_refs gs ho)
  have h2 : lineRefs g = [] := List.eq_nil_of_length_eq_zero (by omega)
  exact eq_nil_of_subset_nil' (h2 ▸ lineFree_refs g)

theorem OneRef.rest {name : String} {g : GLine} {gs : List GLine} (h : OneRef name (g :: gs))
    {o : String} (ho : o ∈ lineFree g) (hne : o ≠ name) : linesFree gs = [] := by
  have := h ⟨o, by rw [linesFree]; simp [ho], hne⟩
  rw [linesRefs, List.length_append] at this
  have h1 : 0 < (lineRefs g).length := List.length_pos_of_mem (lineFree_refs g ho)
  have h2 : linesRefs gs = [] := List.eq_nil_of_length_eq_zero (by omega)
  exact eq_nil_of_subset_nil' (h2 ▸ linesFree_refs gs)

/-- The references to tokens around the token. -/
def outer (name : String) (fr : List String) : List String := fr.filter (fun k => k ≠ name)

theorem mem_outer {name o : String} {fr : List String} : o ∈ outer name fr ↔ o ∈ fr ∧ o ≠ name := by
  simp [outer, List.mem_filter]

theorem spares_alternatives {name : String} {path : List String} {g : GLine} {gs : List GLine}
    (hone : OneRef name (g :: gs)) {D1 D2 : List String}
    (h1 : Spares (name :: path) (lineFree g) D1) (h2 : Spares path (outer name (linesFree gs)) D2) :
    Spares path (outer name (linesFree (g :: gs))) (D1 ++ D2) := by
  have hsub : ∀ o, after o path ⊆ path := fun o => after_subset o path
  have hout : ∀ o, o ∈ outer name (linesFree (g :: gs)) ↔
      (o ∈ lineFree g ∨ o ∈ linesFree gs) ∧ o ≠ name := by
    intro o
    rw [mem_outer, linesFree, List.mem_append]
  intro k hk
  rcases List.mem_append.mp hk with hk | hk
  · refine ⟨fun he hm => ?_, fun o ho hm => ?_⟩
    · cases hl : lineFree g with
      | nil => exact (h1 k hk).1 hl (List.mem_cons_of_mem _ hm)
      | cons o os =>
        have ho : o ∈ lineFree g := by rw [hl]; simp
        have hon : o = name := by
          by_contra hne
          have := (hout o).mpr ⟨.inl ho, hne⟩
          rw [he] at this
          simp at this
        have := (h1 k hk).2 o ho
        rw [hon, after_self] at this
        exact this hm
    · obtain ⟨hor, hne⟩ := (hout o).mp ho
      rcases hor with hor | hor
      · have := (h1 k hk).2 o hor
        rw [after_other hne] at this
        exact this hm
      · exact (h1 k hk).1 (hone.head hor hne) (List.mem_cons_of_mem _ (hsub o hm))
  · refine ⟨fun he hm => ?_, fun o ho hm => ?_⟩
    · refine (h2 k hk).1 ?_ hm
      rw [List.eq_nil_iff_forall_not_mem]
      intro o ho
      have := (hout o).mpr ⟨.inr (mem_outer.mp ho).1, (mem_outer.mp ho).2⟩
      rw [he] at this
      simp at this
    · obtain ⟨hor, hne⟩ := (hout o).mp ho
      rcases hor with hor | hor
      · refine (h2 k hk).1 ?_ (hsub o hm)
        rw [hone.rest hor hne]
        rfl
      · exact (h2 k hk).2 o (mem_outer.mpr ⟨hor, hne⟩) hm

/-- `block` in terms of the reference interpreter. -/
def BlockD (name : String) (o : Out (List TLine × Bytes) × Stk) (s : Stk) (Q : List String → Prop)
    (acc : List TLine) (cur : Bytes) (r : Ans ((Nat × List ShapeElem) × Bytes)) : Prop :=
  match r with
  | .found x => ∃ ls l s' D, Q D ∧ o = (.ok (acc ++ ls ++ [l], x.2), s') ∧
      s'.without [name] = s.without (name :: D) ∧
      l.isSuccessful = true ∧ (∀ l ∈ ls, l.isSuccessful = false) ∧
      TLine.shape name l = .node name x.1.1 x.1.2
  | .blank => ∃ ls s' D, Q D ∧ o = (.ok (acc ++ ls, cur), s') ∧
      s'.without [name] = s.without (name :: D) ∧ ls ≠ [] ∧ (∀ l ∈ ls, l.isSuccessful = false)
  | .refused => ∃ s' D, Q D ∧ o = (.ok (acc, cur), s') ∧
      s'.without [name] = s.without (name :: D)
  | .crash => o.1 = .panic

/-- All alternatives of a token are run as the reference interpreter does. -/
def LinesD (n : Nat) (ctx : Ctx) (m : Mode) (env : Env) (toks : List Token) (path : List String)
    (L : Nat) (gs : List GLine) : Prop :=
  ∀ g ∈ gs, sameNames g.containers ∧ ∀ idx prev cur s, Aged toks path cur.length s →
    cur.length ≤ L → (∀ o ∈ lineFree g, (s.get o).isSome = true) →
    LnD (line (token n) idx g ctx prev cur s) s (Spares path (lineFree g)) idx
      g.containers (recLine m env g prev cur)

theorem block_stack {s : Stk} {name : String} {e : Entry} {D1 D2 : List String} {s' : Stk}
    (h : s'.without [name] = (Stk.without ((name, e) :: s.without [name]) D1).without (name :: D2)) :
    s'.without [name] = s.without (name :: (D1 ++ D2)) := by
  rw [h, without_without, without_cons, if_pos (by simp), without_without]
  refine without_congr s (fun k => ?_)
  simp only [List.mem_append, List.mem_cons, List.not_mem_nil, or_false]
  tauto

theorem recRun_blockLoop {n : Nat} {ctx : Ctx} {m : Mode} {env : Env} {toks : List Token}
    {path : List String} {L : Nat} {tok : Token} (hrev : ctx.reverse = false) (ht : tok ∈ toks)
    (prev cur : Bytes) (hL : cur.length ≤ L) (gs : List GLine) (idx : Nat)
    (hgs : LinesD n ctx m env toks (tok.name :: path) L gs)
    (hone : OneRef tok.name gs) (hfree : linesFree gs ⊆ tok.name :: path)
    (acc : List TLine) (s : Stk) (htry : Trying toks path tok.name cur idx s)
    (hpres : ∀ o ∈ linesFree gs, o ≠ tok.name → (s.get o).isSome = true) :
    BlockD tok.name (blockLoop (token n) tok ctx prev cur idx gs acc s) s
      (Spares path (outer tok.name (linesFree gs))) acc cur
      (firstOf (recLines m env gs) idx prev cur) := by
  induction gs generalizing idx acc s with
  | nil =>
    simp only [recLines, firstOf, BlockD, blockLoop, pure_apply]
    exact ⟨s, [], spares_nil _ _, rfl, rfl⟩
  | cons g gs ih =>
    rcases g with ⟨cs⟩
    obtain ⟨hsame, hrun⟩ := hgs (.mk cs) (by simp)
    simp only [GLine.containers] at hsame hrun
    obtain ⟨e, hrec, htry'⟩ := htry.record ht
    have hget : ∀ o ∈ lineFree (.mk cs),
        (Stk.get ((tok.name, e) :: s.without [tok.name]) o).isSome = true := by
      intro o ho
      by_cases hn : o = tok.name
      · subst hn
        simp [Stk.get]
      · have hb : (o == tok.name) = false := by simpa using hn
        have h1 := hpres o (by rw [linesFree]; simp [ho]) hn
        have h2 := get_without s (D := [tok.name]) (k := o) (by simpa using hn)
        unfold Stk.get at h1 h2 ⊢
        simp only [List.lookup, hb, h2, h1]
    have hl := hrun idx prev cur _ htry'.aged hL hget
    have hstep : blockLoop (token n) tok ctx prev cur idx (.mk cs :: gs) acc s = (do
          let r ← attempt (line (token n) idx (.mk cs) ctx prev cur)
          lineNext acc (blockLoop (token n) tok ctx prev cur (idx + 1) gs) r : M _)
          ((tok.name, e) :: s.without [tok.name]) := by
      conv_lhs => unfold blockLoop
      rw [bind_apply, htry.tried]
      simp only [Bool.false_eq_true, if_false]
      rw [bind_apply, hrec]
      simp only [hrev, Bool.false_eq_true, if_false]
    rw [hstep, recLines, firstOf]
    generalize hs1 : ((tok.name, e) :: s.without [tok.name] : Stk) = s1 at *
    have hnext : ∀ (r : Out (TLine × Bytes)) (r' : Option (TLine × Bytes)) (s2 : Stk),
        line (token n) idx (.mk cs) ctx prev cur s1 = (r, s2) →
        (r = .err ∧ r' = none ∨ ∃ x, r = .ok x ∧ r' = some x) →
        (do
          let r ← attempt (line (token n) idx (.mk cs) ctx prev cur)
          lineNext acc (blockLoop (token n) tok ctx prev cur (idx + 1) gs) r : M _) s1
        = lineNext acc (blockLoop (token n) tok ctx prev cur (idx + 1) gs) r' s2 := by
      intro r r' s2 h1 h2
      rw [bind_apply]
      unfold M.attempt
      rw [h1]
      rcases h2 with ⟨rfl, rfl⟩ | ⟨x, rfl, rfl⟩ <;> rfl
    have ih' : ∀ acc D1, Spares (tok.name :: path) (lineFree (.mk cs)) D1 →
        BlockD tok.name (blockLoop (token n) tok ctx prev cur (idx + 1) gs acc (Stk.without s1 D1))
          (Stk.without s1 D1) (Spares path (outer tok.name (linesFree gs))) acc cur
          (firstOf (recLines m env gs) (idx + 1) prev cur) := by
      intro acc D1 hD1
      refine ih (idx + 1) (fun g h => hgs g (by simp [h])) hone.tail
        (fun o ho => hfree (by rw [linesFree]; simp [ho])) acc _ (htry'.without D1) ?_
      intro o ho hn
      have h0 := hone.head ho hn
      have hin : o ∈ tok.name :: path := hfree (by rw [linesFree]; simp [ho])
      rw [get_without _ (fun hm => (hD1 o hm).1 h0 hin), ← hs1]
      have hb : (o == tok.name) = false := by simpa using hn
      have h1 := hpres o (by rw [linesFree]; simp [ho]) hn
      have h2 := get_without s (D := [tok.name]) (k := o) (by simpa using hn)
      unfold Stk.get at h1 h2 ⊢
      simp only [List.lookup, hb, h2, h1]
    cases hx : recLine m env (.mk cs) prev cur with
    | crash =>
      rw [hx] at hl
      exact bind_panic (attempt_panic hl)
    | refused =>
      rw [hx] at hl
      obtain ⟨D1, hD1, hl⟩ := hl
      rw [hnext _ _ _ hl (.inl ⟨rfl, rfl⟩)]
      have := ih' acc D1 hD1
      simp only [lineNext]
      cases hp : firstOf (recLines m env gs) (idx + 1) prev cur with
      | crash => rw [hp] at this; exact this
      | refused =>
        rw [hp] at this
        obtain ⟨s', D2, hD2, e1, e2⟩ := this
        rw [← hs1] at e2
        exact ⟨s', _, spares_alternatives hone hD1 hD2, e1, block_stack e2⟩
      | blank =>
        rw [hp] at this
        obtain ⟨ls, s', D2, hD2, e1, e2, e3⟩ := this
        rw [← hs1] at e2
        exact ⟨ls, s', _, spares_alternatives hone hD1 hD2, e1, block_stack e2, e3⟩
      | found x =>
        rw [hp] at this
        obtain ⟨ls, l, s', D2, hD2, e1, e2, e3⟩ := this
        rw [← hs1] at e2
        exact ⟨ls, l, s', _, spares_alternatives hone hD1 hD2, e1, block_stack e2, e3⟩
    | blank =>
      rw [hx] at hl
      obtain ⟨rem, D1, hD1, hl⟩ := hl
      rw [hnext _ _ _ hl (.inr ⟨_, rfl, rfl⟩)]
      have hsucc : (TLine.mk idx (.mk cs) false []).isSuccessful = false := by
        simp [TLine.isSuccessful]
      simp only [lineNext, hsucc, Bool.false_eq_true, if_false]
      have := ih' (acc ++ [.mk idx (.mk cs) false []]) D1 hD1
      cases hp : firstOf (recLines m env gs) (idx + 1) prev cur with
      | crash => rw [hp] at this; exact this
      | refused =>
        rw [hp] at this
        obtain ⟨s', D2, hD2, e1, e2⟩ := this
        rw [← hs1] at e2
        exact ⟨[.mk idx (.mk cs) false []], s', _, spares_alternatives hone hD1 hD2, e1,
          block_stack e2, by simp, by simp [hsucc]⟩
      | blank =>
        rw [hp] at this
        obtain ⟨ls, s', D2, hD2, e1, e2, _, e3⟩ := this
        rw [← hs1] at e2
        refine ⟨.mk idx (.mk cs) false [] :: ls, s', _, spares_alternatives hone hD1 hD2,
          by rw [e1]; simp, block_stack e2, by simp, ?_⟩
        intro l hl
        rcases List.mem_cons.mp hl with rfl | hl
        · exact hsucc
        · exact e3 l hl
      | found x =>
        rw [hp] at this
        obtain ⟨ls, l, s', D2, hD2, e1, e2, e3, e4, e5⟩ := this
        rw [← hs1] at e2
        refine ⟨.mk idx (.mk cs) false [] :: ls, l, s', _, spares_alternatives hone hD1 hD2,
          by rw [e1]; simp, block_stack e2, e3, ?_, e5⟩
        intro l hl
        rcases List.mem_cons.mp hl with rfl | hl
        · exact hsucc
        · exact e4 l hl
    | found y =>
      rw [hx] at hl
      obtain ⟨es, D1, hD1, hl, h2, hne, hel⟩ := hl
      rw [hnext _ _ _ hl (.inr ⟨_, rfl, rfl⟩)]
      have hsucc := hel.successful hsame idx
      have hemp : es.isEmpty = false := by cases es <;> simp_all
      rw [hemp] at hsucc
      simp only [lineNext, hsucc, Bool.not_false, if_true, BlockD]
      refine ⟨[], .mk idx (.mk cs) false es, Stk.without s1 D1, D1 ++ [],
        spares_alternatives hone hD1 (spares_nil _ _), by simp, ?_, by simp [hsucc], by simp,
        by simp [TLine.shape, h2]⟩
      refine block_stack (e := e) ?_
      rw [hs1]

/-! ### Tokens -/

theorem recRun_token {n : Nat} {ctx : Ctx} {m : Mode} {env : Env} {toks : List Token}
    {path : List String} {L : Nat} {tok : Token} (hrev : ctx.reverse = false)
    (hmrev : m.reverse = false) (ht : tok ∈ toks) (hk : tok.name ∉ path)
    (hsk : SkipR (token n) ctx.channels m.skip)
    (hlines : LinesD n ctx m env toks (tok.name :: path) L tok.lines)
    (hone : OneRef tok.name tok.lines) (hfree : linesFree tok.lines ⊆ tok.name :: path)
    (prev cur : Bytes) (s : Stk) (hL : cur.length ≤ L) (hag : Aged toks path cur.length s)
    (hpres : ∀ o ∈ tokenFree tok, (s.get o).isSome = true) :
    FoundD (token (n + 1) tok ctx prev cur s) s (Spares path (tokenFree tok))
      (tokenOf m tok.name (recLines m env tok.lines) prev cur) := by
  have hfind : ∀ (a : List TLine), (∀ l ∈ a, l.isSuccessful = false) →
      a.find? TLine.isSuccessful = none := by
    intro a ha
    rw [List.find?_eq_none]
    intro l hl
    simp [ha l hl]
  have htf : tokenFree tok = outer tok.name (linesFree tok.lines) := by
    rcases tok with ⟨name, ls, ss⟩
    rw [tokenFree]
    rfl
  have hQ : ∀ D, Spares path (outer tok.name (linesFree tok.lines)) D →
      Spares path (tokenFree tok) (tok.name :: D) := by
    intro D hD k hkm
    rw [htf]
    rcases List.mem_cons.mp hkm with rfl | hkm
    · exact ⟨fun _ => hk, fun o _ hm => hk (after_subset o path hm)⟩
    · exact hD k hkm
  obtain ⟨s1, henter, htry, hs1⟩ := hag.enter ht hk
  have hpres1 : ∀ o ∈ linesFree tok.lines, o ≠ tok.name → (s1.get o).isSome = true := by
    intro o ho hn
    have h1 := hpres o (by rw [htf]; exact mem_outer.mpr ⟨ho, hn⟩)
    rw [← get_without s (D := [tok.name]) (by simpa using hn), ← hs1,
      get_without s1 (by simpa using hn)] at h1
    exact h1
  have hblk := recRun_blockLoop hrev ht prev cur hL tok.lines 0 hlines hone hfree [] s1 htry hpres1
  unfold token tokenBody
  rw [bind_apply, henter]
  simp only [tokenOf, hmrev, Bool.false_eq_true, if_false]
  have hblock : ∀ (o : Out (List TLine × Bytes)) (s' : Stk) (D : List String)
      (cont : List TLine × Bytes → M Tree),
      blockLoop (token n) tok ctx prev cur 0 tok.lines [] s1 = (o, s') →
      s'.without [tok.name] = s1.without (tok.name :: D) →
      (thenDelete tok.name (blockLoop (token n) tok ctx prev cur 0 tok.lines []) >>= cont) s1 =
      match o with
      | .ok x => cont x (s.without (tok.name :: D))
      | .err => (.err, s.without (tok.name :: D))
      | .panic => (.panic, s.without (tok.name :: D))
      | .oof => (.oof, s.without (tok.name :: D)) := by
    intro o s' D cont h h'
    rw [bind_apply]
    unfold M.thenDelete
    rw [h]
    have : s'.del tok.name = s.without (tok.name :: D) := by
      rw [del_eq_without, h']
      have e1 : s1.without (tok.name :: D) = (s1.without [tok.name]).without D := by
        rw [without_without]; rfl
      rw [e1, hs1, without_without]
      rfl
    cases o <;> simp only [this]
  cases hp : firstOf (recLines m env tok.lines) 0 prev cur with
  | crash =>
    rw [hp] at hblk
    exact bind_panic hblk
  | refused =>
    rw [hp] at hblk
    obtain ⟨s', D, hD, h1, h2⟩ := hblk
    rw [hblock _ _ _ _ h1 h2]
    simp only [List.isEmpty_nil, if_true, Ans.map, FoundD]
    exact ⟨_, hQ D hD, rfl⟩
  | blank =>
    rw [hp] at hblk
    obtain ⟨l, s', D, hD, h1, h2, hne, h3⟩ := hblk
    rw [hblock _ _ _ _ h1 h2]
    have : l.isEmpty = false := by cases l <;> simp_all
    simp only [List.nil_append, this, Bool.false_eq_true, if_false, Ans.map, FoundD]
    rw [bind_apply]
    obtain ⟨ts, hts⟩ := hsk prev cur (s.without (tok.name :: D))
    rw [hts]
    refine ⟨_, _, hQ D hD, rfl, ?_⟩
    simp only [Tree.isSuccessful, Tree.block, mkBlock, Block.successful, hfind _ h3,
      Option.isSome_none]
  | found x =>
    rw [hp] at hblk
    obtain ⟨l, ln, s', D, hD, h1, h2, h3, h4, h5⟩ := hblk
    rw [hblock _ _ _ _ h1 h2]
    have hne : (l ++ [ln]).isEmpty = false := by cases l <;> rfl
    simp only [List.nil_append, hne, Bool.false_eq_true, if_false, Ans.map, FoundD]
    rw [bind_apply]
    obtain ⟨ts, hts⟩ := hsk prev x.2 (s.without (tok.name :: D))
    rw [hts]
    have hf : (l ++ [ln]).find? TLine.isSuccessful = some ln := by
      rw [List.find?_append, hfind _ h4]
      simp [h3]
    refine ⟨_, _, hQ D hD, rfl, ?_, ?_, rfl⟩
    · simp [Tree.isSuccessful, Tree.block, mkBlock, Block.successful, hf]
    · simp only [Tree.shape, mkBlock, hf, Block.shape]
      exact h5

end Rodkina.Ast
