import Verif.AstRecSpec
import Verif.AstRef3

/-!
# The parser agrees with the reference interpreter of AstRecSpec.lean: elements and lines

The map of tokens that are being read is changed by references: a token that was left is removed from
it, so the names removed (`D` below) are followed through the parser.
-/

namespace Rodkina.Ast

open M

/-! ### The map without some names -/

/-- The map without some names (several `delete`, libs/asts/applications/application.go:523). -/
def Stk.without (s : Stk) (D : List String) : Stk := s.filter (fun e => decide (e.1 ∉ D))

theorem without_nil (s : Stk) : s.without [] = s := by
  unfold Stk.without
  rw [List.filter_eq_self]
  simp

theorem without_without (s : Stk) (A B : List String) :
    (s.without A).without B = s.without (A ++ B) := by
  unfold Stk.without
  rw [List.filter_filter]
  congr 1
  funext e
  by_cases h1 : e.1 ∈ A <;> by_cases h2 : e.1 ∈ B <;> simp [h1, h2]

theorem without_congr (s : Stk) {A B : List String} (h : ∀ k, k ∈ A ↔ k ∈ B) :
    s.without A = s.without B := by
  unfold Stk.without
  congr 1
  funext e
  simp [h e.1]

theorem del_eq_without (s : Stk) (k : String) : s.del k = s.without [k] := by
  unfold Stk.del Stk.without
  congr 1
  funext e
  by_cases h : e.1 = k <;> simp [h]

theorem mem_without {s : Stk} {D : List String} {k : String} {e : Entry} :
    (k, e) ∈ s.without D ↔ (k, e) ∈ s ∧ k ∉ D := by
  unfold Stk.without
  simp [List.mem_filter]

theorem without_cons (k : String) (e : Entry) (s : Stk) (D : List String) :
    Stk.without ((k, e) :: s) D = if k ∈ D then s.without D else (k, e) :: s.without D := by
  unfold Stk.without
  rw [List.filter_cons]
  by_cases h : k ∈ D <;> simp [h]

theorem get_without (s : Stk) {D : List String} {k : String} (h : k ∉ D) :
    (s.without D).get k = s.get k := by
  induction s with
  | nil => rfl
  | cons a s ih =>
    obtain ⟨k', e⟩ := a
    rw [without_cons]
    unfold Stk.get at ih ⊢
    by_cases hk : k = k'
    · subst hk
      rw [if_neg h]
      simp
    · have hb : (k == k') = false := by simpa using hk
      split
      · rw [ih]
        simp [List.lookup, hb]
      · simp only [List.lookup, hb]
        exact ih

/-- What comes after a name in a list of names: the names around the token of that name. -/
def after (o : String) : List String → List String
  | [] => []
  | k :: ks => if k = o then ks else after o ks

theorem after_subset (o : String) (path : List String) : after o path ⊆ path := by
  induction path with
  | nil => simp [after]
  | cons k ks ih =>
    unfold after
    split
    · exact List.subset_cons_self _ _
    · exact ih.trans (List.subset_cons_self _ _)

theorem after_self (k : String) (path : List String) : after k (k :: path) = path := by
  simp [after]

theorem after_other {o k : String} (h : o ≠ k) (path : List String) :
    after o (k :: path) = after o path := by
  have : k ≠ o := fun e => h e.symm
  simp [after, this]

/-- The names that something with the references `fr` to enclosing tokens removes: without such
references no name of an enclosing token, otherwise no name around the token referred to. -/
def Spares (path fr D : List String) : Prop :=
  ∀ k ∈ D, (fr = [] → k ∉ path) ∧ ∀ o ∈ fr, k ∉ after o path

theorem spares_nil (path fr : List String) : Spares path fr [] := by
  intro k hk
  simp at hk

theorem Spares.both {path fr A B : List String} (h1 : Spares path fr A) (h2 : Spares path fr B) :
    Spares path fr (A ++ B) := by
  intro k hk
  rcases List.mem_append.mp hk with h | h
  · exact h1 k h
  · exact h2 k h

theorem Spares.append {path fr1 fr2 A B : List String} (h1 : Spares path fr1 A)
    (h2 : Spares path fr2 B) (h : fr1 ≠ [] → fr2 = []) : Spares path (fr1 ++ fr2) (A ++ B) := by
  intro k hk
  refine ⟨fun he => ?_, fun o ho => ?_⟩
  · rw [List.append_eq_nil_iff] at he
    rcases List.mem_append.mp hk with hk | hk
    · exact (h1 k hk).1 he.1
    · exact (h2 k hk).1 he.2
  · rcases List.mem_append.mp ho with ho | ho
    · have h2' := h (List.ne_nil_of_mem ho)
      rcases List.mem_append.mp hk with hk | hk
      · exact (h1 k hk).2 o ho
      · exact fun hm => (h2 k hk).1 h2' (after_subset o path hm)
    · have h1' : fr1 = [] := by
        by_contra hc
        rw [h hc] at ho
        simp at ho
      rcases List.mem_append.mp hk with hk | hk
      · exact fun hm => (h1 k hk).1 h1' (after_subset o path hm)
      · exact (h2 k hk).2 o ho

/-- The entries of the map: tokens with references under their names, started on data longer than `L`,
for the enclosing tokens at least as long. -/
structure Aged (toks : List Token) (path : List String) (L : Nat) (s : Stk) : Prop where
  tok : ∀ k e, (k, e) ∈ s → e.token ∈ toks ∧ e.token.name = k
  old : ∀ k e, (k, e) ∈ s → ∀ p ∈ e.lines, L ≤ p.2.length ∧ (k ∉ path → L < p.2.length)

section
variable {toks : List Token} {path : List String} {L : Nat} {s : Stk}

theorem Aged.without (h : Aged toks path L s) (D : List String) : Aged toks path L (s.without D) :=
  ⟨fun k e hm => h.tok k e (mem_without.mp hm).1, fun k e hm => h.old k e (mem_without.mp hm).1⟩

theorem Aged.le (h : Aged toks path L s) {L' : Nat} (hL : L' ≤ L) : Aged toks path L' s :=
  ⟨h.tok, fun k e hm p hp => ⟨Nat.le_trans hL (h.old k e hm p hp).1,
    fun hk => Nat.lt_of_le_of_lt hL ((h.old k e hm p hp).2 hk)⟩⟩

theorem Aged.lt (h : Aged toks path L s) {L' : Nat} (hL : L' < L) : Aged toks [] L' s :=
  ⟨h.tok, fun k e hm p hp =>
    have := (h.old k e hm p hp).1
    ⟨by omega, fun _ => by omega⟩⟩

theorem Aged.weaken (h : Aged toks [] L s) (path : List String) : Aged toks path L s :=
  ⟨h.tok, fun k e hm p hp => ⟨(h.old k e hm p hp).1, fun _ => (h.old k e hm p hp).2 (by simp)⟩⟩

theorem Aged.keysIn (h : Aged toks path L s) : KeysIn (toks.map Token.name) s := by
  intro k e hm
  have := h.tok k e hm
  exact List.mem_map.mpr ⟨e.token, this⟩

theorem aged_nil (toks : List Token) (path : List String) (L : Nat) : Aged toks path L [] :=
  ⟨by simp, by simp⟩

end

/-! ### Outcomes -/

/-- The outcome of a token call is the one of the reference interpreter; some names `D` with `Q D` are
removed from the map. -/
def FoundD (o : Out Tree × Stk) (s : Stk) (Q : List String → Prop) (r : Ans (Shape × Bytes)) : Prop :=
  match r with
  | .found x => ∃ t D, Q D ∧ o = (.ok t, s.without D) ∧ t.isSuccessful = true ∧ t.shape = x.1 ∧
      t.remaining = x.2
  | .blank => ∃ t D, Q D ∧ o = (.ok t, s.without D) ∧ t.isSuccessful = false
  | .refused => ∃ D, Q D ∧ o = (.err, s.without D)
  | .crash => o.1 = .panic

theorem FoundD.mono {o : Out Tree × Stk} {s : Stk} {Q Q' : List String → Prop}
    {r : Ans (Shape × Bytes)} (h : FoundD o s Q r) (hQ : ∀ D, Q D → Q' D) : FoundD o s Q' r := by
  cases r with
  | found x => obtain ⟨t, D, h1, h2⟩ := h; exact ⟨t, D, hQ D h1, h2⟩
  | blank => obtain ⟨t, D, h1, h2⟩ := h; exact ⟨t, D, hQ D h1, h2⟩
  | refused => obtain ⟨D, h1, h2⟩ := h; exact ⟨D, hQ D h1, h2⟩
  | crash => exact h

/-- The answer is determined by the outcome. -/
theorem FoundD.unique {o : Out Tree × Stk} {s : Stk} {Q Q' : List String → Prop}
    {r r' : Ans (Shape × Bytes)} (h : FoundD o s Q r) (h' : FoundD o s Q' r') : r = r' := by
  cases r with
  | found x =>
    obtain ⟨t, D, _, h2, h3, h4, h5⟩ := h
    cases r' with
    | found x' =>
      obtain ⟨t', D', _, h2', h3', h4', h5'⟩ := h'
      rw [h2] at h2'
      injection h2' with e _
      injection e with e
      subst e
      congr 1
      exact Prod.ext (h4.symm.trans h4') (h5.symm.trans h5')
    | blank =>
      obtain ⟨t', D', _, h2', h3'⟩ := h'
      rw [h2] at h2'
      injection h2' with e _
      injection e with e
      subst e
      rw [h3] at h3'
      simp at h3'
    | refused => obtain ⟨D', _, h2'⟩ := h'; rw [h2] at h2'; simp at h2'
    | crash => rw [h2] at h'; simp [FoundD] at h'
  | blank =>
    obtain ⟨t, D, _, h2, h3⟩ := h
    cases r' with
    | found x' =>
      obtain ⟨t', D', _, h2', h3', _⟩ := h'
      rw [h2] at h2'
      injection h2' with e _
      injection e with e
      subst e
      rw [h3] at h3'
      simp at h3'
    | blank => rfl
    | refused => obtain ⟨D', _, h2'⟩ := h'; rw [h2] at h2'; simp at h2'
    | crash => rw [h2] at h'; simp [FoundD] at h'
  | refused =>
    obtain ⟨D, _, h2⟩ := h
    cases r' with
    | found x' => obtain ⟨t', D', _, h2', _⟩ := h'; rw [h2] at h2'; simp at h2'
    | blank => obtain ⟨t', D', _, h2', _⟩ := h'; rw [h2] at h2'; simp at h2'
    | refused => rfl
    | crash => rw [h2] at h'; simp [FoundD] at h'
  | crash =>
    simp only [FoundD] at h
    cases r' with
    | found x' => obtain ⟨t', D', _, h2', _⟩ := h'; rw [h2'] at h; simp at h
    | blank => obtain ⟨t', D', _, h2', _⟩ := h'; rw [h2'] at h; simp at h
    | refused => obtain ⟨D', _, h2'⟩ := h'; rw [h2'] at h; simp at h
    | crash => rfl

/-- `element` in terms of a matcher, for maps and data with `R`. -/
def ElemD (rec : Rec) (c : Content) (ctx : Ctx) (f : Matcher Shape) (R : Stk → Bytes → Prop)
    (Q : List String → Prop) : Prop :=
  ∀ prev cur s, cur ≠ [] → R s cur → match f prev cur with
    | .found x => ∃ tc D, Q D ∧ element rec c ctx prev cur s = (.ok (tc, x.2), s.without D) ∧
        tc.shape = x.1
    | .crash => (element rec c ctx prev cur s).1 = .panic
    | _ => ∃ D, Q D ∧ element rec c ctx prev cur s = (.err, s.without D)

/-- What does not change the map. -/
theorem ElemD.of_ref {rec : Rec} {c : Content} {ctx : Ctx} {f : Matcher Shape}
    {R : Stk → Bytes → Prop} {Q : List String → Prop} (hQ : Q [])
    (h : ∀ s cur, R s cur → ElemR rec c ctx f s) : ElemD rec c ctx f R Q := by
  intro prev cur s hne hR
  have := h s cur hR prev cur hne
  cases hf : f prev cur with
  | found x =>
    rw [hf] at this
    obtain ⟨tc, h1, h2⟩ := this
    exact ⟨tc, [], hQ, by rw [without_nil]; exact h1, h2⟩
  | blank => rw [hf] at this; exact ⟨[], hQ, by rw [without_nil]; exact this⟩
  | refused => rw [hf] at this; exact ⟨[], hQ, by rw [without_nil]; exact this⟩
  | crash => rw [hf] at this; exact this

section
variable {n : Nat} {ctx : Ctx} {sk : Bytes → Bytes → Bytes} {R : Stk → Bytes → Prop}
  {Q : List String → Prop} {c : Content} {f : Matcher Shape}

/-- A content that is a tree. -/
theorem recRun_tree {run : Bytes → Bytes → M Tree}
    (hc : ∀ prev cur s, R s cur → elementContent (token n) c ctx prev cur s
      = (do let t ← run prev cur; pure (treeContent t) : M (Option (TContent × Bytes))) s)
    (h : ∀ prev cur s, R s cur → FoundD (run prev cur s) s Q (f prev cur)) :
    ElemD (token n) c ctx (fun p d => (f p d).strict) R Q := by
  intro prev cur s hne hR
  have hne' : cur.isEmpty = false := by cases cur <;> simp_all
  have := h prev cur s hR
  unfold FoundD at this
  unfold element
  simp only [hne', Bool.false_eq_true, if_false, Ans.strict]
  cases hf : f prev cur with
  | refused =>
    rw [hf] at this
    obtain ⟨D, hQ, h⟩ := this
    refine ⟨D, hQ, ?_⟩
    rw [bind_apply, hc _ _ _ hR, bind_apply, h]
  | crash =>
    rw [hf] at this
    simp only at this ⊢
    refine bind_panic ?_
    rw [hc _ _ _ hR]
    exact bind_panic this
  | blank =>
    rw [hf] at this
    obtain ⟨t, D, hQ, h, hs⟩ := this
    refine ⟨D, hQ, ?_⟩
    rw [bind_apply, hc _ _ _ hR, bind_apply, h]
    simp only [pure_apply, treeContent, acceptContent, TContent.isSuccessful, hs,
      Bool.false_eq_true, if_false]
    rfl
  | found x =>
    rw [hf] at this
    obtain ⟨t, D, hQ, h, hs, hsh, hr⟩ := this
    simp only
    rw [bind_apply, hc _ _ _ hR, bind_apply, h]
    refine ⟨.tree t, D, hQ, ?_, ?_⟩
    · simp only [pure_apply, treeContent, acceptContent, TContent.isSuccessful, hs, if_true, hr]
    · simpa [TContent.shape] using hsh

/-- The element loop and `manyOf`. -/
theorem recRun_elementLoop (he : ElemD (token n) c ctx f R Q) (hQ0 : Q [])
    (hQa : ∀ A B, Q A → Q B → Q (A ++ B)) (max : Option Nat)
    (hstep : max ≠ some 1 → ∀ s cur D cur', R s cur → Q D → cur'.length < cur.length →
      R (s.without D) cur')
    (k j : Nat) (st : ElState) (s : Stk)
    (hk : st.rem.length < k) (hj : st.rem.length ≤ j)
    (hm : ∀ m, max = some m → st.list.length ≤ m)
    (hR : reachedMax max st.list.length = false → st.rem ≠ [] → R s st.rem) :
    match manyOf f max j st.list.length st.prev st.rem with
    | .found x => ∃ xs D, elementLoop (token n) c max ctx k st s
        = (.ok ⟨st.list ++ xs, x.2.1, x.2.2⟩, s.without D) ∧ Q D ∧ contentsShape xs = x.1 ∧
          x.2.2.length ≤ st.rem.length ∧ (xs ≠ [] → x.2.2.length < st.rem.length)
    | _ => (elementLoop (token n) c max ctx k st s).1 = .panic := by
  induction k generalizing j st s with
  | zero => omega
  | succ k ih =>
    unfold elementLoop
    by_cases hemp : st.rem = []
    · have hmany : manyOf f max j st.list.length st.prev st.rem = .found ([], st.prev, st.rem) := by
        cases j <;> simp [manyOf, hemp]
      rw [hmany]
      refine ⟨[], [], ?_, hQ0, rfl, Nat.le_refl _, by simp⟩
      rw [if_pos (by rw [hemp]; rfl), List.append_nil, without_nil]
      rfl
    · have hemp' : st.rem.isEmpty = false := by cases h : st.rem <;> simp_all
      simp only [hemp', Bool.false_eq_true, if_false]
      obtain ⟨j', rfl⟩ : ∃ j', j = j' + 1 := by
        cases j with
        | zero =>
          exfalso
          cases h : st.rem with
          | nil => exact hemp h
          | cons a b => rw [h] at hj; simp at hj
        | succ j' => exact ⟨j', rfl⟩
      unfold manyOf
      by_cases hmax : reachedMax max st.list.length = true
      · have : max = some st.list.length := by
          cases max with
          | none => simp [reachedMax] at hmax
          | some m =>
            simp [reachedMax] at hmax
            have := hm m rfl
            congr 1
            omega
        rw [if_pos (.inr this), if_pos hmax]
        exact ⟨[], [], by rw [without_nil]; simp, hQ0, rfl, Nat.le_refl _, by simp⟩
      · have hnm : max ≠ some st.list.length := by
          intro h
          subst h
          simp [reachedMax] at hmax
        rw [if_neg hmax, if_neg (by simp [hemp, hnm])]
        have hR' := hR (by simpa using hmax) hemp
        have hrun := he st.prev st.rem s hemp hR'
        have ha : containerAllowed Flags.any (.element 0 none c) :=
          lineAllowed_any (.mk [.element 0 none c]) _ (by simp [GLine.containers])
        have hlt := (ens_element (token_good Flags.any n) (any_ctx ctx)
          (Content.All_of lineAllowed_any c) ha st.prev st.rem s (any_stk s)).2.1
        cases hf : f st.prev st.rem with
        | crash =>
          rw [hf] at hrun
          exact bind_panic (attempt_panic hrun)
        | blank =>
          rw [hf] at hrun
          obtain ⟨D, hD, hrun⟩ := hrun
          simp only
          rw [bind_apply]
          unfold M.attempt
          rw [hrun]
          exact ⟨[], D, by simp [elementNext], hD, rfl, Nat.le_refl _, by simp⟩
        | refused =>
          rw [hf] at hrun
          obtain ⟨D, hD, hrun⟩ := hrun
          simp only
          rw [bind_apply]
          unfold M.attempt
          rw [hrun]
          exact ⟨[], D, by simp [elementNext], hD, rfl, Nat.le_refl _, by simp⟩
        | found x =>
          rw [hf] at hrun
          obtain ⟨tc, D, hD, htc, hsh⟩ := hrun
          rw [htc] at hlt
          have hlt' := (hlt (tc, x.2) rfl).2.2
          simp only at hlt'
          have ih' := ih j' ⟨st.list ++ [tc], st.rem, x.2⟩ (s.without D)
            (by simp only; omega) (by simp only; omega) (by
              intro m hmm
              have := hm m hmm
              have : st.list.length ≠ m := fun e => hnm (by rw [e, hmm])
              simp only [List.length_append, List.length_singleton]
              omega) (by
              intro hr _
              refine hstep ?_ s st.rem D x.2 hR' hD hlt'
              rintro rfl
              simp [reachedMax] at hr)
          simp only [List.length_append, List.length_singleton] at ih'
          have hstep : (do
              let r ← attempt (element (token n) c ctx st.prev st.rem)
              elementNext st (elementLoop (token n) c max ctx k) r : M ElState) s
              = elementLoop (token n) c max ctx k ⟨st.list ++ [tc], st.rem, x.2⟩ (s.without D) := by
            rw [bind_apply]
            unfold M.attempt
            rw [htc]
            rfl
          rw [hstep]
          rcases manyOf_cases f max j' (st.list.length + 1) st.rem x.2 with ⟨y, hy⟩ | hy
          · rw [hy] at ih'
            simp only [hy, Ans.map]
            obtain ⟨xs, D', h1, h2, h3, h4, _⟩ := ih'
            refine ⟨tc :: xs, D ++ D', ?_, hQa _ _ hD h2, by simp [contentsShape, hsh, h3],
              by omega, fun _ => by omega⟩
            rw [h1, without_without]
            simp
          · rw [hy] at ih'
            simp only [hy, Ans.map]
            exact ih'

end

/-! ### Lines -/

/-- When a content can be read as the reference interpreter does: see `Aged`; for a reference, less than
`L` bytes are left, and all entries are older; the tokens referred to are in the map. -/
def Ready (toks : List Token) (path : List String) (L : Nat) (c : Content) (s : Stk) (cur : Bytes) :
    Prop :=
  Aged toks path cur.length s ∧ cur.length ≤ L ∧
    ((Container.element 0 none c).isRecursive = true →
      Aged toks [] cur.length s ∧ cur.length < L) ∧
    ∀ o ∈ contentFree c, (s.get o).isSome = true

/-- `lineLoop` in terms of the reference interpreter. -/
def LineD (o : Out LnState × Stk) (s : Stk) (Q : List String → Prop) (cs : List Container)
    (st : LnState) (r : Ans (List ShapeElem × Bytes)) : Prop :=
  match r with
  | .found y => ∃ st' es D, Q D ∧ o = (.ok st', s.without D) ∧ st'.list = st.list ++ es ∧
      elementsShape es = y.1 ∧ st'.rem = y.2 ∧ ElemsFor cs es
  | .crash => o.1 = .panic
  | .refused => ∃ D, Q D ∧ o = (.err, s.without D)
  | .blank => False

section
variable {n : Nat} {ctx : Ctx} {sk : Bytes → Bytes → Bytes} {toks : List Token}
  {path : List String} {L : Nat}

theorem ready_closed {c : Content} (hfr : contentFree c = []) {s : Stk} {cur cur' : Bytes}
    {D : List String} (h : Ready toks path L c s cur) (hlt : cur'.length < cur.length) :
    Ready toks path L c (s.without D) cur' := by
  obtain ⟨h1, h2, h3, h4⟩ := h
  refine ⟨(h1.le (by omega)).without D, by omega, ?_, by simp [hfr]⟩
  intro hr
  cases c <;> simp [Container.isRecursive] at hr
  simp [contentFree] at hfr

theorem recRun_lineLoop {m : Mode} {env : Env} 
    (hsk : SkipR (token n) ctx.channels sk) (prev0 : Bytes) (cs : List Container)
    (hmin : ∀ min max c, Container.element min max c ∈ cs → min < 2 ^ 63 ∧
      (contentFree c ≠ [] → max = some 1))
    (hone : oneOpen cs) (hfree : contsFree cs ⊆ path)
    (hc : ∀ min max c, Container.element min max c ∈ cs →
      ElemD (token n) c ctx (recContent m env c) (Ready toks path L c)
        (Spares path (contentFree c)))
    (seen : Bool) (hguard : guardedFrom seen cs) (st : LnState) (s : Stk)
    (hag : Aged toks path st.rem.length s) (hL : st.rem.length ≤ L)
    (hseen : seen = true → Aged toks [] st.rem.length s ∧ st.rem.length < L)
    (hpres : ∀ o ∈ contsFree cs, (s.get o).isSome = true) :
    LineD (lineLoop (token n) ctx prev0 cs st s) s (Spares path (contsFree cs)) cs st
      (recSeq m env cs st.prev st.rem) := by
  induction cs generalizing seen st s with
  | nil =>
    rw [recSeq]
    exact ⟨st, [], [], spares_nil _ _, by rw [without_nil]; rfl, by simp, rfl, rfl,
      ⟨by simp, by simp⟩⟩
  | cons c cs ih =>
    unfold lineLoop
    rw [recSeq]
    cases c with
    | compose cmp =>
      rw [bind_apply]
      simp only [recContainer, Ans.bind, LineD, lineStep]
      rw [bind_apply]
      refine ⟨[], spares_nil _ _, ?_⟩
      rw [without_nil]
      rcases refErr_composeLoop hsk prev0 s cmp.list st.rem with h | h
      · rw [h]; rfl
      · rw [h]
    | element min max content =>
      obtain ⟨hmn, hmx⟩ := hmin min max content (by simp)
      have hg : goMin min = min := by simp [goMin, hmn]
      unfold oneOpen at hone
      unfold guardedFrom at hguard
      rw [contsFree] at hfree hpres ⊢
      rw [contFree] at hfree hpres hone ⊢
      have hloop := recRun_elementLoop (hc min max content (by simp)) (spares_nil _ _)
        (fun A B hA hB => hA.both hB) max (by
          intro hne s cur D cur' hR _ hlt
          refine ready_closed ?_ hR hlt
          by_contra hcon
          exact hne (hmx hcon))
        (st.rem.length + 1) st.rem.length ⟨[], st.prev, st.rem⟩ s (by simp) (by simp)
        (by simp) (by
          intro _ _
          refine ⟨hag, hL, ?_, fun o ho => hpres o (by simp [ho])⟩
          intro hr
          refine hseen (hguard.1 ?_)
          cases content <;> simp [Container.isRecursive] at hr ⊢)
      simp only [List.length_nil, List.nil_append] at hloop
      simp only [recContainer, timesOf]
      rcases manyOf_cases (recContent m env content) max st.rem.length 0 st.prev st.rem with
        ⟨x, hx⟩ | hx
      · rw [hx] at hloop
        obtain ⟨xs, D1, h1, hD1, h3, hle, hlt⟩ := hloop
        rw [hx]
        simp only [Ans.bind]
        have hlen : xs.length = x.1.length := by
          rw [← h3, contentsShape_eq, List.length_map]
        rw [bind_apply]
        simp only [lineStep]
        rw [bind_apply, h1]
        simp only [hg, ← hlen]
        by_cases hxm : xs.length < min
        · simp only [hxm, if_true, LineD]
          refine ⟨D1 ++ [], hD1.append (spares_nil _ _) hone.1, ?_⟩
          simp only [List.append_nil]
          rfl
        · simp only [hxm, if_false, pure_apply]
          have hxs : ∀ k, max = some k → xs.length ≤ k := by
            intro k hk
            subst hk
            have := manyOf_le_max (recContent m env content) st.rem.length 0 st.prev st.rem
              (Nat.zero_le k) hx
            omega
          have hle' : x.2.2.length ≤ st.rem.length := hle
          have ih' := ih (fun a b c h => hmin a b c (by simp [h])) hone.2
            (fun o ho => hfree (by simp [ho]))
            (fun a b c h => hc a b c (by simp [h])) _ hguard.2
            ⟨if xs.isEmpty then st.list else
              st.list ++ [.mk (some (.element min max content)) xs], x.2.1, x.2.2⟩ (s.without D1)
            ((hag.le hle').without D1) (Nat.le_trans hle' hL)
            (by
              intro hs
              rw [Bool.or_eq_true] at hs
              rcases hs with hs | hs
              · obtain ⟨a1, a2⟩ := hseen hs
                exact ⟨(a1.le hle').without D1, by simp only; omega⟩
              · simp only [Container.mustOccur, decide_eq_true_eq] at hs
                have : xs ≠ [] := by
                  rintro rfl
                  simp at hxm
                  omega
                have hlt' : x.2.2.length < st.rem.length := hlt this
                exact ⟨(hag.lt hlt').without D1, by simp only; omega⟩)
            (by
              intro o ho
              rw [get_without]
              · exact hpres o (by simp [ho])
              · intro hm
                refine (hD1 o hm).1 ?_ (hfree (by simp [ho]))
                by_contra hcon
                rw [hone.1 hcon] at ho
                simp at ho)
          simp only at ih'
          cases hseq : recSeq m env cs x.2.1 x.2.2 with
          | refused =>
            rw [hseq] at ih'
            obtain ⟨D2, hD2, h⟩ := ih'
            exact ⟨D1 ++ D2, hD1.append hD2 hone.1, by rw [← without_without]; exact h⟩
          | blank =>
            rw [hseq] at ih'
            exact ih'.elim
          | crash =>
            rw [hseq] at ih'
            exact ih'
          | found y =>
            rw [hseq] at ih'
            obtain ⟨st'', es, D2, hD2, e1, e2, e3, e4, e5⟩ := ih'
            simp only [Ans.map, LineD]
            refine ⟨st'', (if xs.isEmpty then [] else
              [.mk (some (.element min max content)) xs]) ++ es, D1 ++ D2,
              hD1.append hD2 hone.1, by rw [← without_without]; exact e1, ?_, ?_, e4, ?_⟩
            · rw [e2]
              cases xs <;> simp
            · rw [elementsShape_append, e3, ← h3]
              cases xs with
              | nil => simp [elementsShape, consElem, contentsShape]
              | cons x xs => simp [elementsShape, consElem, contentsShape, TElement.shape,
                  Container.name]
            · refine ElemsFor.cons ⟨?_, ?_⟩ e5
              · intro e he
                cases hx : xs with
                | nil => simp [hx] at he
                | cons x rest =>
                  rw [hx] at he
                  simp only [List.isEmpty_cons, Bool.false_eq_true, if_false,
                    List.mem_singleton] at he
                  subst he
                  rw [hx] at hxs hxm
                  refine ⟨min, max, content, by simp, rfl, ?_, by simp [TElement.amount,
                    TElement.contents], ?_⟩
                  · simpa [TElement.amount, TElement.contents] using hxm
                  · cases hmx : max with
                    | none => rfl
                    | some m =>
                      exact decide_eq_true (hxs m hmx)
              · intro c' hc'
                simp only [List.mem_singleton] at hc'
                subst hc'
                refine ⟨⟨_, _, _, rfl⟩, ?_⟩
                intro hp
                simp only [Container.min] at hp
                cases xs with
                | nil => simp at hxm; omega
                | cons x rest =>
                  exact ⟨.mk (some (.element min max content)) (x :: rest), by simp, rfl⟩
      · rw [hx] at hloop
        rw [hx]
        simp only [Ans.bind, LineD]
        refine bind_panic ?_
        simp only [lineStep]
        exact bind_panic hloop

/-- `line` in terms of a matcher. -/
def LnD (o : Out (TLine × Bytes) × Stk) (s : Stk) (Q : List String → Prop) (idx : Nat)
    (cs : List Container) (r : Ans (List ShapeElem × Bytes)) : Prop :=
  match r with
  | .found y => ∃ es D, Q D ∧ o = (.ok (.mk idx (.mk cs) false es, y.2), s.without D) ∧
      elementsShape es = y.1 ∧ es ≠ [] ∧ ElemsFor cs es
  | .blank => ∃ rem D, Q D ∧ o = (.ok (.mk idx (.mk cs) false [], rem), s.without D)
  | .refused => ∃ D, Q D ∧ o = (.err, s.without D)
  | .crash => o.1 = .panic

theorem recRun_line {m : Mode} {env : Env}
    (hsk : SkipR (token n) ctx.channels sk) (cs : List Container)
    (hmin : ∀ min max c, Container.element min max c ∈ cs → min < 2 ^ 63 ∧
      (contentFree c ≠ [] → max = some 1))
    (hone : oneOpen cs) (hfree : contsFree cs ⊆ path)
    (hc : ∀ min max c, Container.element min max c ∈ cs →
      ElemD (token n) c ctx (recContent m env c) (Ready toks path L c)
        (Spares path (contentFree c)))
    (hguard : guardedFrom false cs) (idx : Nat) (prev cur : Bytes) (s : Stk)
    (hag : Aged toks path cur.length s) (hL : cur.length ≤ L)
    (hpres : ∀ o ∈ contsFree cs, (s.get o).isSome = true) :
    LnD (line (token n) idx (.mk cs) ctx prev cur s) s (Spares path (contsFree cs)) idx cs
      (recLine m env (.mk cs) prev cur) := by
  have h := recRun_lineLoop hsk prev cs hmin hone hfree hc false hguard ⟨[], prev, cur⟩ s hag hL
    (by simp) hpres
  simp only at h
  rw [recLine]
  beta_reduce
  cases hs : recSeq m env cs prev cur with
  | refused =>
    rw [hs] at h
    obtain ⟨D, hD, h⟩ := h
    unfold line
    simp only [Ans.bind, LnD]
    refine ⟨D, hD, ?_⟩
    rw [bind_apply]
    simp only [GLine.containers, h]
  | blank => rw [hs] at h; exact h.elim
  | crash =>
    rw [hs] at h
    exact bind_panic h
  | found y =>
    rw [hs] at h
    obtain ⟨st', es, D, hD, h1, h2, h3, h4, h5⟩ := h
    have hrun : line (token n) idx (.mk cs) ctx prev cur s
        = (.ok (.mk idx (.mk cs) false es, y.2), s.without D) := by
      unfold line
      rw [bind_apply]
      simp only [GLine.containers, h1, pure_apply, h2, h4, List.nil_append]
    simp only [Ans.bind]
    cases es with
    | nil =>
      have : y.1.isEmpty = true := by rw [← h3]; rfl
      rw [if_pos this]
      exact ⟨_, D, hD, hrun⟩
    | cons e es =>
      have : y.1.isEmpty = false := by rw [← h3]; rfl
      rw [if_neg (by simp [this])]
      exact ⟨e :: es, D, hD, hrun, h3, by simp, h5⟩

end

end Rodkina.Ast
