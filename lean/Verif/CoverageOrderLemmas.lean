import Verif.AstBare
import Verif.CoverageOrderSpec
import Verif.CoverageLemmas2
import Mathlib.Data.List.Forall2

/-!
# Lemmas: grammars that differ in their suites only
-/

namespace Rodkina.Ast

variable {P : List Suite → List Suite → Prop}

mutual
theorem Token.Like.bare : ∀ {t t' : Token}, t.Like P t' → t.bare = t'.bare
  | .mk n ls ss, .mk n' ls' ss', h => by
    rw [Token.Like] at h
    rw [Token.bare, Token.bare, h.1, linesLike_bare h.2.1]
theorem linesLike_bare : ∀ {ls ls' : List GLine}, linesLike P ls ls' → linesBare ls = linesBare ls'
  | [], [], _ => rfl
  | g :: gs, g' :: gs', h => by
    rw [linesLike] at h
    rw [linesBare, linesBare, GLine.Like.bare h.1, linesLike_bare h.2]
  | [], _ :: _, h => by simp [linesLike] at h
  | _ :: _, [], h => by simp [linesLike] at h
theorem GLine.Like.bare : ∀ {g g' : GLine}, g.Like P g' → g.bare = g'.bare
  | .mk cs, .mk cs', h => by
    rw [GLine.Like] at h
    rw [GLine.bare, GLine.bare, containersLike_bare h]
theorem containersLike_bare : ∀ {cs cs' : List Container}, containersLike P cs cs' → containersBare cs = containersBare cs'
  | [], [], _ => rfl
  | c :: cs, c' :: cs', h => by
    rw [containersLike] at h
    rw [containersBare, containersBare, Container.Like.bare h.1, containersLike_bare h.2]
  | [], _ :: _, h => by simp [containersLike] at h
  | _ :: _, [], h => by simp [containersLike] at h
theorem Container.Like.bare : ∀ {c c' : Container}, c.Like P c' → c.bare = c'.bare
  | .element min max c, .element min' max' c', h => by
    rw [Container.Like] at h
    rw [Container.bare, Container.bare, h.1, h.2.1, Content.Like.bare h.2.2]
  | .compose c, .compose c', h => by
    rw [Container.Like] at h
    rw [h]
  | .element _ _ _, .compose _, h => by simp [Container.Like] at h
  | .compose _, .element _ _ _, h => by simp [Container.Like] at h
theorem Content.Like.bare : ∀ {c c' : Content}, c.Like P c' → c.bare = c'.bare
  | .value n b, c', h => by
    cases c' <;> simp only [Content.Like] at h
    rw [h.1, h.2]
  | .external n g, c', h => by
    cases c' <;> simp only [Content.Like] at h
    rw [Content.bare, Content.bare, h.1, Grammar.Like.bare h.2]
  | .token t, c', h => by
    cases c' <;> simp only [Content.Like] at h
    rw [Content.bare, Content.bare, Token.Like.bare h]
  | .everything n ex esc, c', h => by
    cases c' <;> simp only [Content.Like] at h
    rw [Content.bare, Content.bare, h.1, Token.Like.bare h.2.1, optionLike_bare h.2.2]
  | .recursive n, c', h => by
    cases c' <;> simp only [Content.Like] at h
    rw [h]
theorem optionLike_bare : ∀ {o o' : Option Token}, optionLike P o o' → optionBare o = optionBare o'
  | none, none, _ => rfl
  | some t, some t', h => by
    rw [optionLike] at h
    rw [optionBare, optionBare, Token.Like.bare h]
  | none, some _, h => by simp [optionLike] at h
  | some _, none, h => by simp [optionLike] at h
theorem Grammar.Like.bare : ∀ {g g' : Grammar}, g.Like P g' → g.bare = g'.bare
  | .mk r chs, .mk r' chs', h => by
    rw [Grammar.Like] at h
    rw [Grammar.bare, Grammar.bare, Token.Like.bare h.1, channelsLike_bare h.2]
theorem channelsLike_bare : ∀ {cs cs' : List Channel}, channelsLike P cs cs' → channelsBare cs = channelsBare cs'
  | [], [], _ => rfl
  | c :: cs, c' :: cs', h => by
    rw [channelsLike] at h
    rw [channelsBare, channelsBare, Channel.Like.bare h.1, channelsLike_bare h.2]
  | [], _ :: _, h => by simp [channelsLike] at h
  | _ :: _, [], h => by simp [channelsLike] at h
theorem Channel.Like.bare : ∀ {c c' : Channel}, c.Like P c' → c.bare = c'.bare
  | .mk t p n, .mk t' p' n', h => by
    rw [Channel.Like] at h
    rw [Channel.bare, Channel.bare, Token.Like.bare h.1, optionLike_bare h.2.1, optionLike_bare h.2.2]
end

theorem Token.Like.name {t t' : Token} (h : t.Like P t') : t.name = t'.name := by
  rw [← t.bare_name, h.bare, t'.bare_name]

theorem Content.Like.name {c c' : Content} (h : c.Like P c') : c.name = c'.name := by
  rw [← c.bare_name, h.bare, c'.bare_name]

theorem Out.map_eq {α β : Type} {f : α → β} {a b : Out α} (h : a.map f = b.map f) :
    (∃ x y, a = .ok x ∧ b = .ok y ∧ f x = f y) ∨ (a = .err ∧ b = .err) ∨ (a = .panic ∧ b = .panic) ∨ (a = .oof ∧ b = .oof) := by
  cases a <;> cases b <;> simp_all [Out.map]

/-- The parser on grammars that differ in their suites. -/
theorem execute_like {g g' : Grammar} (h : g.Like P g') (n : Nat) (input : Bytes) :
    (execute n g input).map Tree.bare = (execute n g' input).map Tree.bare := by
  rw [← execute_bare, ← execute_bare, h.bare]

/-! ## Tests -/

theorem coverageTokenSuite_like {t t' : Token} {chs chs' : List Channel} (ht : t.Like P t') (hc : channelsLike P chs chs')
    (n : Nat) (s : Suite) :
    (coverageTokenSuite n t chs s).map Execution.view = (coverageTokenSuite n t' chs' s).map Execution.view := by
  have hg : (Grammar.mk t chs).Like P (.mk t' chs') := by rw [Grammar.Like]; exact ⟨ht, hc⟩
  rw [coverageTokenSuite_eq, coverageTokenSuite_eq]
  rcases Out.map_eq (execute_like hg n (composeCompose s.content)) with
    ⟨x, y, h1, h2, h3⟩ | ⟨h1, h2⟩ | ⟨h1, h2⟩ | ⟨h1, h2⟩ <;> rw [h1, h2]
  simp [Out.map, Execution.view, h3]

/-- The suites in order, each giving its record. -/
theorem coverageSuites_iff (n : Nat) (t : Token) (chs : List Channel) (ss : List Suite) (es : List Execution) :
    coverageSuites n t chs ss = .ok es ↔ List.Forall₂ (fun s e => coverageTokenSuite n t chs s = .ok e) ss es := by
  induction ss generalizing es with
  | nil => simp [coverageSuites, eq_comm]
  | cons s ss ih =>
    simp only [coverageSuites, out_bind, andThen_ok, Out.ok.injEq, List.forall₂_cons_left_iff]
    constructor
    · rintro ⟨e, h1, es', h2, rfl⟩
      exact ⟨e, es', h1, (ih es').mp h2, rfl⟩
    · rintro ⟨e, es', h1, h2, rfl⟩
      exact ⟨e, h1, es', (ih es').mpr h2, rfl⟩

theorem coverageSuites_like {t t' : Token} {chs chs' : List Channel} (ht : t.Like P t') (hc : channelsLike P chs chs')
    {n : Nat} {ss ss' : List Suite} (hp : ss.Perm ss') {es : List Execution} (h : coverageSuites n t chs ss = .ok es) :
    ∃ es', coverageSuites n t' chs' ss' = .ok es' ∧ (es.map Execution.view).Perm (es'.map Execution.view) := by
  induction hp generalizing es with
  | nil =>
    simp only [coverageSuites, Out.ok.injEq] at h
    exact ⟨[], rfl, by rw [← h]⟩
  | cons s hp ih =>
    simp only [coverageSuites, out_bind, andThen_ok, Out.ok.injEq] at h
    obtain ⟨e, h1, es1, h2, rfl⟩ := h
    obtain ⟨es2, h3, h4⟩ := ih h2
    have h5 := coverageTokenSuite_like ht hc n s
    rw [h1] at h5
    cases h6 : coverageTokenSuite n t' chs' s <;> rw [h6] at h5 <;> simp [Out.map] at h5
    rename_i e'
    refine ⟨e' :: es2, by simp [coverageSuites, out_bind, andThen_ok, h6, h3], ?_⟩
    rw [List.map_cons, List.map_cons, h5]
    exact h4.cons _
  | swap a b l =>
    rw [coverageSuites_iff] at h
    simp only [List.forall₂_cons_left_iff] at h
    obtain ⟨e1, l1, h1, ⟨e2, l2, h2, h3, rfl⟩, rfl⟩ := h
    have k1 := coverageTokenSuite_like ht hc n b
    have k2 := coverageTokenSuite_like ht hc n a
    rw [h1] at k1
    rw [h2] at k2
    cases h6 : coverageTokenSuite n t' chs' b <;> rw [h6] at k1 <;> simp [Out.map] at k1
    cases h7 : coverageTokenSuite n t' chs' a <;> rw [h7] at k2 <;> simp [Out.map] at k2
    rename_i e1' e2'
    have tail : ∃ l', List.Forall₂ (fun s e => coverageTokenSuite n t' chs' s = .ok e) l l' ∧
        l2.map Execution.view = l'.map Execution.view := by
      clear h1 h2 k1 k2 h6 h7
      induction h3 with
      | nil => exact ⟨[], .nil, rfl⟩
      | @cons s e ss' es' hx _ ih =>
        obtain ⟨l', i1, i2⟩ := ih
        have k := coverageTokenSuite_like ht hc n s
        rw [hx] at k
        cases h8 : coverageTokenSuite n t' chs' s <;> rw [h8] at k <;> simp [Out.map] at k
        rename_i e''
        exact ⟨e'' :: l', .cons h8 i1, by rw [List.map_cons, List.map_cons, k, i2]⟩
    obtain ⟨l', i1, i2⟩ := tail
    refine ⟨e2' :: e1' :: l', (coverageSuites_iff _ _ _ _ _).mpr (.cons h7 (.cons h6 i1)), ?_⟩
    simp only [List.map_cons, k1, k2, i2]
    exact List.Perm.swap _ _ _
  | trans p1 p2 ih1 ih2 =>
    rename_i l1 l2 l3
    obtain ⟨es1, h1, h2⟩ := ih1 h
    -- back to the first token for the second half
    have same : ∀ (ss : List Suite) (es : List Execution), coverageSuites n t' chs' ss = .ok es →
        ∃ es', coverageSuites n t chs ss = .ok es' ∧ es'.map Execution.view = es.map Execution.view := by
      intro ss
      induction ss with
      | nil => intro es h; exact ⟨[], rfl, by simp [coverageSuites] at h; simp [← h]⟩
      | cons s ss ih =>
        intro es h
        simp only [coverageSuites, out_bind, andThen_ok, Out.ok.injEq] at h
        obtain ⟨e, a1, es2, a2, rfl⟩ := h
        obtain ⟨es3, a3, a4⟩ := ih es2 a2
        have k := coverageTokenSuite_like ht hc n s
        rw [a1] at k
        cases h8 : coverageTokenSuite n t chs s <;> rw [h8] at k <;> simp [Out.map] at k
        rename_i e''
        exact ⟨e'' :: es3, by simp [coverageSuites, out_bind, andThen_ok, h8, a3], by simp [k, a4]⟩
    obtain ⟨es2, b1, b2⟩ := same l2 es1 h1
    obtain ⟨es3, c1, c2⟩ := ih2 b1
    exact ⟨es3, c1, h2.trans (b2 ▸ c2)⟩

/-- What a part of `Coverages` gives on the one grammar it gives on the other. -/
def CovLike (o o' : Out (List Coverage × List String)) : Prop :=
  ∀ x, o = .ok x → ∃ y, o' = .ok y ∧ List.Forall₂ SameTests x.1 y.1 ∧ x.2 = y.2

theorem CovLike.nil (s : List String) : CovLike (.ok ([], s)) (.ok ([], s)) := by
  rintro x h
  cases h
  exact ⟨_, rfl, .nil, rfl⟩

theorem CovLike.seq {o o' : Out (List Coverage × List String)}
    {k k' : List String → Out (List Coverage × List String)} (h : CovLike o o') (hk : ∀ s, CovLike (k s) (k' s)) :
    CovLike (o >>= fun r => k r.2 >>= fun r' => .ok (r.1 ++ r'.1, r'.2))
      (o' >>= fun r => k' r.2 >>= fun r' => .ok (r.1 ++ r'.1, r'.2)) := by
  intro x hx
  simp only [out_bind, andThen_ok, Out.ok.injEq] at hx
  obtain ⟨a, h1, b, h2, rfl⟩ := hx
  obtain ⟨a', h3, h4, h5⟩ := h a h1
  obtain ⟨b', h6, h7, h8⟩ := hk _ b h2
  refine ⟨(a'.1 ++ b'.1, b'.2), ?_, List.rel_append h4 h7, h8⟩
  simp only [out_bind, andThen_ok, Out.ok.injEq]
  exact ⟨a', h3, b', by rw [← h5]; exact h6, rfl⟩

mutual
theorem coveragesToken_like (n : Nat) {chs chs' : List Channel} (hc : channelsLike List.Perm chs chs') :
    ∀ (t t' : Token), t.Like List.Perm t' → ∀ skip, CovLike (coveragesToken n chs t skip) (coveragesToken n chs' t' skip)
  | .mk name ls ss, .mk name' ls' ss', h, skip => by
    have h0 := h
    rw [Token.Like] at h
    obtain ⟨rfl, hl, hp⟩ := h
    rw [coveragesToken, coveragesToken]
    by_cases hs : name ∈ skip
    · rw [if_pos hs, if_pos hs]
      exact CovLike.nil _
    · rw [if_neg hs, if_neg hs]
      intro x hx
      simp only [out_bind, andThen_ok, Out.ok.injEq] at hx
      obtain ⟨es, h1, r, h2, rfl⟩ := hx
      obtain ⟨es', h3, h4⟩ := coverageSuites_like h0 hc hp h1
      obtain ⟨r', h5, h6, h7⟩ := coveragesLines_like n hc _ _ hl (name :: skip) r h2
      refine ⟨(addCoverage (.mk name ls' ss') es' r'.1, r'.2), ?_, ?_, h7⟩
      · simp only [out_bind, andThen_ok, Out.ok.injEq]
        exact ⟨es', h3, r', h5, rfl⟩
      · have hlen : es.length = es'.length := by simpa using h4.length_eq
        unfold addCoverage
        cases es with
        | nil =>
          have : es' = [] := List.length_eq_zero_iff.mp (by simpa using hlen.symm)
          subst this
          exact h6
        | cons e es =>
          cases es' with
          | nil => simp at hlen
          | cons e' es' => exact List.rel_append h6 (.cons ⟨h0, h4⟩ .nil)
termination_by x => (sizeOf x, 0)
decreasing_by all_goals simp_wf; (try omega)
theorem coveragesLines_like (n : Nat) {chs chs' : List Channel} (hc : channelsLike List.Perm chs chs') :
    ∀ (ls ls' : List GLine), linesLike List.Perm ls ls' → ∀ skip,
      CovLike (coveragesLines n chs ls skip) (coveragesLines n chs' ls' skip)
  | [], [], _, skip => by rw [coveragesLines, coveragesLines]; exact CovLike.nil _
  | .mk cs :: ls, .mk cs' :: ls', h, skip => by
    rw [linesLike, GLine.Like] at h
    rw [coveragesLines, coveragesLines]
    exact CovLike.seq (coveragesContainers_like n hc _ _ h.1 skip) (fun s => coveragesLines_like n hc _ _ h.2 s)
  | [], _ :: _, h, _ => by simp [linesLike] at h
  | _ :: _, [], h, _ => by simp [linesLike] at h
termination_by x => (sizeOf x, 0)
decreasing_by all_goals simp_wf; (try omega)
theorem coveragesContainers_like (n : Nat) {chs chs' : List Channel} (hc : channelsLike List.Perm chs chs') :
    ∀ (cs cs' : List Container), containersLike List.Perm cs cs' → ∀ skip,
      CovLike (coveragesContainers n chs cs skip) (coveragesContainers n chs' cs' skip)
  | [], [], _, skip => by rw [coveragesContainers, coveragesContainers]; exact CovLike.nil _
  | .compose _ :: cs, .compose _ :: cs', h, skip => by
    rw [containersLike] at h
    rw [coveragesContainers, coveragesContainers]
    exact coveragesContainers_like n hc _ _ h.2 skip
  | .element _ _ c :: cs, .element _ _ c' :: cs', h, skip => by
    rw [containersLike, Container.Like] at h
    rw [coveragesContainers, coveragesContainers]
    exact CovLike.seq (coveragesContent_like n hc _ _ h.1.2.2 skip) (fun s => coveragesContainers_like n hc _ _ h.2 s)
  | .compose _ :: _, .element _ _ _ :: _, h, _ => by simp [containersLike, Container.Like] at h
  | .element _ _ _ :: _, .compose _ :: _, h, _ => by simp [containersLike, Container.Like] at h
  | [], _ :: _, h, _ => by simp [containersLike] at h
  | _ :: _, [], h, _ => by simp [containersLike] at h
termination_by x => (sizeOf x, 0)
decreasing_by all_goals simp_wf; (try omega)
theorem coveragesContent_like (n : Nat) {chs chs' : List Channel} (hc : channelsLike List.Perm chs chs') :
    ∀ (c c' : Content), c.Like List.Perm c' → ∀ skip,
      CovLike (coveragesContent n chs c skip) (coveragesContent n chs' c' skip)
  | .value n b, c', h, skip => by
    cases c' <;> simp only [Content.Like] at h
    rw [coveragesContent, coveragesContent]
    exact CovLike.nil _
  | .recursive n, c', h, skip => by
    cases c' <;> simp only [Content.Like] at h
    rw [coveragesContent, coveragesContent]
    exact CovLike.nil _
  | .token t, c', h, skip => by
    cases c' <;> simp only [Content.Like] at h
    rw [coveragesContent, coveragesContent]
    exact coveragesToken_like n hc _ _ h skip
  | .external nm g, c', h, skip => by
    cases c' <;> simp only [Content.Like] at h
    rw [coveragesContent, coveragesContent]
    intro x hx
    simp only [out_bind, andThen_ok, Out.ok.injEq] at hx
    obtain ⟨l, h1, rfl⟩ := hx
    obtain ⟨l', h2, h3⟩ := coverages_like n _ _ h.2 l h1
    exact ⟨(l', skip), by simp [out_bind, andThen_ok, h2], h3, rfl⟩
  | .everything nm ex esc, c', h, skip => by
    cases c' <;> simp only [Content.Like] at h
    rw [coveragesContent, coveragesContent]
    exact CovLike.seq (coveragesToken_like n hc _ _ h.2.1 skip) (fun s => coveragesOption_like n hc _ _ h.2.2 s)
termination_by x => (sizeOf x, 0)
decreasing_by all_goals simp_wf; (try omega)
theorem coveragesOption_like (n : Nat) {chs chs' : List Channel} (hc : channelsLike List.Perm chs chs') :
    ∀ (o o' : Option Token), optionLike List.Perm o o' → ∀ skip,
      CovLike (coveragesOption n chs o skip) (coveragesOption n chs' o' skip)
  | none, none, _, skip => by rw [coveragesOption, coveragesOption]; exact CovLike.nil _
  | some t, some t', h, skip => by
    rw [optionLike] at h
    rw [coveragesOption, coveragesOption]
    exact coveragesToken_like n hc _ _ h skip
  | none, some _, h, _ => by simp [optionLike] at h
  | some _, none, h, _ => by simp [optionLike] at h
termination_by x => (sizeOf x, 0)
decreasing_by all_goals simp_wf; (try omega)
theorem coverages_like (n : Nat) : ∀ (g g' : Grammar), g.Like List.Perm g' → ∀ l, coverages n g = .ok l →
    ∃ l', coverages n g' = .ok l' ∧ List.Forall₂ SameTests l l'
  | .mk root chs, .mk root' chs', h, l, hl => by
    rw [Grammar.Like] at h
    rw [coverages] at hl
    simp only [out_bind, andThen_ok, Out.ok.injEq] at hl
    obtain ⟨r, h1, r2, h2, rfl⟩ := hl
    obtain ⟨r', h3, h4, h5⟩ := coveragesToken_like n h.2 _ _ h.1 [] r h1
    obtain ⟨r2', h6, h7, _⟩ := coveragesChannels_like n _ _ h.2 r.2 r2 h2
    refine ⟨r2'.1 ++ r'.1, ?_, List.rel_append h7 h4⟩
    rw [coverages]
    simp only [out_bind, andThen_ok, Out.ok.injEq]
    exact ⟨r', h3, r2', by rw [← h5]; exact h6, rfl⟩
termination_by x => (sizeOf x, 0)
decreasing_by all_goals simp_wf; (try omega)
theorem coveragesChannels_like (n : Nat) : ∀ (cs cs' : List Channel), channelsLike List.Perm cs cs' → ∀ skip,
    CovLike (coveragesChannels n cs skip) (coveragesChannels n cs' skip)
  | [], [], _, skip => by rw [coveragesChannels]; exact CovLike.nil _
  | .mk t _ _ :: cs, .mk t' _ _ :: cs', h, skip => by
    rw [channelsLike, Channel.Like] at h
    rw [coveragesChannels, coveragesChannels]
    exact CovLike.seq (coveragesToken_like n (by simp [channelsLike]) _ _ h.1.1 skip) (fun s => coveragesChannels_like n _ _ h.2 s)
  | [], _ :: _, h, _ => by simp [channelsLike] at h
  | _ :: _, [], h, _ => by simp [channelsLike] at h
termination_by x => (sizeOf x, 0)
decreasing_by all_goals simp_wf; (try omega)
end

/-! ## Errors and positions -/

theorem containsError_same {l l' : List Coverage} (h : List.Forall₂ SameTests l l') : containsError l = containsError l' := by
  have one : ∀ c c' : Coverage, SameTests c c' → c.containsError = c'.containsError := by
    intro c c' ⟨_, hp⟩
    have key : ∀ es : List Execution, es.any Execution.isError = (es.map Execution.view).any (fun v => v.2.isNone) := by
      intro es
      rw [List.any_map]
      congr 1
      funext e
      simp [Execution.isError, Execution.view, Function.comp]
    unfold Coverage.containsError
    rw [key, key]
    exact hp.any_eq
  unfold containsError
  induction h with
  | nil => rfl
  | cons hc _ ih => rw [List.any_cons, List.any_cons, one _ _ hc, ih]

mutual
theorem coveredTree_bare (name : String) : ∀ (t : Tree) (m : Positions), coveredTree name t.bare m = coveredTree name t m
  | .mk g (.mk ls none) suf rem, m => by simp [Tree.bare, Block.bare, coveredTree, coveredBlock]
  | .mk g (.mk ls (some (.mk i gl rev es))) suf rem, m => by
    have he : (telementsBare es).isEmpty = es.isEmpty := by rw [telementsBare_eq, List.isEmpty_map]
    rw [Tree.bare, Block.bare, TLine.bare, coveredTree, coveredTree, coveredBlock, coveredBlock, he,
      coveredElements_bare name i es 0 m]
theorem coveredElements_bare (name : String) (i : Nat) : ∀ (es : List TElement) (j : Nat) (m : Positions),
    coveredElements name i j (telementsBare es) m = coveredElements name i j es m
  | [], j, m => rfl
  | .mk none xs :: es, j, m => by
    rw [telementsBare, TElement.bare, Option.map_none, coveredElements, coveredElements, coveredElements_bare name i es (j + 1) m]
  | .mk (some c) xs :: es, j, m => by
    rw [telementsBare, TElement.bare, Option.map_some, coveredElements, coveredElements, Container.bare_name,
      coveredContents_bare c.name xs]
    congr 1
    funext m'
    exact coveredElements_bare name i es (j + 1) m'
theorem coveredContents_bare (name : String) : ∀ (xs : List TContent) (m : Positions),
    coveredContents name (tcontentsBare xs) m = coveredContents name xs m
  | [], m => rfl
  | .value p b :: xs, m => by
    rw [tcontentsBare, TContent.bare, coveredContents, coveredContents, coveredContents_bare name xs m]
  | .tree t :: xs, m => by
    rw [tcontentsBare, TContent.bare, coveredContents, coveredContents, coveredTree_bare name t]
    congr 1
    funext m'
    exact coveredContents_bare name xs m'
end

end Rodkina.Ast
