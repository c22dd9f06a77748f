import Verif.CoverageOrderLemmas
import Verif.CoverageOrder

/-!
# Lemmas: the reports of grammars that differ in the order of their suites
-/

namespace Rodkina.Ast

/-! ## The relation is symmetric -/

section
variable {P : List Suite → List Suite → Prop} (hP : ∀ a b, P a b → P b a)
include hP

mutual
theorem Token.Like.symm : ∀ {t t' : Token}, t.Like P t' → t'.Like P t
  | .mk n ls ss, .mk n' ls' ss', h => by
    rw [Token.Like] at h ⊢
    exact ⟨h.1.symm, linesLike_symm h.2.1, hP _ _ h.2.2⟩
theorem linesLike_symm : ∀ {ls ls' : List GLine}, linesLike P ls ls' → linesLike P ls' ls
  | [], [], _ => by simp [linesLike]
  | g :: gs, g' :: gs', h => by
    rw [linesLike] at h ⊢
    exact ⟨GLine.Like.symm h.1, linesLike_symm h.2⟩
  | [], _ :: _, h => by simp [linesLike] at h
  | _ :: _, [], h => by simp [linesLike] at h
theorem GLine.Like.symm : ∀ {g g' : GLine}, g.Like P g' → g'.Like P g
  | .mk cs, .mk cs', h => by
    rw [GLine.Like] at h ⊢
    exact containersLike_symm h
theorem containersLike_symm : ∀ {cs cs' : List Container}, containersLike P cs cs' → containersLike P cs' cs
  | [], [], _ => by simp [containersLike]
  | c :: cs, c' :: cs', h => by
    rw [containersLike] at h ⊢
    exact ⟨Container.Like.symm h.1, containersLike_symm h.2⟩
  | [], _ :: _, h => by simp [containersLike] at h
  | _ :: _, [], h => by simp [containersLike] at h
theorem Container.Like.symm : ∀ {c c' : Container}, c.Like P c' → c'.Like P c
  | .element min max c, .element min' max' c', h => by
    rw [Container.Like] at h ⊢
    exact ⟨h.1.symm, h.2.1.symm, Content.Like.symm h.2.2⟩
  | .compose c, .compose c', h => by
    rw [Container.Like] at h ⊢
    exact h.symm
  | .element _ _ _, .compose _, h => by simp [Container.Like] at h
  | .compose _, .element _ _ _, h => by simp [Container.Like] at h
theorem Content.Like.symm : ∀ {c c' : Content}, c.Like P c' → c'.Like P c
  | .value n b, c', h => by
    cases c' <;> simp only [Content.Like] at h ⊢
    exact ⟨h.1.symm, h.2.symm⟩
  | .external n g, c', h => by
    cases c' <;> simp only [Content.Like] at h ⊢
    exact ⟨h.1.symm, Grammar.Like.symm h.2⟩
  | .token t, c', h => by
    cases c' <;> simp only [Content.Like] at h ⊢
    exact Token.Like.symm h
  | .everything n ex esc, c', h => by
    cases c' <;> simp only [Content.Like] at h ⊢
    exact ⟨h.1.symm, Token.Like.symm h.2.1, optionLike_symm h.2.2⟩
  | .recursive n, c', h => by
    cases c' <;> simp only [Content.Like] at h ⊢
    exact h.symm
theorem optionLike_symm : ∀ {o o' : Option Token}, optionLike P o o' → optionLike P o' o
  | none, none, _ => by simp [optionLike]
  | some t, some t', h => by
    rw [optionLike] at h ⊢
    exact Token.Like.symm h
  | none, some _, h => by simp [optionLike] at h
  | some _, none, h => by simp [optionLike] at h
theorem Grammar.Like.symm : ∀ {g g' : Grammar}, g.Like P g' → g'.Like P g
  | .mk r chs, .mk r' chs', h => by
    rw [Grammar.Like] at h ⊢
    exact ⟨Token.Like.symm h.1, channelsLike_symm h.2⟩
theorem channelsLike_symm : ∀ {cs cs' : List Channel}, channelsLike P cs cs' → channelsLike P cs' cs
  | [], [], _ => by simp [channelsLike]
  | c :: cs, c' :: cs', h => by
    rw [channelsLike] at h ⊢
    exact ⟨Channel.Like.symm h.1, channelsLike_symm h.2⟩
  | [], _ :: _, h => by simp [channelsLike] at h
  | _ :: _, [], h => by simp [channelsLike] at h
theorem Channel.Like.symm : ∀ {c c' : Channel}, c.Like P c' → c'.Like P c
  | .mk t p n, .mk t' p' n', h => by
    rw [Channel.Like] at h ⊢
    exact ⟨Token.Like.symm h.1, optionLike_symm h.2.1, optionLike_symm h.2.2⟩
end
end

/-! ## Elements of the grammar -/

mutual
theorem elementsToken_bare : ∀ (t : Token) (m : Positions), elementsToken t.bare m = elementsToken t m
  | .mk n ls ss, m => by rw [Token.bare, elementsToken, elementsToken, elementsLines_bare n 0 ls m]
theorem elementsLines_bare (name : String) : ∀ (i : Nat) (ls : List GLine) (m : Positions),
    elementsLines name i (linesBare ls) m = elementsLines name i ls m
  | i, [], m => rfl
  | i, .mk cs :: ls, m => by
    rw [linesBare, GLine.bare, elementsLines, elementsLines, elementsContainers_bare name i 0 cs m,
      elementsLines_bare name (i + 1) ls]
theorem elementsContainers_bare (name : String) (i : Nat) : ∀ (j : Nat) (cs : List Container) (m : Positions),
    elementsContainers name i j (containersBare cs) m = elementsContainers name i j cs m
  | j, [], m => rfl
  | j, .compose _ :: cs, m => by
    rw [containersBare, Container.bare, elementsContainers, elementsContainers, elementsContainers_bare name i (j + 1) cs]
  | j, .element _ _ c :: cs, m => by
    rw [containersBare, Container.bare, elementsContainers, elementsContainers, Content.bare_name,
      elementsContent_bare c, elementsContainers_bare name i (j + 1) cs]
theorem elementsContent_bare : ∀ (c : Content) (m : Positions), elementsContent c.bare m = elementsContent c m
  | .value _ _, m => by rw [Content.bare]
  | .recursive _, m => by rw [Content.bare]
  | .external _ g, m => by rw [Content.bare, elementsContent, elementsContent, findElements_bare g]
  | .token t, m => by rw [Content.bare, elementsContent, elementsContent, elementsToken_bare t]
  | .everything _ ex esc, m => by
    rw [Content.bare, elementsContent, elementsContent, elementsToken_bare ex, elementsOption_bare esc]
theorem elementsOption_bare : ∀ (o : Option Token) (m : Positions), elementsOption (optionBare o) m = elementsOption o m
  | none, m => rfl
  | some t, m => by rw [optionBare, elementsOption, elementsOption, elementsToken_bare t]
theorem findElements_bare : ∀ (g : Grammar) (m : Positions), findElements g.bare m = findElements g m
  | .mk r chs, m => by rw [Grammar.bare, findElements, findElements, elementsToken_bare r, elementsChannels_bare chs]
theorem elementsChannels_bare : ∀ (cs : List Channel) (m : Positions), elementsChannels (channelsBare cs) m = elementsChannels cs m
  | [], m => rfl
  | .mk t p n :: cs, m => by
    rw [channelsBare, Channel.bare, elementsChannels, elementsChannels, elementsToken_bare t, elementsChannels_bare cs]
end

mutual
theorem elementsToken_keep (Q : Positions → Prop) (hQ : ∀ m p v, Q m → Q (m.put p v)) :
    ∀ (t : Token) (m : Positions), Q m → Q (elementsToken t m)
  | .mk n ls ss, m, h => by rw [elementsToken]; exact elementsLines_keep Q hQ n 0 ls m h
theorem elementsLines_keep (Q : Positions → Prop) (hQ : ∀ m p v, Q m → Q (m.put p v)) (name : String) :
    ∀ (i : Nat) (ls : List GLine) (m : Positions), Q m → Q (elementsLines name i ls m)
  | i, [], m, h => by rw [elementsLines]; exact h
  | i, .mk cs :: ls, m, h => by
    rw [elementsLines]; exact elementsLines_keep Q hQ name (i + 1) ls _ (elementsContainers_keep Q hQ name i 0 cs m h)
theorem elementsContainers_keep (Q : Positions → Prop) (hQ : ∀ m p v, Q m → Q (m.put p v)) (name : String) (i : Nat) :
    ∀ (j : Nat) (cs : List Container) (m : Positions), Q m → Q (elementsContainers name i j cs m)
  | j, [], m, h => by rw [elementsContainers]; exact h
  | j, .compose _ :: cs, m, h => by rw [elementsContainers]; exact elementsContainers_keep Q hQ name i (j + 1) cs m h
  | j, .element _ _ c :: cs, m, h => by
    rw [elementsContainers]
    exact elementsContainers_keep Q hQ name i (j + 1) cs _ (elementsContent_keep Q hQ c _ (hQ _ _ _ h))
theorem elementsContent_keep (Q : Positions → Prop) (hQ : ∀ m p v, Q m → Q (m.put p v)) :
    ∀ (c : Content) (m : Positions), Q m → Q (elementsContent c m)
  | .value _ _, m, h => by rw [elementsContent]; exact h
  | .recursive _, m, h => by rw [elementsContent]; exact h
  | .external _ g, m, h => by rw [elementsContent]; exact findElements_keep Q hQ g m h
  | .token t, m, h => by rw [elementsContent]; exact elementsToken_keep Q hQ t m h
  | .everything _ ex esc, m, h => by
    rw [elementsContent]; exact elementsOption_keep Q hQ esc _ (elementsToken_keep Q hQ ex m h)
theorem elementsOption_keep (Q : Positions → Prop) (hQ : ∀ m p v, Q m → Q (m.put p v)) :
    ∀ (o : Option Token) (m : Positions), Q m → Q (elementsOption o m)
  | none, m, h => by rw [elementsOption]; exact h
  | some t, m, h => by rw [elementsOption]; exact elementsToken_keep Q hQ t m h
theorem findElements_keep (Q : Positions → Prop) (hQ : ∀ m p v, Q m → Q (m.put p v)) :
    ∀ (g : Grammar) (m : Positions), Q m → Q (findElements g m)
  | .mk r chs, m, h => by rw [findElements]; exact elementsChannels_keep Q hQ chs _ (elementsToken_keep Q hQ r m h)
theorem elementsChannels_keep (Q : Positions → Prop) (hQ : ∀ m p v, Q m → Q (m.put p v)) :
    ∀ (cs : List Channel) (m : Positions), Q m → Q (elementsChannels cs m)
  | [], m, h => by rw [elementsChannels]; exact h
  | .mk t p n :: cs, m, h => by rw [elementsChannels]; exact elementsChannels_keep Q hQ cs _ (elementsToken_keep Q hQ t m h)
end

/-- Every position is listed once. -/
theorem findElements_nodup (g : Grammar) : ((findElements g []).map Prod.fst).Nodup := by
  refine findElements_keep (fun m => (m.map Prod.fst).Nodup) ?_ g [] List.nodup_nil
  intro m p v h
  unfold Positions.put
  rw [List.map_cons, List.nodup_cons]
  constructor
  · intro hm
    obtain ⟨e, he, rfl⟩ := List.mem_map.mp hm
    simp at he
  · exact h.sublist (List.filter_sublist.map _)

theorem lookup_of_nodup {l : Positions} (h : (l.map Prod.fst).Nodup) (p : Pos) (v : String) :
    l.lookup p = some v ↔ (p, v) ∈ l := by
  induction l with
  | nil => simp
  | cons e l ih =>
    obtain ⟨q, w⟩ := e
    rw [List.map_cons, List.nodup_cons] at h
    rw [List.lookup_cons, List.mem_cons]
    by_cases hq : p = q
    · subst hq
      simp only [beq_self_eq_true, Prod.mk.injEq, true_and]
      constructor
      · rintro h'; cases h'; exact .inl rfl
      · rintro (rfl | hm)
        · rfl
        · exact absurd (List.mem_map.mpr ⟨_, hm, rfl⟩) h.1
    · rw [show (p == q) = false by simpa using hq]
      simp only [ih h.2, Prod.mk.injEq, hq, false_and, false_or]

/-- The loop of `Uncovered`, in any order. -/
theorem uncoveredLoop_lookup (m : Positions) (order : List (Pos × String)) (h : (order.map Prod.fst).Nodup) (u : Positions)
    (p : Pos) :
    (uncoveredLoop m order u).lookup p =
      if (m.lookup p).isNone ∧ (order.lookup p).isSome then order.lookup p else u.lookup p := by
  induction order generalizing u with
  | nil => simp [uncoveredLoop]
  | cons e order ih =>
    obtain ⟨q, w⟩ := e
    rw [List.map_cons, List.nodup_cons] at h
    rw [uncoveredLoop, ih h.2]
    have hnone : order.lookup q = none := by
      cases hl : order.lookup q with
      | none => rfl
      | some v => exact absurd (List.mem_map.mpr ⟨_, (lookup_of_nodup h.2 q v).mp hl, rfl⟩) h.1
    rw [List.lookup_cons]
    by_cases hq : p = q
    · subst hq
      rw [hnone]
      by_cases hm : (m.lookup p).isNone
      · simp [hm, lookup_put]
      · simp [hm]
    · simp only [show (p == q) = false by simpa using hq]
      by_cases hm : (m.lookup q).isNone
      · rw [if_pos hm, lookup_put, if_neg hq]
      · rw [if_neg hm]

/-! ## Positions used by the tests -/

mutual
theorem coveredTree_any : ∀ (t : Tree) (name : String) (m m1 : Positions), coveredTree name t m = .ok m1 →
    ∀ name2 m2, ∃ m3, coveredTree name2 t m2 = .ok m3
  | .mk g (.mk ls none) suf rem, name, m, m1, h, name2, m2 => ⟨m2, by rw [coveredTree, coveredBlock]⟩
  | .mk g (.mk ls (some (.mk i gl rev es))) suf rem, name, m, m1, h, name2, m2 => by
    rw [coveredTree, coveredBlock] at h ⊢
    split at h
    · cases h
    · rename_i he
      rw [if_neg he]
      exact coveredElements_any es name i 0 m m1 h name2 m2
termination_by t => (sizeOf t, 0)
decreasing_by all_goals simp_wf; (try omega)
theorem coveredElements_any : ∀ (es : List TElement) (name : String) (i j : Nat) (m m1 : Positions),
    coveredElements name i j es m = .ok m1 → ∀ name2 m2, ∃ m3, coveredElements name2 i j es m2 = .ok m3
  | [], name, i, j, m, m1, h, name2, m2 => ⟨m2, by rw [coveredElements]⟩
  | .mk none xs :: es, name, i, j, m, m1, h, name2, m2 => by
    rw [coveredElements] at h ⊢
    exact coveredElements_any es name i (j + 1) m m1 h name2 m2
  | .mk (some c) xs :: es, name, i, j, m, m1, h, name2, m2 => by
    rw [coveredElements] at h ⊢
    simp only [out_bind, andThen_ok] at h ⊢
    obtain ⟨a, h1, h2⟩ := h
    obtain ⟨b, h3⟩ := coveredContents_any xs c.name _ a h1 c.name (m2.add (name2, i, j) c.name)
    obtain ⟨d, h4⟩ := coveredElements_any es name i (j + 1) a m1 h2 name2 b
    exact ⟨d, b, h3, h4⟩
termination_by es => (sizeOf es, 0)
decreasing_by all_goals simp_wf; (try omega)
theorem coveredContents_any : ∀ (xs : List TContent) (name : String) (m m1 : Positions),
    coveredContents name xs m = .ok m1 → ∀ name2 m2, ∃ m3, coveredContents name2 xs m2 = .ok m3
  | [], name, m, m1, h, name2, m2 => ⟨m2, by rw [coveredContents]⟩
  | .value p b :: xs, name, m, m1, h, name2, m2 => by
    rw [coveredContents] at h ⊢
    exact coveredContents_any xs name m m1 h name2 m2
  | .tree t :: xs, name, m, m1, h, name2, m2 => by
    rw [coveredContents] at h ⊢
    simp only [out_bind, andThen_ok] at h ⊢
    obtain ⟨a, h1, h2⟩ := h
    obtain ⟨b, h3⟩ := coveredTree_any t name m a h1 name2 m2
    obtain ⟨d, h4⟩ := coveredContents_any xs name a m1 h2 name2 b
    exact ⟨d, b, h3, h4⟩
termination_by xs => (sizeOf xs, 0)
decreasing_by all_goals simp_wf; (try omega)
end

/-- `Covered` can use the tree. -/
def Clean (t : Tree) : Prop := ∀ name m, ∃ m', coveredTree name t m = .ok m'

theorem Clean.of_bare {t t' : Tree} (h : t.bare = t'.bare) (hc : Clean t) : Clean t' := by
  intro name m
  obtain ⟨m', h1⟩ := hc name m
  exact ⟨m', by rw [← coveredTree_bare, ← h, coveredTree_bare]; exact h1⟩

theorem Clean.counted {t t' : Tree} (h : t.bare = t'.bare) (hc : Clean t) (name : String) (p : Pos) :
    Counted name t p ↔ Counted name t' p := by
  obtain ⟨m, h1⟩ := hc name []
  have h2 : coveredTree name t' [] = .ok m := by rw [← coveredTree_bare, ← h, coveredTree_bare]; exact h1
  have k1 := cpost_tree t name [] m h1 p
  have k2 := cpost_tree t' name [] m h2 p
  simp only [List.lookup_nil, Option.isSome_none, Bool.false_eq_true, false_or] at k1 k2
  exact k1.symm.trans k2

theorem coveredExecutions_clean (name : String) (es : List Execution) (m m1 : Positions)
    (h : coveredExecutions name es m = .ok m1) : ∀ e ∈ es, ∀ t, e.result = some t → Clean t := by
  induction es generalizing m with
  | nil => simp
  | cons e es ih =>
    obtain ⟨s, r⟩ := e
    cases r with
    | none =>
      rw [coveredExecutions] at h
      intro e he t hr
      rcases List.mem_cons.mp he with rfl | he
      · cases hr
      · exact ih m h e he t hr
    | some x =>
      simp only [coveredExecutions, out_bind, andThen_ok] at h
      obtain ⟨a, h1, h2⟩ := h
      intro e he t hr
      rcases List.mem_cons.mp he with rfl | he
      · cases hr
        exact fun n2 m2 => coveredTree_any x name m a h1 n2 m2
      · exact ih a h2 e he t hr

theorem coveredExecutions_of_clean (name : String) (es : List Execution) (h : ∀ e ∈ es, ∀ t, e.result = some t → Clean t)
    (m : Positions) : ∃ m1, coveredExecutions name es m = .ok m1 := by
  induction es generalizing m with
  | nil => exact ⟨m, rfl⟩
  | cons e es ih =>
    obtain ⟨s, r⟩ := e
    cases r with
    | none => exact ih (fun e he => h e (by simp [he])) m
    | some x =>
      obtain ⟨a, h1⟩ := h ⟨s, some x⟩ (by simp) x rfl name m
      obtain ⟨b, h2⟩ := ih (fun e he => h e (by simp [he])) a
      exact ⟨b, by simp [coveredExecutions, out_bind, h1, Out.andThen, h2]⟩

theorem coveredList_clean (cs : List Coverage) (m m1 : Positions) (h : coveredList cs m = .ok m1) :
    ∀ name t, TestTree cs name t → Clean t := by
  induction cs generalizing m with
  | nil => rintro name t ⟨k, hk, _⟩; simp at hk
  | cons c cs ih =>
    simp only [coveredList, out_bind, andThen_ok] at h
    obtain ⟨a, h1, h2⟩ := h
    rintro name t ⟨k, hk, hn, e, he, hr⟩
    rcases List.mem_cons.mp hk with rfl | hk
    · exact coveredExecutions_clean _ _ _ _ h1 e he t hr
    · exact ih a h2 name t ⟨k, hk, hn, e, he, hr⟩

theorem coveredList_of_clean (cs : List Coverage) (h : ∀ name t, TestTree cs name t → Clean t) (m : Positions) :
    ∃ m1, coveredList cs m = .ok m1 := by
  induction cs generalizing m with
  | nil => exact ⟨m, rfl⟩
  | cons c cs ih =>
    obtain ⟨a, h1⟩ := coveredExecutions_of_clean c.token.name c.executions
      (fun e he t hr => h _ t ⟨c, by simp, rfl, e, he, hr⟩) m
    obtain ⟨b, h2⟩ := ih (by rintro name t ⟨k, hk, hn, hr⟩; exact h name t ⟨k, by simp [hk], hn, hr⟩) a
    exact ⟨b, by simp [coveredList, out_bind, h1, Out.andThen, h2]⟩

theorem SameTests.symm {c c' : Coverage} (h : SameTests c c') : SameTests c' c :=
  ⟨Token.Like.symm (fun _ _ => List.Perm.symm) h.1, h.2.symm⟩

theorem sameTests_tree {cs cs' : List Coverage} (h : List.Forall₂ SameTests cs cs') {name : String} {t : Tree}
    (ht : TestTree cs name t) : ∃ t', TestTree cs' name t' ∧ t.bare = t'.bare := by
  induction h with
  | nil => obtain ⟨k, hk, _⟩ := ht; simp at hk
  | @cons c c' l l' hc _ ih =>
    obtain ⟨k, hk, hn, e, he, hr⟩ := ht
    rcases List.mem_cons.mp hk with rfl | hk
    · have : e.view ∈ c'.executions.map Execution.view := hc.2.mem_iff.mp (List.mem_map.mpr ⟨e, he, rfl⟩)
      obtain ⟨e', he', hv⟩ := List.mem_map.mp this
      have hv2 : e'.result.map Tree.bare = some t.bare := by
        have := congrArg Prod.snd hv
        simp only [Execution.view, hr] at this
        simpa using this
      obtain ⟨t', h1, h2⟩ := Option.map_eq_some_iff.mp hv2
      exact ⟨t', ⟨c', by simp, by rw [← hn, hc.1.name], e', he', h1⟩, h2.symm⟩
    · obtain ⟨t', ⟨k', hk', h1⟩, h2⟩ := ih ⟨k, hk, hn, e, he, hr⟩
      exact ⟨t', ⟨k', by simp [hk'], h1⟩, h2⟩

theorem covered_same {cs cs' : List Coverage} (h : List.Forall₂ SameTests cs cs') {m : Positions} (hm : covered cs = .ok m) :
    ∃ m', covered cs' = .ok m' ∧ ∀ p, (m.lookup p).isSome = (m'.lookup p).isSome := by
  have hs : List.Forall₂ SameTests cs' cs := h.flip.imp (fun _ _ => SameTests.symm)
  have hm0 := hm
  unfold covered at hm
  split at hm
  · cases hm
  · rename_i hne
    have hclean := coveredList_clean cs [] m hm
    have hclean' : ∀ name t, TestTree cs' name t → Clean t := by
      intro name t ht
      obtain ⟨t', h1, h2⟩ := sameTests_tree hs ht
      exact (hclean name t' h1).of_bare h2.symm
    obtain ⟨m', h1⟩ := coveredList_of_clean cs' hclean' []
    have hne' : ¬ cs'.isEmpty = true := by
      intro he
      rw [List.isEmpty_iff] at he
      subst he
      cases h
      simp at hne
    have hm' : covered cs' = .ok m' := by unfold covered; rw [if_neg hne']; exact h1
    refine ⟨m', hm', fun p => ?_⟩
    rw [Bool.eq_iff_iff, covered_keys hm0 p, covered_keys hm' p]
    constructor
    · rintro ⟨name, t, h2, h3⟩
      obtain ⟨t', h4, h5⟩ := sameTests_tree h h2
      exact ⟨name, t', h4, ((hclean name t h2).counted h5 name p).mp h3⟩
    · rintro ⟨name, t, h2, h3⟩
      obtain ⟨t', h4, h5⟩ := sameTests_tree hs h2
      exact ⟨name, t', h4, ((hclean' name t h2).counted h5 name p).mp h3⟩

theorem uncovered_same {g g' : Grammar} (h : g.Like List.Perm g') {n : Nat} {r : Positions} (hr : uncovered n g = .ok r) :
    uncovered n g' = .ok r := by
  simp only [uncovered, out_bind, andThen_ok, Out.ok.injEq] at hr ⊢
  obtain ⟨cs, h1, m, h2, rfl⟩ := hr
  obtain ⟨cs', h3, h4⟩ := coverages_like n _ _ h cs h1
  obtain ⟨m', h5, h6⟩ := covered_same h4 h2
  refine ⟨cs', h3, m', h5, ?_⟩
  rw [← findElements_bare g, h.bare, findElements_bare g']
  congr 1
  funext e
  have := h6 e.1
  cases ha : m.lookup e.1 <;> cases hb : m'.lookup e.1 <;> rw [ha, hb] at this <;> simp_all

end Rodkina.Ast
