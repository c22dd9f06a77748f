import Verif.AstNamed
import Verif.AstProps2

/-!
# Elements that share names (C161), and fixed texts exactly (C81)
-/

namespace Rodkina.Props

open Rodkina.Ast Rodkina.Ast.Shipped

/-! ## C161 -/

/-- **C161.** Grammars of bytes, tokens and exceptions in which the elements of an alternative are named
in any way: Execute returns on every input.  It succeeds exactly when the interpreter with the rule of
the last name does, with the same tree and the same rest, and refuses the input otherwise. -/
theorem C161_last_of_name (g : Grammar) (N : Nat) (hg : NamedTok [] g.root)
    (hc : ∀ c ∈ g.channels, PegChannel N c) (input : Bytes) :
    (∀ sh r, (∃ t, Parses g input (.ok t) ∧ t.isSuccessful = true ∧ t.shape = sh ∧ t.remaining = r) ↔
      namedToken (skipAll g.channels) g.root input = some (sh, r)) ∧
    (Rejects g input ↔ namedToken (skipAll g.channels) g.root input = none) := by
  have ha := named_execute (fun m hm => skipIs_channels hc hm) hg input
  cases hp : namedToken (skipAll g.channels) g.root input with
  | none =>
    rw [hp] at ha
    refine ⟨fun sh r => ⟨?_, by simp⟩, ⟨fun _ => rfl, fun _ => ha⟩⟩
    rintro ⟨t, ht, hs, _⟩
    rcases ha with h | ⟨u, h, hu⟩
    · exact absurd (ht.unique h) (by simp)
    · have := ht.unique h
      simp only [Out.ok.injEq] at this
      subst this
      rw [hu] at hs
      exact absurd hs (by simp)
  | some x =>
    rw [hp] at ha
    obtain ⟨u, hu, hus, h1, h2⟩ := ha
    refine ⟨fun sh r => ⟨?_, ?_⟩, ⟨?_, by simp⟩⟩
    · rintro ⟨t, ht, _, rfl, rfl⟩
      have := ht.unique hu
      simp only [Out.ok.injEq] at this
      subst this
      rw [h1, h2]
    · intro h
      simp only [Option.some.injEq] at h
      subst h
      exact ⟨u, hu, hus, h1, h2⟩
    · rintro (h | ⟨t, h, hs⟩)
      · exact absurd (hu.unique h) (by simp)
      · have := h.unique hu
        simp only [Out.ok.injEq] at this
        subst this
        rw [hus] at hs
        exact absurd hs (by simp)

/-- **C161, the chosen alternative.** A successful tree stands for the first alternative whose elements
match one after the other, not all of them empty, such that for every element asked for the last
matched element of the same name occurs at least as often. -/
theorem C161_chosen (g : Grammar) (N : Nat) (hg : NamedTok [] g.root)
    (hc : ∀ c ∈ g.channels, PegChannel N c) (input : Bytes) (t : Tree)
    (h : Parses g input (.ok t)) (hs : t.isSuccessful = true) :
    ∃ i cs es rest, t.shape = .node g.root.name i es ∧ t.remaining = skipAll g.channels rest ∧
      g.root.lines[i]? = some (.mk cs) ∧ namedSeq (skipAll g.channels) cs input = some (es, rest) ∧
      es ≠ [] ∧ (∀ c ∈ cs, 0 < c.min →
        ∃ a e b, es = a ++ e :: b ∧ e.title = c.name ∧ (∀ x ∈ b, x.title ≠ c.name) ∧ c.min ≤ e.count) ∧
      ∀ j gj, j < i → g.root.lines[j]? = some gj → namedLine (skipAll g.channels) gj input = none := by
  have h1 := ((C161_last_of_name g N hg hc input).1 _ _).mp ⟨t, h, hs, rfl, rfl⟩
  rcases hr : g.root with ⟨name, ls, ss⟩
  rw [hr, namedToken] at h1
  obtain ⟨x, hx, he⟩ := Option.map_eq_some_iff.mp h1
  have key : ∀ (ls : List GLine) (k : Nat), namedLines (skipAll g.channels) k ls input = some x →
      ∃ i, x.1 = k + i ∧ ∃ gl, ls[i]? = some gl ∧ namedLine (skipAll g.channels) gl input = some x.2 ∧
        ∀ j gj, j < i → ls[j]? = some gj → namedLine (skipAll g.channels) gj input = none := by
    intro ls
    induction ls with
    | nil => intro k hk; simp [namedLines] at hk
    | cons g0 gs ih =>
      intro k hk
      rw [namedLines] at hk
      cases h0 : namedLine (skipAll g.channels) g0 input with
      | some y =>
        rw [h0] at hk
        simp only [Option.map_some, Option.orElse_some, Option.some.injEq] at hk
        subst hk
        exact ⟨0, rfl, g0, rfl, h0, by simp⟩
      | none =>
        rw [h0] at hk
        simp only [Option.map_none, Option.orElse_none] at hk
        obtain ⟨i, hi, gl, hgl, hl, hprev⟩ := ih (k + 1) hk
        refine ⟨i + 1, by omega, gl, by simpa using hgl, hl, ?_⟩
        intro j gj hj hgj
        cases j with
        | zero => simp only [List.getElem?_cons_zero, Option.some.injEq] at hgj; subst hgj; exact h0
        | succ j => exact hprev j gj (by omega) (by simpa using hgj)
  obtain ⟨i, hi, ⟨cs⟩, hgl, hl, hprev⟩ := key ls 0 hx
  rw [Nat.zero_add] at hi
  simp only [Prod.mk.injEq] at he
  rw [namedLine] at hl
  obtain ⟨y, hy, hif⟩ := Option.bind_eq_some_iff.mp hl
  by_cases hb : (y.1.isEmpty || !lastMeets cs y.1) = true
  · rw [if_pos hb] at hif
    exact absurd hif (by simp)
  · rw [if_neg hb] at hif
    simp only [Option.some.injEq] at hif
    subst hif
    have hb1 : x.2.1 ≠ [] := by
      intro h0
      rw [h0] at hb
      exact hb rfl
    have hb2 : lastMeets cs x.2.1 = true := by
      cases hz : lastMeets cs x.2.1 with
      | true => rfl
      | false =>
        rw [hz] at hb
        exact absurd (by simp) hb
    refine ⟨i, cs, x.2.1, x.2.2, ?_, he.2.symm, hgl, hy, hb1, ?_, hprev⟩
    · rw [← he.1, hi]; rfl
    · intro c hcm hpos
      have hall := hb2
      unfold lastMeets at hall
      rw [List.all_eq_true] at hall
      have := hall c hcm
      rw [Bool.or_eq_true, decide_eq_true_eq, Option.any_eq_true] at this
      rcases this with h0 | ⟨e, hf, hk⟩
      · omega
      · rw [List.find?_eq_some_iff_append] at hf
        obtain ⟨ht, as, bs, hrev, hno⟩ := hf
        refine ⟨bs.reverse, e, as.reverse, ?_, by simpa using ht, ?_, by simpa using hk⟩
        · have := congrArg List.reverse hrev
          simpa using this
        · intro z hz
          have := hno z (by simpa using hz)
          simpa using this

/-! ## C81, exactly -/

/-- For every byte asked for, the last element of the same name that asks for some asks for as many. -/
def LastAsksMost (l : List (String × UInt8 × Nat)) : Prop :=
  ∀ e ∈ l, e.2.2 ≠ 0 →
    ∃ a x b, l = a ++ x :: b ∧ x.1 = e.1 ∧ x.2.2 ≠ 0 ∧ (∀ y ∈ b, y.1 = e.1 → y.2.2 = 0) ∧ e.2.2 ≤ x.2.2

/-- The elements of a matched fixed text. -/
def wordElems (l : List (String × UInt8 × Nat)) : List ShapeElem :=
  (l.filter (fun e => e.2.2 != 0)).map (fun e => .mk e.1 (List.replicate e.2.2 (.byte e.2.1)))

theorem namedSeq_word (l : List (String × UInt8 × Nat)) (d : Bytes) :
    namedSeq id (wordLine l).containers d =
      if spelled (l.map (·.2)) <+: d then some (wordElems l, d.drop (spelled (l.map (·.2))).length) else none := by
  induction l generalizing d with
  | nil => simp [wordLine, GLine.containers, namedSeq, spelled, wordElems]
  | cons e l ih =>
    rcases e with ⟨name, b, k⟩
    simp only [wordLine, List.map_cons, GLine.containers, namedSeq, namedContainer]
    have hc : namedContent id (.value name b) = byteMatch id b := rfl
    rw [hc, greedy_byte]
    by_cases hp : List.replicate k b <+: d
    · obtain ⟨r, rfl⟩ := hp
      rw [if_pos (List.prefix_append _ _), List.drop_left' (by simp)]
      simp only [Option.bind_some]
      have ih' := ih r
      simp only [wordLine, GLine.containers] at ih'
      have hs : spelled ((b, k) :: l.map (·.2)) <+: List.replicate k b ++ r ↔ spelled (l.map (·.2)) <+: r := by
        rw [spelled, List.prefix_append_right_inj]
      rw [ih']
      by_cases hq : spelled (l.map (·.2)) <+: r
      · rw [if_pos hq, if_pos (hs.mpr hq)]
        simp only [Option.map_some, spelled, List.length_append, ← List.drop_drop, List.drop_left' rfl]
        cases k with
        | zero => simp [consElem, wordElems]
        | succ k => simp [consElem, wordElems, Container.name, Content.name, List.replicate_succ]
      · rw [if_neg hq, if_neg (fun h => hq (hs.mp h))]
        rfl
    · rw [if_neg hp, if_neg]
      · rfl
      · intro h
        apply hp
        rw [spelled] at h
        exact (List.prefix_append _ _).trans h

theorem lastMeets_word (l : List (String × UInt8 × Nat)) :
    lastMeets (wordLine l).containers (wordElems l) = true ↔ LastAsksMost l := by
  have hmem : ∀ c, c ∈ (wordLine l).containers ↔ ∃ e ∈ l, Container.element e.2.2 (some e.2.2) (.value e.1 e.2.1) = c := by
    intro c
    simp only [wordLine, GLine.containers, List.mem_map]
  have hfind : ∀ (name : String) (m : Nat), ((wordElems l).reverse.find? (fun x => x.title == name)).any (fun x => decide (m ≤ x.count)) = true ↔
      ∃ a x b, l = a ++ x :: b ∧ x.1 = name ∧ x.2.2 ≠ 0 ∧ (∀ y ∈ b, y.1 = name → y.2.2 = 0) ∧ m ≤ x.2.2 := by
    intro name m
    unfold wordElems
    rw [← List.map_reverse, List.find?_map, Option.any_map, Option.any_eq_true, ← List.filter_reverse]
    constructor
    · rintro ⟨x, hf, hk⟩
      rw [List.find?_filter, List.find?_eq_some_iff_append] at hf
      obtain ⟨hx, as, bs, hrev, hno⟩ := hf
      simp only [Function.comp, ShapeElem.title, Bool.decide_and, Bool.and_eq_true, decide_eq_true_eq, bne_iff_ne, ne_eq, beq_iff_eq] at hx
      refine ⟨bs.reverse, x, as.reverse, ?_, hx.2, hx.1, ?_, by simpa [ShapeElem.count] using hk⟩
      · have := congrArg List.reverse hrev
        simpa using this
      · intro y hy hn
        have := hno y (by simpa using hy)
        simp only [Function.comp, ShapeElem.title] at this
        by_contra h0
        simp [h0, hn] at this
    · rintro ⟨a, x, b, rfl, h1, h2, h3, h4⟩
      refine ⟨x, ?_, by simpa [ShapeElem.count] using h4⟩
      rw [List.find?_filter, List.find?_eq_some_iff_append]
      refine ⟨by simp [Function.comp, ShapeElem.title, h1, h2], b.reverse, a.reverse, by simp, ?_⟩
      intro y hy
      by_cases hn : y.1 = name
      · simp [h3 y (by simpa using hy) hn]
      · simp [ShapeElem.title, hn]
  unfold lastMeets LastAsksMost
  rw [List.all_eq_true]
  constructor
  · intro h e he hne
    have := h _ ((hmem _).mpr ⟨e, he, rfl⟩)
    rw [Bool.or_eq_true, decide_eq_true_eq] at this
    exact (hfind _ _).mp (this.resolve_left hne)
  · intro h c hc
    obtain ⟨e, he, rfl⟩ := (hmem c).mp hc
    rw [Bool.or_eq_true, decide_eq_true_eq]
    by_cases h0 : e.2.2 = 0
    · exact .inl h0
    · exact .inr ((hfind _ _).mpr (h e he h0))

theorem namedTok_word (l : List (String × UInt8 × Nat)) (hm : ∀ e ∈ l, e.2.2 < 2 ^ 63) (name : String) (ss : List Suite) :
    NamedTok [] (.mk name [wordLine l] ss) := by
  have : ∀ l : List (String × UInt8 × Nat), (∀ e ∈ l, e.2.2 < 2 ^ 63) →
      NamedConts [name] (l.map (fun e => .element e.2.2 (some e.2.2) (.value e.1 e.2.1))) := by
    intro l
    induction l with
    | nil => intro _; simp [NamedConts]
    | cons e l ih =>
      intro h
      rw [List.map_cons, NamedConts]
      exact ⟨⟨h e (by simp), by simp [NamedContent]⟩, ih (fun e he => h e (by simp [he]))⟩
  simp only [NamedTok, NamedLines, and_true, List.not_mem_nil, not_false_eq_true, true_and]
  exact this l hm

theorem wordElems_bytes (l : List (String × UInt8 × Nat)) : shapeElemsBytes (wordElems l) = spelled (l.map (·.2)) := by
  unfold wordElems
  induction l with
  | nil => rfl
  | cons e l ih =>
    rcases e with ⟨name, b, k⟩
    cases k with
    | zero => simpa [spelled] using ih
    | succ k =>
      rw [List.filter_cons_of_pos (by simp)]
      simp only [List.map_cons, shapeElemsBytes, ShapeElem.bytes, shapesBytes_replicate, spelled, ih]

/-- **C81, exactly.** An alternative of bytes, each with a name and a fixed number of occurrences, takes
the text it spells from the inputs that start with it when it asks for anything at all and the last
element of each name asks for the most; otherwise it accepts no input whatever. -/
theorem C81_exact_partial (l : List (String × UInt8 × Nat)) (hm : ∀ e ∈ l, e.2.2 < 2 ^ 63) (input : Bytes) :
    (∀ m r, Succeeds (wordGrammar l) input m r ↔
      m = spelled (l.map (·.2)) ∧ input = m ++ r ∧ (∃ e ∈ l, e.2.2 ≠ 0) ∧ LastAsksMost l) ∧
    (Rejects (wordGrammar l) input ↔
      ¬ (spelled (l.map (·.2)) <+: input ∧ (∃ e ∈ l, e.2.2 ≠ 0) ∧ LastAsksMost l)) := by
  classical
  have ha : Agrees (wordGrammar l) input (namedToken id (.mk "word" [wordLine l] []) input) :=
    named_execute (g := wordGrammar l) (sk := id) (N := 0) (fun m _ => skipIs_nil (token m)) (namedTok_word l hm "word" []) input
  have hemp : (wordElems l).isEmpty = true ↔ ¬ ∃ e ∈ l, e.2.2 ≠ 0 := by
    simp [wordElems]
  have hp : namedToken id (.mk "word" [wordLine l] []) input =
      if spelled (l.map (·.2)) <+: input ∧ (∃ e ∈ l, e.2.2 ≠ 0) ∧ LastAsksMost l then
        some (.node "word" 0 (wordElems l), input.drop (spelled (l.map (·.2))).length) else none := by
    simp only [namedToken, namedLines]
    have hline : namedLine id (wordLine l) input = (namedSeq id (wordLine l).containers input).bind
        (fun x => if x.1.isEmpty || !lastMeets (wordLine l).containers x.1 then none else some x) := by
      rw [wordLine, namedLine]
      rfl
    rw [hline, namedSeq_word]
    by_cases h1 : spelled (l.map (·.2)) <+: input
    · rw [if_pos h1]
      simp only [Option.bind_some]
      by_cases h2 : (∃ e ∈ l, e.2.2 ≠ 0) ∧ LastAsksMost l
      · have hz : ((wordElems l).isEmpty || !lastMeets (wordLine l).containers (wordElems l)) = false := by
          rw [(lastMeets_word l).mpr h2.2]
          cases hw : (wordElems l).isEmpty with
          | false => rfl
          | true => exact absurd h2.1 (hemp.mp hw)
        rw [if_pos (c := spelled _ <+: input ∧ _) ⟨h1, h2⟩, hz]
        rfl
      · have hz : ((wordElems l).isEmpty || !lastMeets (wordLine l).containers (wordElems l)) = true := by
          cases hw : (wordElems l).isEmpty with
          | true => rfl
          | false =>
            cases hl : lastMeets (wordLine l).containers (wordElems l) with
            | false => rfl
            | true =>
              refine absurd ⟨?_, (lastMeets_word l).mp hl⟩ h2
              by_contra hno
              rw [hemp.mpr hno] at hw
              exact absurd hw (by simp)
        rw [if_neg (c := spelled _ <+: input ∧ _) (fun h => h2 h.2), hz]
        rfl
    · rw [if_neg h1, if_neg (fun h => h1 h.1)]
      rfl
  rw [hp] at ha
  by_cases hc : spelled (l.map (·.2)) <+: input ∧ (∃ e ∈ l, e.2.2 ≠ 0) ∧ LastAsksMost l
  · rw [if_pos hc] at ha
    have hs : Succeeds (wordGrammar l) input (spelled (l.map (·.2))) (input.drop (spelled (l.map (·.2))).length) := by
      have := Agrees.view ha
      simp only [Option.map_some, view, Shape.bytes, wordElems_bytes] at this
      exact this
    refine ⟨fun m r => ⟨fun h => ?_, ?_⟩, ⟨fun hr => absurd hr hs.not_rejects, fun h => absurd hc h⟩⟩
    · obtain ⟨rfl, rfl⟩ := h.unique hs
      obtain ⟨⟨z, rfl⟩, h2⟩ := hc
      exact ⟨rfl, by simp, h2⟩
    · rintro ⟨rfl, rfl, _⟩
      simpa using hs
  · rw [if_neg hc] at ha
    have hr : Rejects (wordGrammar l) input := ha
    refine ⟨fun m r => ⟨fun h => absurd hr h.not_rejects, ?_⟩, ⟨fun _ => hc, fun _ => hr⟩⟩
    rintro ⟨rfl, rfl, h3⟩
    exact absurd ⟨List.prefix_append _ _, h3⟩ hc

/-- `b` once and then `a` twice, both named `n`: the last one asks for the most, so `baa` is accepted. -/
example : Succeeds (wordGrammar [("n", 98, 1), ("n", 97, 2)]) [98, 97, 97, 99] [98, 97, 97] [99] :=
  ((C81_exact_partial [("n", 98, 1), ("n", 97, 2)] (by simp) [98, 97, 97, 99]).1 _ _).mpr
    ⟨rfl, rfl, ⟨("n", 98, 1), by simp, by simp⟩, by
      intro e he _
      refine ⟨[("n", 98, 1)], ("n", 97, 2), [], rfl, ?_⟩
      rcases List.mem_cons.mp he with rfl | he
      · simp
      · rw [List.mem_singleton.mp he]; simp⟩

/-- `a` twice and then `b` once, both named `n`: no input is accepted. -/
example (input : Bytes) : Rejects (wordGrammar [("n", 97, 2), ("n", 98, 1)]) input := by
  refine (C81_exact_partial [("n", 97, 2), ("n", 98, 1)] (by simp) input).2.mpr (fun h => ?_)
  obtain ⟨a, x, b, h1, _, _, h4, h5⟩ := h.2.2 ("n", 97, 2) (by simp) (by simp)
  match a, h1 with
  | [], h1 =>
    simp only [List.nil_append, List.cons.injEq] at h1
    obtain ⟨_, rfl⟩ := h1
    exact absurd (h4 ("n", 98, 1) (by simp) rfl) (by simp)
  | [_], h1 =>
    simp only [List.cons_append, List.nil_append, List.cons.injEq] at h1
    obtain ⟨_, rfl, _⟩ := h1
    exact absurd h5 (by simp)
  | _ :: _ :: _, h1 => simp at h1

/-- Two alternatives, the first with elements of the same name: `aa b`, both named `n`, is passed over
and `a` is taken. -/
def passedOver : Grammar :=
  .mk (.mk "root" [wordLine [("n", 97, 2), ("n", 98, 1)], wordLine [("a", 97, 1)]] []) []

example : NamedTok [] passedOver.root := by
  simp [passedOver, Grammar.root, NamedTok, NamedLines, NamedLine, NamedConts, NamedCont, NamedContent, wordLine]

/-- **C161.** Parsing is not the usual ordered choice when names are shared: an alternative that matches
the whole input is passed over for a later one. -/
theorem C161_passed_over : Succeeds passedOver [97, 97, 98] [97] [97, 98] ∧
    (pegToken id passedOver.root [97, 97, 98]).map view = some ([97, 97, 98], []) := by
  refine ⟨?_, by decide +kernel⟩
  have h : Agrees passedOver [97, 97, 98] (namedToken id passedOver.root [97, 97, 98]) :=
    named_execute (g := passedOver) (sk := id) (N := 0) (fun m _ => skipIs_nil (token m))
      (by simp [passedOver, Grammar.root, NamedTok, NamedLines, NamedLine, NamedConts, NamedCont, NamedContent, wordLine]) _
  exact Agrees.view h

end Rodkina.Props
