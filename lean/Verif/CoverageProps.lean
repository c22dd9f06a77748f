import Verif.CoveragePlain
import Verif.CoverageOnce
import Verif.AstProps

/-!
# Properties of the coverage reports: C62, C89–C91
-/

namespace Rodkina.Props

open Rodkina.Ast

/-! ## Samples -/

/-- A suite whose content spells `bs`. -/
def suiteOf (valid : Bool) (bs : Bytes) : Suite := ⟨valid, ⟨"text", bs.map (fun b => (b, 1))⟩⟩

/-- `A : 'a' | 'c'`, with a suite for the first alternative. -/
def covA : Token := .mk "A" [.mk [byteC 97], .mk [byteC 99]] [suiteOf true [97]]

/-- `S : A 'b'`, with an accepted and a refused suite. -/
def covS : Token := .mk "S" [.mk [.element 1 (some 1) (.token covA), byteC 98]]
  [suiteOf true [97, 98], suiteOf false [98]]

/-- The grammar with root `S`. -/
def covG : Grammar := .mk covS []

theorem covA_below (u : Token) (h : Below covA u) : u = covA := by
  cases h with
  | refl => rfl
  | step _ w _ hc _ =>
    cases hc <;> simp_all [covA, Token.lines, byteC] <;> rename_i h1 h2 <;>
      rcases h1 with rfl | rfl <;> simp [GLine.containers] at h2

theorem covS_below (u : Token) (h : Below covS u) : u = covS ∨ u = covA := by
  cases h with
  | refl => exact .inl rfl
  | step _ w _ hc hb =>
    refine .inr (covA_below u ?_)
    cases hc with
    | token l min max hl hc =>
      simp only [covS, Token.lines, List.mem_singleton] at hl
      subst hl
      simp [GLine.containers, byteC] at hc
      rw [hc.2.2] at hb
      exact hb
    | exception l min max n esc hl hc =>
      simp only [covS, Token.lines, List.mem_singleton] at hl
      subst hl
      simp [GLine.containers, byteC] at hc
    | escape l min max n ex hl hc =>
      simp only [covS, Token.lines, List.mem_singleton] at hl
      subst hl
      simp [GLine.containers, byteC] at hc

theorem covG_level {u : Token} {chs : List Channel} (h : Level covG u chs) :
    (u = covS ∨ u = covA) ∧ chs = [] := by
  rcases h with ⟨hb, rfl⟩ | ⟨c, hc, _⟩
  · exact ⟨covS_below u hb, rfl⟩
  · simp [covG, Grammar.channels] at hc

theorem covG_all {p : GLine → Prop} (h1 : p (.mk [.element 1 (some 1) (.token covA), byteC 98]))
    (h2 : p (.mk [byteC 97])) (h3 : p (.mk [byteC 99])) : covG.All p := by
  rw [Grammar.All_iff]
  simp [covG, covS, covA, byteC, Grammar.root, Grammar.channels, Token.All, linesAll, GLine.All, containersAll,
    Container.All, Content.All] at h1 h2 h3 ⊢
  exact ⟨h1, h2, h3⟩

theorem covG_plain : covG.All plainLine := by
  apply covG_all <;> intro c hc min max k hk <;> simp [GLine.containers, byteC] at hc <;>
    subst_vars <;> simp_all
  rcases hc with ⟨rfl, rfl, rfl⟩ | ⟨rfl, rfl, rfl⟩ <;> simp

theorem covG_noEscape : covG.All (lineAllowed ⟨False, True⟩) := by
  apply covG_all <;> intro c hc <;> simp [GLine.containers, byteC] at hc <;>
    (try rcases hc with rfl | rfl) <;> subst_vars <;> simp [containerAllowed]

theorem covG_sub {k : Grammar} (h : SubGrammar covG k) : k = covG := by
  cases h with
  | refl => rfl
  | step _ x _ u chs hl he _ =>
    obtain ⟨l, hm, min, max, n, hc⟩ := he
    have := own_plain covG_plain ⟨chs, hl⟩ l hm _ hc min max _ rfl
    exact absurd rfl (this.2 n x)

theorem covG_names : NamesIdentify covG := by
  intro h hs u chs u' chs' hl hl' hn
  rw [covG_sub hs] at hl hl'
  rcases (covG_level hl).1 with rfl | rfl <;> rcases (covG_level hl').1 with rfl | rfl <;>
    simp_all [covS, covA, Token.name]

theorem covG_tokens {u : Token} {chs : List Channel} (h : TokenOf covG u chs) :
    (u = covS ∨ u = covA) ∧ chs = [] := by
  obtain ⟨k, hs, hl⟩ := h
  rw [covG_sub hs] at hl
  exact covG_level hl

theorem covG_root : TokenOf covG covS [] := ⟨covG, .refl _, .inl ⟨.refl _, rfl⟩⟩

/-- A readable part of a list of coverages: names, and which suites gave a tree. -/
def covSummary : Out (List Coverage) → Option (List (String × List Bool))
  | .ok cs => some (cs.map (fun c => (c.token.name, c.executions.map (fun e => e.result.isSome))))
  | _ => none

/-- The report, if there is one. -/
def reportOf : Out Positions → Option Positions
  | .ok r => some r
  | _ => none

theorem ok_of_summary {o : Out (List Coverage)} {s : List (String × List Bool)} (h : covSummary o = some s) :
    ∃ cs, o = .ok cs ∧ s = cs.map (fun c => (c.token.name, c.executions.map (fun e => e.result.isSome))) := by
  cases o <;> simp [covSummary] at h
  exact ⟨_, rfl, h.symm⟩

theorem ok_of_report {o : Out Positions} {r : Positions} (h : reportOf o = some r) : o = .ok r := by
  cases o <;> simp [reportOf] at h
  rw [h]

theorem covG_run : ∃ cs, coverages 4 covG = .ok cs ∧
    cs.map (fun c => (c.token.name, c.executions.map (fun e => e.result.isSome))) =
      [("A", [true]), ("S", [true, false])] := by
  obtain ⟨cs, h1, h2⟩ := ok_of_summary (o := coverages 4 covG)
    (s := [("A", [true]), ("S", [true, false])]) (by decide +kernel)
  exact ⟨cs, h1, h2.symm⟩

theorem covG_uncovered : uncovered 4 covG = .ok [(("A", 1, 0), "byte")] :=
  ok_of_report (by decide +kernel)

/-! ## C89: what is tested -/

/-- **C89 (what is recorded).** Each coverage is that of a token of the grammar, of one of its channels, or of
an external grammar used in it.  The token has suites, the executions are those of its suites in order, and
each result is what the parser gives for the spelled content of the suite when it starts with that token, with
the channels in force for the token. -/
theorem C89_records_suites (n : Nat) (g : Grammar) (cs : List Coverage) (h : coverages n g = .ok cs) :
    ∀ c ∈ cs, ∃ chs, TokenOf g c.token chs ∧ c.token.suites ≠ [] ∧
      RunsOf c.token chs c.token.suites c.executions :=
  fun c hc => (post_grammar n g).2.2.2 cs h c hc

example : ∃ cs, coverages 4 covG = .ok cs ∧ cs.length = 2 ∧
    ∀ c ∈ cs, RunsOf c.token [] c.token.suites c.executions := by
  obtain ⟨cs, h1, h2⟩ := covG_run
  refine ⟨cs, h1, by simpa using congrArg List.length h2, ?_⟩
  intro c hc
  obtain ⟨chs, ht, _, hr⟩ := C89_records_suites 4 covG cs h1 c hc
  rw [(covG_tokens ht).2] at hr
  exact hr

/-- **C89 (nothing is left out, partial).** When no two tokens of a grammar share a name, every token with
suites is recorded: those below the root, in the channels, and in external grammars.  Missing: tokens sharing
a name (`C89_negation`), tokens that occur only in the conditions of channels. -/
theorem C89_complete_partial (n : Nat) (g : Grammar) (hn : NamesIdentify g) (cs : List Coverage)
    (h : coverages n g = .ok cs) (u : Token) (chs : List Channel) (hu : TokenOf g u chs)
    (hs : u.suites ≠ []) : ∃ c ∈ cs, c.token = u :=
  done_grammar n g hn cs h u chs hu hs

example : ∃ cs, coverages 4 covG = .ok cs ∧ ∃ c ∈ cs, c.token = covS := by
  obtain ⟨cs, h1, _⟩ := covG_run
  exact ⟨cs, h1, C89_complete_partial 4 covG covG_names cs h1 covS [] covG_root (by simp [covS, Token.suites])⟩

theorem covG_noExternal : covG.All (lineAllowed ⟨True, False⟩) := by
  apply covG_all <;> intro c hc <;> simp [GLine.containers, byteC] at hc <;>
    (try rcases hc with rfl | rfl) <;> subst_vars <;> simp [containerAllowed]

/-- **C89 (no suite is run twice, partial).** In a grammar without external grammars no two coverages are of
tokens with the same name.  Missing: an external grammar used twice is tested twice. -/
theorem C89_once_partial (n : Nat) (g : Grammar) (hg : g.All (lineAllowed ⟨True, False⟩)) (cs : List Coverage)
    (h : coverages n g = .ok cs) : (cs.map (fun c => c.token.name)).Nodup :=
  coverages_nodup n g hg cs h

example : ∃ cs, coverages 4 covG = .ok cs ∧ (cs.map (fun c => c.token.name)).Nodup := by
  obtain ⟨cs, h1, _⟩ := covG_run
  exact ⟨cs, h1, C89_once_partial 4 covG covG_noExternal cs h1⟩

/-- `S : A A` where the two tokens called `A` differ: `'a'` without suites and `'c'` with a suite. -/
def covSame : Grammar := .mk (.mk "S" [.mk [.element 1 (some 1) (.token (.mk "A" [.mk [byteC 97]] [])),
  .element 1 (some 1) (.token covA)]] []) []

/-- `S : 'a'` with a channel that only applies before `A`. -/
def covCondition : Grammar := .mk (.mk "S" [.mk [byteC 97]] [suiteOf true [97]])
  [.mk (.mk "space" [.mk [byteC 32]] []) none (some covA)]

/-- **C89 is false** for tokens that share their name with a token met earlier, and for tokens of conditions:
their suites are not run, nothing is reported about them. -/
theorem C89_negation :
    (TokenOf covSame covA [] ∧ covA.suites ≠ [] ∧ ∀ n, coverages n covSame = .ok []) ∧
    (∃ cs, coverages 4 covCondition = .ok cs ∧ ∀ c ∈ cs, c.token.name ≠ covA.name) := by
  refine ⟨⟨?_, by simp [covA, Token.suites], fun n => rfl⟩, ?_⟩
  · refine ⟨covSame, .refl _, .inl ⟨.step _ _ _ (.token _ covA _ 1 (some 1) (List.mem_singleton.mpr rfl) ?_)
      (.refl _), rfl⟩⟩
    simp [GLine.containers]
  · obtain ⟨cs, h1, h2⟩ := ok_of_summary (o := coverages 4 covCondition) (s := [("S", [true])])
      (by decide +kernel)
    refine ⟨cs, h1, ?_⟩
    intro c hc hn
    have : (c.token.name, c.executions.map (fun e => e.result.isSome)) ∈ [("S", [true])] := by
      rw [h2]
      exact List.mem_map_of_mem hc
    rw [hn] at this
    simp [covA, Token.name] at this

/-! ## C90: errors -/

/-- No token with suites is used under two different lists of channels. -/
def OneContext (g : Grammar) : Prop :=
  ∀ u chs chs', TokenOf g u chs → TokenOf g u chs' → u.suites ≠ [] → chs = chs'

theorem runsOf_error {u : Token} {chs : List Channel} {ss : List Suite} {es : List Execution}
    (h : RunsOf u chs ss es) : es.any Execution.isError = true ↔
      ∃ s ∈ ss, Parses (.mk u chs) (composeCompose s.content) .err := by
  induction h with
  | nil => simp
  | cons s ss e es hr _ ih =>
    have hone : e.isError = true ↔ Parses (.mk u chs) (composeCompose s.content) .err := by
      obtain ⟨_, n, hn⟩ := hr
      cases hres : e.result with
      | none =>
        rw [hres] at hn
        simp only [Execution.isError, hres, Option.isNone_none, true_iff]
        exact ⟨trivial, n, hn⟩
      | some t =>
        rw [hres] at hn
        simp only [Execution.isError, hres, Option.isNone_some, Bool.false_eq_true, false_iff]
        intro hp
        have : Parses (.mk u chs) (composeCompose s.content) (.ok t) := ⟨trivial, n, hn⟩
        exact absurd (hp.unique this) (by simp)
    simp only [List.any_cons, Bool.or_eq_true, ih, hone, List.mem_cons, exists_eq_or_imp]

/-- **C90 (partial).** When no two tokens of a grammar share a name or are used under different channels, the
coverages contain an error exactly when the parser returns an error for the content of some suite, whether
the suite is marked valid or not.  Missing: the marks of the suites (`C90_negation`). -/
theorem C90_contains_error_partial (n : Nat) (g : Grammar) (hn : NamesIdentify g) (ho : OneContext g)
    (cs : List Coverage) (h : coverages n g = .ok cs) :
    containsError cs = true ↔ ∃ u chs, TokenOf g u chs ∧
      ∃ s ∈ u.suites, Parses (.mk u chs) (composeCompose s.content) .err := by
  unfold containsError
  rw [List.any_eq_true]
  constructor
  · rintro ⟨c, hc, he⟩
    obtain ⟨chs, ht, _, hr⟩ := C89_records_suites n g cs h c hc
    obtain ⟨s, hs, hp⟩ := (runsOf_error hr).mp he
    exact ⟨c.token, chs, ht, s, hs, hp⟩
  · rintro ⟨u, chs, ht, s, hs, hp⟩
    have hne : u.suites ≠ [] := List.ne_nil_of_mem hs
    obtain ⟨c, hc, rfl⟩ := C89_complete_partial n g hn cs h u chs ht hne
    obtain ⟨chs', ht', _, hr⟩ := C89_records_suites n g cs h c hc
    rw [ho _ _ _ ht' ht hne] at hr
    exact ⟨c, hc, (runsOf_error hr).mpr ⟨s, hs, hp⟩⟩

theorem covG_oneContext : OneContext covG := by
  intro u chs chs' h h' _
  rw [(covG_tokens h).2, (covG_tokens h').2]

example : ∃ cs, coverages 4 covG = .ok cs ∧ containsError cs = true := by
  obtain ⟨cs, h1, _⟩ := covG_run
  refine ⟨cs, h1, (C90_contains_error_partial 4 covG covG_names covG_oneContext cs h1).mpr ?_⟩
  exact ⟨covS, [], covG_root, suiteOf false [98], by simp [covS, Token.suites],
    parses_of_failed (n := 4) (by decide +kernel)⟩

/-- The suite behaves as marked: its content is accepted to the last byte exactly when it is marked valid. -/
def AsMarked (u : Token) (chs : List Channel) (s : Suite) : Prop :=
  s.isValid = true ↔ ∃ t, Parses (.mk u chs) (composeCompose s.content) (.ok t) ∧ t.isSuccessful = true ∧
    t.remaining = []

/-- `S : 'a'` with the suite `ab`, wrongly marked valid. -/
def covRest : Grammar := .mk (.mk "S" [.mk [byteC 97]] [suiteOf true [97, 98]]) []

/-- **C90 is false** for the marks: `covG` has an error although all its suites behave as marked (the suite
that is refused is marked invalid), and `covRest` has none although its suite does not. -/
theorem C90_negation :
    (∃ cs, coverages 4 covG = .ok cs ∧ containsError cs = true ∧
      ∀ u chs, TokenOf covG u chs → ∀ s ∈ u.suites, AsMarked u chs s) ∧
    (∃ cs, coverages 4 covRest = .ok cs ∧ containsError cs = false ∧
      ∃ u chs, TokenOf covRest u chs ∧ ∃ s ∈ u.suites, ¬ AsMarked u chs s) := by
  constructor
  · obtain ⟨cs, h1, _⟩ := covG_run
    have hf : Parses (.mk covS []) (composeCompose (suiteOf false [98]).content) .err :=
      parses_of_failed (n := 4) (by decide +kernel)
    refine ⟨cs, h1, (C90_contains_error_partial 4 covG covG_names covG_oneContext cs h1).mpr
      ⟨covS, [], covG_root, suiteOf false [98], by simp [covS, Token.suites], hf⟩, ?_⟩
    intro u chs hu s hs
    obtain ⟨hu', hchs⟩ := covG_tokens hu
    subst hchs
    rcases hu' with rfl | rfl
    · simp only [covS, Token.suites, List.mem_cons, List.not_mem_nil, or_false] at hs
      rcases hs with rfl | rfl
      · obtain ⟨t, ht, h1, _, h2⟩ : ∃ t, Parses (.mk covS []) (composeCompose (suiteOf true [97, 98]).content)
            (.ok t) ∧ t.isSuccessful = true ∧ t.bytes true = [97, 98] ∧ t.remaining = [] :=
          parses_of_report (n := 4) (by decide +kernel)
        exact ⟨fun _ => ⟨t, ht, h1, h2⟩, fun _ => rfl⟩
      · constructor
        · intro h; cases h
        · rintro ⟨t, ht, _⟩
          exact absurd (hf.unique ht) (by simp)
    · simp only [covA, Token.suites, List.mem_singleton] at hs
      subst hs
      obtain ⟨t, ht, h1, _, h2⟩ : ∃ t, Parses (.mk covA []) (composeCompose (suiteOf true [97]).content)
          (.ok t) ∧ t.isSuccessful = true ∧ t.bytes true = [97] ∧ t.remaining = [] :=
        parses_of_report (n := 4) (by decide +kernel)
      exact ⟨fun _ => ⟨t, ht, h1, h2⟩, fun _ => rfl⟩
  · obtain ⟨cs, h1, h2⟩ := ok_of_summary (o := coverages 4 covRest) (s := [("S", [true])]) (by decide +kernel)
    refine ⟨cs, h1, ?_, covRest.root, [], ⟨covRest, .refl _, .inl ⟨.refl _, rfl⟩⟩, suiteOf true [97, 98],
      by simp [covRest, Grammar.root, Token.suites], ?_⟩
    · cases hx : containsError cs with
      | false => rfl
      | true =>
        simp only [containsError, Coverage.containsError, List.any_eq_true] at hx
        obtain ⟨c, hc, e, he, hx⟩ := hx
        have hm : (c.token.name, c.executions.map (fun e => e.result.isSome)) ∈ [("S", [true])] := by
          rw [h2]
          exact List.mem_map_of_mem hc
        simp only [List.mem_singleton, Prod.mk.injEq] at hm
        have hb : e.result.isSome ∈ [true] := by
          rw [← hm.2]
          exact List.mem_map_of_mem he
        simp only [List.mem_singleton, Option.isSome_iff_ne_none] at hb
        simp only [Execution.isError, Option.isNone_iff_eq_none] at hx
        exact absurd hx hb
    · obtain ⟨t, ht, _, _, h2⟩ : ∃ t, Parses (.mk covRest.root [])
          (composeCompose (suiteOf true [97, 98]).content) (.ok t) ∧ t.isSuccessful = true ∧
          t.bytes true = [97] ∧ t.remaining = [98] := parses_of_report (n := 4) (by decide +kernel)
      intro hm
      obtain ⟨t', ht', _, hr⟩ := hm.mp rfl
      have := ht.unique ht'
      simp only [Out.ok.injEq] at this
      rw [← this, h2] at hr
      cases hr

/-! ## C62: crashes -/

/-- The contents of the suites have fewer than 2^63 bytes, as every Go slice has. -/
def SuitesFit (g : Grammar) : Prop :=
  ∀ u chs, TokenOf g u chs → ∀ s ∈ u.suites, (composeCompose s.content).length < 2 ^ 63

theorem testTree_full {n : Nat} {g : Grammar} (hf : SuitesFit g) {cs : List Coverage}
    (h : coverages n g = .ok cs) {name : String} {t : Tree} (ht : TestTree cs name t) : Full t := by
  obtain ⟨c, hc, rfl, e, he, hr⟩ := ht
  obtain ⟨chs, ht, _, hruns⟩ := C89_records_suites n g cs h c hc
  have key : ∀ ss es, RunsOf c.token chs ss es → (∀ s ∈ ss, s ∈ c.token.suites) → e ∈ es → Full t := by
    intro ss es hx
    induction hx with
    | nil => simp
    | cons s ss e' es hrun _ ih =>
      intro hs he
      simp only [List.mem_cons] at he
      rcases he with rfl | he
      · obtain ⟨_, m, hm⟩ := hrun
        rw [hr] at hm
        exact full_of_execute (hf _ _ ht s (hs s (by simp))) hm
      · exact ih (fun s hm => hs s (by simp [hm])) he
  exact key _ _ hruns (fun s hs => hs) he

/-- **C62 is false**: every grammar in which no token has suites makes `Uncovered` panic. -/
theorem C62_panics_without_suites (g : Grammar) (h : ∀ u chs, TokenOf g u chs → u.suites = []) (n : Nat) :
    uncovered n g = .panic := by
  have hp := post_grammar n g
  have hnil : coverages n g = .ok [] := by
    cases hc : coverages n g with
    | err => exact absurd hc hp.1
    | panic =>
      obtain ⟨u, chs, ht, s, hs, _⟩ := hp.2.1 hc
      rw [h u chs ht] at hs
      simp at hs
    | ok cs =>
      cases cs with
      | nil => rfl
      | cons c cs =>
        obtain ⟨chs, ht, hne, _⟩ := hp.2.2.2 _ hc c (by simp)
        exact absurd (h _ _ ht) hne
    | oof =>
      obtain ⟨u, chs, ht, s, hs, _⟩ := hp.2.2.1 hc
      rw [h u chs ht] at hs
      simp at hs
  simp [uncovered, hnil, out_bind, Out.andThen, covered]

example (n : Nat) : uncovered n covSame = .panic := rfl

theorem covBare_no_suites (u : Token) (chs : List Channel)
    (h : TokenOf (.mk (.mk "A" [.mk [byteC 97]] []) []) u chs) : u.suites = [] := by
  obtain ⟨k, hs, hl⟩ := h
  have hb : ∀ w, Below (.mk "A" [.mk [byteC 97]] []) w → w = .mk "A" [.mk [byteC 97]] [] := by
    intro w hw
    cases hw with
    | refl => rfl
    | step _ x _ hc _ =>
      cases hc <;> rename_i h1 h2 <;> simp only [Token.lines, List.mem_singleton] at h1 <;> subst h1 <;>
        simp [GLine.containers, byteC] at h2
  have hlev : ∀ w wchs, Level (.mk (.mk "A" [.mk [byteC 97]] []) []) w wchs → w = .mk "A" [.mk [byteC 97]] [] := by
    rintro w wchs (⟨h, _⟩ | ⟨c, hc, _⟩)
    · exact hb w h
    · simp [Grammar.channels] at hc
  cases hs with
  | refl =>
    rw [hlev u chs hl]
    rfl
  | step _ x _ w wchs hw he _ =>
    rw [hlev w wchs hw] at he
    obtain ⟨l, h1, min, max, n, h2⟩ := he
    simp only [Token.lines, List.mem_singleton] at h1
    subst h1
    simp [GLine.containers, byteC] at h2

example (n : Nat) : uncovered n (.mk (.mk "A" [.mk [byteC 97]] []) []) = .panic :=
  C62_panics_without_suites _ covBare_no_suites n

/-- `withEscape` with a suite for its root. -/
def covEscape : Grammar := .mk (.mk "outer" withEscape.root.lines [suiteOf true [92, 39]]) []

/-- Did the run end with a panic. -/
def panickedReport : Out Positions → Bool
  | .panic => true
  | _ => false

/-- **C62 is false** also with suites: the parser panics on a suite (property C46), and so does `Uncovered`. -/
theorem C62_negation_escape : uncovered 6 covEscape = .panic := by
  have h : panickedReport (uncovered 6 covEscape) = true := by decide +kernel
  cases hu : uncovered 6 covEscape <;> rw [hu] at h <;> simp [panickedReport] at h ⊢

/-- **C62 (partial).** For grammars without escape tokens in which no two tokens share a name and some token
has suites, `Uncovered` does not panic, and it never returns an error: it returns a report, unless the parser
runs out of fuel on some suite (endless recursion, property C45).  Missing: grammars without suites
(`C62_panics_without_suites`) and with escape tokens (`C62_negation_escape`). -/
theorem C62_no_panic_partial (g : Grammar) (he : g.All (lineAllowed ⟨False, True⟩)) (hn : NamesIdentify g)
    (hf : SuitesFit g) (u : Token) (chs : List Channel) (hu : TokenOf g u chs) (hs : u.suites ≠ [])
    (n : Nat) : (∃ r, uncovered n g = .ok r) ∨
      ∃ u chs, TokenOf g u chs ∧ ∃ s ∈ u.suites, execute n (.mk u chs) (composeCompose s.content) = .oof := by
  have hp := post_grammar n g
  cases hc : coverages n g with
  | err => exact absurd hc hp.1
  | panic =>
    obtain ⟨w, wchs, ht, s, _, m, hx⟩ := hp.2.1 hc
    exact absurd ((execute_good ⟨False, True⟩ (All_tokenOf he ht) m _).2 hx) id
  | oof => exact .inr (hp.2.2.1 hc)
  | ok cs =>
    obtain ⟨c, hcm, _⟩ := C89_complete_partial n g hn cs hc u chs hu hs
    obtain ⟨m, hm⟩ := coveredList_ok cs [] (fun name t ht => testTree_full hf hc ht)
    have hne : cs ≠ [] := List.ne_nil_of_mem hcm
    exact .inl ⟨_, by simp [uncovered, hc, out_bind, Out.andThen, covered, hne, hm]; rfl⟩

theorem covG_fit : SuitesFit covG := by
  intro u chs hu s hs
  rcases (covG_tokens hu).1 with rfl | rfl
  · simp only [covS, Token.suites, List.mem_cons, List.not_mem_nil, or_false] at hs
    rcases hs with rfl | rfl <;> decide +kernel
  · simp only [covA, Token.suites, List.mem_singleton] at hs
    subst hs
    decide +kernel

example (n : Nat) : (∃ r, uncovered n covG = .ok r) ∨ ∃ u chs, TokenOf covG u chs ∧
    ∃ s ∈ u.suites, execute n (.mk u chs) (composeCompose s.content) = .oof :=
  C62_no_panic_partial covG covG_noEscape covG_names covG_fit covS [] covG_root
    (by simp [covS, Token.suites]) n

/-! ## C91: what is reported -/

/-- The report lists exactly the elements of the grammar that no tree of a suite uses. -/
def ReportsUnused (n : Nat) (g : Grammar) : Prop :=
  ∀ r cs, uncovered n g = .ok r → coverages n g = .ok cs → ∀ p,
    (r.lookup p).isSome ↔ (∃ v, ElementAt g p v) ∧ ¬ ∃ name t, TestTree cs name t ∧ UsedAt t p

/-- **C91 (what the report is, partial).** For every grammar the report lists exactly the elements of its
tokens, of its channels and of the external grammars used in it, at whose position no element is counted in
a tree of a suite; the name beside a position is that of an element at that position.  Missing: counting
(`Counted`) goes by the position among the elements that are present and by the name of the element that
holds a tree, which is not use (`UsedAt`, see the negations). -/
theorem C91_report_partial (n : Nat) (g : Grammar) (r : Positions) (cs : List Coverage)
    (h : uncovered n g = .ok r) (hc : coverages n g = .ok cs) (p : Pos) :
    ((r.lookup p).isSome ↔ (∃ v, ElementAt g p v) ∧ ¬ ∃ name t, TestTree cs name t ∧ Counted name t p) ∧
    (∀ v, r.lookup p = some v → ElementAt g p v) := by
  simp only [uncovered, hc, out_bind, andThen_ok, Out.ok.injEq] at h
  obtain ⟨cs', rfl, m, hm, rfl⟩ := h
  have he := epost_grammar g
  rw [lookup_filter_key (findElements g []) (fun q => (m.lookup q).isNone) p]
  have hall : ((findElements g []).lookup p).isSome ↔ ∃ v, ElementAt g p v := by
    constructor
    · intro hx
      obtain ⟨v, hv⟩ := Option.isSome_iff_exists.mp hx
      rcases he.sound [] p v hv with h' | h'
      · simp at h'
      · exact ⟨v, h'⟩
    · rintro ⟨v, hv⟩
      exact he.full [] p v hv
  have hcov := covered_keys hm p
  by_cases hk : (m.lookup p).isSome
  · have : (m.lookup p).isNone = false := by simpa using hk
    simp only [this, Bool.false_eq_true, if_false]
    refine ⟨?_, by simp⟩
    simp only [Option.isSome_none, Bool.false_eq_true, false_iff, not_and]
    intro _ hn
    exact hn (hcov.mp hk)
  · have : (m.lookup p).isNone = true := by
      cases hx : m.lookup p with
      | none => rfl
      | some v => exact absurd (by rw [hx]; rfl) hk
    simp only [this, if_true]
    refine ⟨?_, ?_⟩
    · rw [hall]
      constructor
      · intro hx
        exact ⟨hx, fun hn => hk (hcov.mpr hn)⟩
      · exact fun hx => hx.1
    · intro v hv
      rcases he.sound [] p v hv with h' | h'
      · simp at h'
      · exact h'

/-- The second line of `A` has an element that no suite of `covG` counts; the report of `covG` names it. -/
example : ∃ cs, coverages 4 covG = .ok cs ∧ ElementAt covG ("A", 1, 0) "byte" ∧
    ¬ ∃ name t, TestTree cs name t ∧ Counted name t ("A", 1, 0) := by
  obtain ⟨cs, h1, _⟩ := covG_run
  have h := C91_report_partial 4 covG _ cs covG_uncovered h1 ("A", 1, 0)
  exact ⟨cs, h1, h.2 "byte" rfl, (h.1.mp rfl).2⟩

/-- A tree of a suite of a grammar without external grammars is a derivation of a token of the grammar. -/
theorem testTree_deriv {n : Nat} {g : Grammar} (hg : g.All plainLine) (hf : SuitesFit g) {cs : List Coverage}
    (h : coverages n g = .ok cs) {name : String} {t : Tree} (ht : TestTree cs name t)
    (hs : t.isSuccessful = true) : ∃ tok, tok.name = name ∧ Deriv g false tok t := by
  obtain ⟨c, hc, rfl, e, he, hr⟩ := ht
  obtain ⟨chs, ht, _, hruns⟩ := C89_records_suites n g cs h c hc
  have key : ∀ ss es, RunsOf c.token chs ss es → (∀ s ∈ ss, s ∈ c.token.suites) → e ∈ es →
      Deriv g false c.token t := by
    intro ss es hx
    induction hx with
    | nil => simp
    | cons s ss e' es hrun _ ih =>
      intro hs' he
      simp only [List.mem_cons] at he
      rcases he with rfl | he
      · obtain ⟨_, m, hm⟩ := hrun
        rw [hr] at hm
        refine ⟨⟨chs, tokenOf_plain hg ht⟩, [], chs, by simp, ?_⟩
        exact (token_just m [] c.token ⟨none, chs, false⟩ [] _ (hf _ _ ht s (hs' s (by simp))) []
          (sp_nil [])).2 t hm hs
      · exact ih (fun s hm => hs' s (by simp [hm])) he
  exact ⟨_, rfl, key _ _ hruns (fun s hs => hs) he⟩

theorem matched_isSuccessful {t : Tree} {l : TLine} (h : t.matched = some l) : t.isSuccessful = true := by
  obtain ⟨g, ⟨ls, s⟩, suf, rem⟩ := t
  simp only [Tree.matched] at h
  simp [Tree.isSuccessful, Tree.block, Block.successful, h]

/-- **C91 (partial).** For grammars without optional elements and external grammars, in which no two tokens
share a name, the report lists exactly the elements no tree of a suite uses.  Missing: optional elements and
external grammars (`C91_negation_optional`, `C91_negation_external`). -/
theorem C91_unused_partial (n : Nat) (g : Grammar) (hg : g.All plainLine) (hn : NamesIdentify g)
    (hf : SuitesFit g) : ReportsUnused n g := by
  intro r cs h hc p
  rw [(C91_report_partial n g r cs h hc p).1]
  refine and_congr_right ?_
  rintro ⟨v, u, uchs, hu, hname, gl, hl, min, max, c, hcm, _⟩
  apply not_congr
  constructor
  · rintro ⟨name, t, ht, hcount⟩
    have hs : t.isSuccessful = true := by
      cases hcount with
      | here _ _ l j c xs hm he => exact matched_isSuccessful hm
      | sub _ _ l c xs t' _ hm he ht hc => exact matched_isSuccessful hm
    obtain ⟨tok, rfl, hd⟩ := testTree_deriv hg hf hc ht hs
    exact ⟨_, t, ht, counted_used hg hcount hd (fun _ => rfl)⟩
  · rintro ⟨name, t, ht, t', hsub, hnm, l, hm, hrev, hi, _⟩
    have hs : t.isSuccessful = true := by
      cases hsub with
      | refl => exact matched_isSuccessful hm
      | step _ t1 _ l' e hm' _ _ _ => exact matched_isSuccessful hm'
    obtain ⟨tok, rfl, hd⟩ := testTree_deriv hg hf hc ht hs
    refine ⟨_, t, ht, ?_⟩
    have := used_counted hg hn hsub ⟨uchs, tokenOf_plain hg hu⟩ hl hcm (by rw [hnm, hname]) hm hrev hi hd
    rw [hname] at this
    exact this.2

/-- The sample meets the hypotheses, and its report is not empty: the second alternative of `A` is unused. -/
example : ReportsUnused 4 covG ∧ uncovered 4 covG = .ok [(("A", 1, 0), "byte")] :=
  ⟨C91_unused_partial 4 covG covG_plain covG_names covG_fit, covG_uncovered⟩

/-- A byte with its own name. -/
def namedByte (min : Nat) (name : String) (b : UInt8) : Container := .element min (some 1) (.value name b)

/-- `S : 'a'? 'b'` with the suite `b`. -/
def covOptional : Grammar :=
  .mk (.mk "S" [.mk [namedByte 0 "a" 97, namedByte 1 "b" 98]] [suiteOf true [98]]) []

/-- `S : E` where `E` is the external grammar `R : 'a'`, with the suite `a`. -/
def covExternal : Grammar :=
  .mk (.mk "S" [.mk [.element 1 (some 1) (.external "E" (.mk (.mk "R" [.mk [namedByte 1 "a" 97]] []) []))]]
    [suiteOf true [97]]) []

/-- The same byte element. -/
def sameByte : Option Container → Option Container → Bool
  | some (.element a b (.value n x)), some (.element a' b' (.value n' x')) =>
    decide (a = a' ∧ b = b' ∧ n = n' ∧ x = x')
  | _, _ => false

theorem sameByte_eq {o o' : Option Container} (h : sameByte o o' = true) : ∃ c, o = some c ∧ o' = some c := by
  unfold sameByte at h
  split at h
  · simp only [decide_eq_true_eq] at h
    obtain ⟨rfl, rfl, rfl, rfl⟩ := h
    exact ⟨_, rfl, rfl⟩
  · cases h

/-- The alternative applied at the top of the tree has a match of the given byte element. -/
def usesTop (p : Pos) (t : Tree) : Bool :=
  match t.matched with
  | some l => decide (t.grammar.name = p.1 ∧ l.isReverse = false ∧ l.index = p.2.1) &&
      l.elements.any (fun e => sameByte e.grammar l.grammar.containers[p.2.2]?)
  | none => false

theorem usesTop_used {p : Pos} {t : Tree} (h : usesTop p t = true) : UsedAt t p := by
  unfold usesTop at h
  split at h
  · rename_i l hl
    simp only [Bool.and_eq_true, decide_eq_true_eq, List.any_eq_true] at h
    obtain ⟨⟨h1, h2, h3⟩, e, he, hs⟩ := h
    obtain ⟨c, hc, hc'⟩ := sameByte_eq hs
    exact ⟨t, .refl t, h1, l, hl, h2, h3, e, he, c, hc, hc'⟩
  · cases h

/-- Some tree of a suite uses the byte element at its top. -/
def someUse (p : Pos) : Out (List Coverage) → Bool
  | .ok cs => cs.any (fun c => c.executions.any (fun e => (e.result.map (usesTop p)).getD false))
  | _ => false

theorem someUse_used {p : Pos} {o : Out (List Coverage)} (h : someUse p o = true) :
    ∃ cs, o = .ok cs ∧ ∃ name t, TestTree cs name t ∧ UsedAt t p := by
  cases o <;> simp only [someUse, Bool.false_eq_true] at h
  rename_i cs
  simp only [List.any_eq_true] at h
  obtain ⟨c, hc, e, he, h⟩ := h
  cases hr : e.result with
  | none => rw [hr] at h; simp at h
  | some t =>
    rw [hr] at h
    exact ⟨cs, rfl, _, t, ⟨c, hc, rfl, e, he, hr⟩, usesTop_used (by simpa using h)⟩

/-- **C91 is false** with optional elements: for `S : 'a'? 'b'` and the accepted suite `b`, the report lists
`b`, which is used, and does not list `a`, which is not. -/
theorem C91_negation_optional : uncovered 4 covOptional = .ok [(("S", 0, 1), "b")] ∧
    ¬ ReportsUnused 4 covOptional := by
  have hu : uncovered 4 covOptional = .ok [(("S", 0, 1), "b")] := ok_of_report (by decide +kernel)
  refine ⟨hu, ?_⟩
  intro h
  obtain ⟨cs, hc, hused⟩ := someUse_used (p := ("S", 0, 1)) (o := coverages 4 covOptional) (by decide +kernel)
  exact ((h _ cs hu hc ("S", 0, 1)).mp (by decide +kernel)).2 hused

/-- **C91 is false** with external grammars: the suite `a` of `S` is accepted, its only byte is matched by the
only element of `R`, yet that element is listed. -/
theorem C91_negation_external : uncovered 4 covExternal = .ok [(("R", 0, 0), "a")] :=
  ok_of_report (by decide +kernel)

end Rodkina.Props
