import Verif.CoverageSpec
import Verif.AstLemmas2

/-!
# Lemmas: which tokens are tested
-/

namespace Rodkina.Ast

theorem out_bind {α β : Type} (m : Out α) (f : α → Out β) : (m >>= f) = m.andThen f := rfl

theorem andThen_ok {α β : Type} {m : Out α} {f : α → Out β} {b : β} :
    m.andThen f = .ok b ↔ ∃ a, m = .ok a ∧ f a = .ok b := by
  cases m <;> simp [Out.andThen]

theorem andThen_err {α β : Type} {m : Out α} {f : α → Out β} :
    m.andThen f = .err ↔ m = .err ∨ ∃ a, m = .ok a ∧ f a = .err := by
  cases m <;> simp [Out.andThen]

theorem andThen_panic {α β : Type} {m : Out α} {f : α → Out β} :
    m.andThen f = .panic ↔ m = .panic ∨ ∃ a, m = .ok a ∧ f a = .panic := by
  cases m <;> simp [Out.andThen]

theorem andThen_oof {α β : Type} {m : Out α} {f : α → Out β} :
    m.andThen f = .oof ↔ m = .oof ∨ ∃ a, m = .ok a ∧ f a = .oof := by
  cases m <;> simp [Out.andThen]

theorem coverageTokenSuite_eq (n : Nat) (tok : Token) (chs : List Channel) (s : Suite) :
    coverageTokenSuite n tok chs s = (match execute n (.mk tok chs) (composeCompose s.content) with
      | .ok t => .ok ⟨s, some t⟩
      | .err => .ok ⟨s, none⟩
      | .panic => .panic
      | .oof => .oof) := rfl

theorem coverageTokenSuite_ok {n : Nat} {tok : Token} {chs : List Channel} {s : Suite} {e : Execution}
    (h : coverageTokenSuite n tok chs s = .ok e) : RunOf tok chs s e := by
  rw [coverageTokenSuite_eq] at h
  cases hx : execute n (.mk tok chs) (composeCompose s.content) <;> rw [hx] at h <;> simp at h
  all_goals
    subst h
    exact ⟨rfl, n, by simp [hx]⟩

theorem coverageTokenSuite_err {n : Nat} {tok : Token} {chs : List Channel} {s : Suite} :
    coverageTokenSuite n tok chs s ≠ .err := by
  rw [coverageTokenSuite_eq]
  cases execute n (.mk tok chs) (composeCompose s.content) <;> simp

theorem coverageTokenSuite_panic {n : Nat} {tok : Token} {chs : List Channel} {s : Suite}
    (h : coverageTokenSuite n tok chs s = .panic) :
    execute n (.mk tok chs) (composeCompose s.content) = .panic := by
  rw [coverageTokenSuite_eq] at h
  cases hx : execute n (.mk tok chs) (composeCompose s.content) <;> rw [hx] at h <;> simp at h ⊢

theorem coverageTokenSuite_oof {n : Nat} {tok : Token} {chs : List Channel} {s : Suite}
    (h : coverageTokenSuite n tok chs s = .oof) :
    execute n (.mk tok chs) (composeCompose s.content) = .oof := by
  rw [coverageTokenSuite_eq] at h
  cases hx : execute n (.mk tok chs) (composeCompose s.content) <;> rw [hx] at h <;> simp at h ⊢

theorem coverageSuites_ok {n : Nat} {tok : Token} {chs : List Channel} {ss : List Suite} :
    ∀ {es : List Execution}, coverageSuites n tok chs ss = .ok es → RunsOf tok chs ss es := by
  induction ss with
  | nil => intro es h; simp [coverageSuites] at h; subst h; exact .nil
  | cons s ss ih =>
    intro es h
    simp only [coverageSuites, out_bind, andThen_ok, Out.ok.injEq] at h
    obtain ⟨e, he, es', hes, rfl⟩ := h
    exact .cons s ss e es' (coverageTokenSuite_ok he) (ih hes)

theorem coverageSuites_err {n : Nat} {tok : Token} {chs : List Channel} {ss : List Suite} :
    coverageSuites n tok chs ss ≠ .err := by
  induction ss with
  | nil => simp [coverageSuites]
  | cons s ss ih =>
    simp [coverageSuites, out_bind, andThen_err, coverageTokenSuite_err, ih]

theorem coverageSuites_panic {n : Nat} {tok : Token} {chs : List Channel} {ss : List Suite}
    (h : coverageSuites n tok chs ss = .panic) :
    ∃ s ∈ ss, execute n (.mk tok chs) (composeCompose s.content) = .panic := by
  induction ss with
  | nil => simp [coverageSuites] at h
  | cons s ss ih =>
    simp only [coverageSuites, out_bind, andThen_panic] at h
    rcases h with h | ⟨e, he, h | ⟨es, hes, h⟩⟩
    · exact ⟨s, by simp, coverageTokenSuite_panic h⟩
    · obtain ⟨s', hs', h⟩ := ih h
      exact ⟨s', by simp [hs'], h⟩
    · simp at h

theorem coverageSuites_oof {n : Nat} {tok : Token} {chs : List Channel} {ss : List Suite}
    (h : coverageSuites n tok chs ss = .oof) :
    ∃ s ∈ ss, execute n (.mk tok chs) (composeCompose s.content) = .oof := by
  induction ss with
  | nil => simp [coverageSuites] at h
  | cons s ss ih =>
    simp only [coverageSuites, out_bind, andThen_oof] at h
    rcases h with h | ⟨e, he, h | ⟨es, hes, h⟩⟩
    · exact ⟨s, by simp, coverageTokenSuite_oof h⟩
    · obtain ⟨s', hs', h⟩ := ih h
      exact ⟨s', by simp [hs'], h⟩
    · simp at h

/-- As many executions as suites. -/
theorem RunsOf.nil_iff {u : Token} {chs : List Channel} {ss : List Suite} {es : List Execution}
    (h : RunsOf u chs ss es) : es = [] ↔ ss = [] := by
  cases h <;> simp

/-! ## Every coverage is the test of a token of the grammar -/

/-- `u` is used below `t`, or in an external grammar below `t`. -/
def InTok (t : Token) (chs : List Channel) (u : Token) (uchs : List Channel) : Prop :=
  (Below t u ∧ uchs = chs) ∨ ∃ w h, Below t w ∧ UsesExternal w h ∧ TokenOf h u uchs

theorem InTok.child {t u w : Token} {chs wchs : List Channel} (h : Child t u) (hw : InTok u chs w wchs) :
    InTok t chs w wchs := by
  rcases hw with ⟨hb, hc⟩ | ⟨x, g, hb, he, ht⟩
  · exact .inl ⟨.step _ _ _ h hb, hc⟩
  · exact .inr ⟨x, g, .step _ _ _ h hb, he, ht⟩

theorem InTok.external {t u : Token} {g : Grammar} {chs uchs : List Channel} (h : UsesExternal t g)
    (hw : TokenOf g u uchs) : InTok t chs u uchs :=
  .inr ⟨t, g, .refl t, h, hw⟩

theorem TokenOf.root {g : Grammar} {u : Token} {chs : List Channel} (h : InTok g.root g.channels u chs) :
    TokenOf g u chs := by
  rcases h with ⟨hb, rfl⟩ | ⟨w, k, hb, he, h', hs, hl⟩
  · exact ⟨g, .refl g, .inl ⟨hb, rfl⟩⟩
  · exact ⟨h', .step _ _ _ w g.channels (.inl ⟨hb, rfl⟩) he hs, hl⟩

theorem TokenOf.channel {g : Grammar} {c : Channel} (hc : c ∈ g.channels) {u : Token} {chs : List Channel}
    (h : InTok c.token [] u chs) : TokenOf g u chs := by
  rcases h with ⟨hb, rfl⟩ | ⟨w, k, hb, he, h', hs, hl⟩
  · exact ⟨g, .refl g, .inr ⟨c, hc, hb, rfl⟩⟩
  · exact ⟨h', .step _ _ _ w [] (.inr ⟨c, hc, hb, rfl⟩) he hs, hl⟩

/-- The coverage records the suites of a token satisfying `T`. -/
def TestOf (T : Token → List Channel → Prop) (c : Coverage) : Prop :=
  ∃ chs, T c.token chs ∧ c.token.suites ≠ [] ∧ RunsOf c.token chs c.token.suites c.executions

/-- The parser panics on a suite of a token satisfying `T`. -/
def SuitePanics (T : Token → List Channel → Prop) : Prop :=
  ∃ u chs, T u chs ∧ ∃ s ∈ u.suites, ∃ n, execute n (.mk u chs) (composeCompose s.content) = .panic

/-- The parser needs more fuel on a suite of a token satisfying `T`. -/
def SuiteOof (n : Nat) (T : Token → List Channel → Prop) : Prop :=
  ∃ u chs, T u chs ∧ ∃ s ∈ u.suites, execute n (.mk u chs) (composeCompose s.content) = .oof

theorem TestOf.mono {T T' : Token → List Channel → Prop} (h : ∀ u chs, T u chs → T' u chs) {c : Coverage}
    (hc : TestOf T c) : TestOf T' c := by
  obtain ⟨chs, ht, hr⟩ := hc
  exact ⟨chs, h _ _ ht, hr⟩

theorem SuitePanics.mono {T T' : Token → List Channel → Prop} (h : ∀ u chs, T u chs → T' u chs)
    (hc : SuitePanics T) : SuitePanics T' := by
  obtain ⟨u, chs, ht, hr⟩ := hc
  exact ⟨u, chs, h _ _ ht, hr⟩

theorem SuiteOof.mono {n : Nat} {T T' : Token → List Channel → Prop} (h : ∀ u chs, T u chs → T' u chs)
    (hc : SuiteOof n T) : SuiteOof n T' := by
  obtain ⟨u, chs, ht, hr⟩ := hc
  exact ⟨u, chs, h _ _ ht, hr⟩

/-- What is claimed about a partial result: no error, a panic only from the parser on a suite, and
coverages that are tests. -/
structure Post (n : Nat) (T : Token → List Channel → Prop) (res : Out (List Coverage × List String)) : Prop where
  err : res ≠ .err
  panic : res = .panic → SuitePanics T
  oof : res = .oof → SuiteOof n T
  ok : ∀ r, res = .ok r → ∀ c ∈ r.1, TestOf T c

theorem Post.nil (n : Nat) (T : Token → List Channel → Prop) (s : List String) : Post n T (.ok ([], s)) :=
  ⟨by simp, by simp, by simp, by simp⟩

theorem Post.mono {n : Nat} {T T' : Token → List Channel → Prop} (h : ∀ u chs, T u chs → T' u chs)
    {res : Out (List Coverage × List String)} (hp : Post n T res) : Post n T' res :=
  ⟨hp.err, fun hx => (hp.panic hx).mono h, fun hx => (hp.oof hx).mono h, fun r hr c hc => (hp.ok r hr c hc).mono h⟩

theorem Post.seq {n : Nat} {T : Token → List Channel → Prop} {m : Out (List Coverage × List String)}
    {f : List String → Out (List Coverage × List String)} (hm : Post n T m) (hf : ∀ s, Post n T (f s)) :
    Post n T (m >>= fun r => f r.2 >>= fun r' => .ok (r.1 ++ r'.1, r'.2)) := by
  constructor
  · simp only [out_bind, ne_eq, andThen_err]
    rintro (h | ⟨a, _, h | ⟨b, _, h⟩⟩)
    · exact hm.err h
    · exact (hf _).err h
    · simp at h
  · simp only [out_bind, andThen_panic]
    rintro (h | ⟨a, _, h | ⟨b, _, h⟩⟩)
    · exact hm.panic h
    · exact (hf _).panic h
    · simp at h
  · simp only [out_bind, andThen_oof]
    rintro (h | ⟨a, _, h | ⟨b, _, h⟩⟩)
    · exact hm.oof h
    · exact (hf _).oof h
    · simp at h
  · simp only [out_bind, andThen_ok, Out.ok.injEq]
    rintro r ⟨a, ha, b, hb, rfl⟩ c hc
    simp only [List.mem_append] at hc
    rcases hc with hc | hc
    · exact hm.ok a ha c hc
    · exact (hf _).ok b hb c hc

mutual
theorem post_token (n : Nat) (chs : List Channel) : ∀ (t : Token) (skip : List String),
    Post n (InTok t chs) (coveragesToken n chs t skip)
  | .mk name lines suites, skip => by
    rw [coveragesToken]
    split
    · exact Post.nil _ _ _
    · have ih := post_lines n chs (.mk name lines suites) lines (fun l hl => hl) (name :: skip)
      constructor
      · simp only [out_bind, ne_eq, andThen_err]
        rintro (h | ⟨a, _, h | ⟨b, _, h⟩⟩)
        · exact coverageSuites_err h
        · exact ih.err h
        · simp at h
      · simp only [out_bind, andThen_panic]
        rintro (h | ⟨a, _, h | ⟨b, _, h⟩⟩)
        · obtain ⟨s, hs, hp⟩ := coverageSuites_panic h
          exact ⟨_, chs, .inl ⟨.refl _, rfl⟩, s, hs, n, hp⟩
        · exact ih.panic h
        · simp at h
      · simp only [out_bind, andThen_oof]
        rintro (h | ⟨a, _, h | ⟨b, _, h⟩⟩)
        · obtain ⟨s, hs, hp⟩ := coverageSuites_oof h
          exact ⟨_, chs, .inl ⟨.refl _, rfl⟩, s, hs, hp⟩
        · exact ih.oof h
        · simp at h
      · simp only [out_bind, andThen_ok, Out.ok.injEq]
        rintro r ⟨es, hes, b, hb, rfl⟩ c hc
        have hr := coverageSuites_ok hes
        simp only [addCoverage] at hc
        split at hc
        · exact ih.ok b hb c hc
        · rename_i hne
          simp only [List.mem_append, List.mem_singleton] at hc
          rcases hc with hc | rfl
          · exact ih.ok b hb c hc
          · refine ⟨chs, .inl ⟨.refl _, rfl⟩, ?_, hr⟩
            intro hn
            rw [show (Token.mk name lines suites).suites = suites from rfl] at hn
            exact hne (by simp [hr.nil_iff.mpr hn])
termination_by t => (sizeOf t, 0)
decreasing_by all_goals simp_wf; (try omega)

theorem post_lines (n : Nat) (chs : List Channel) (t : Token) : ∀ (ls : List GLine),
    (∀ l ∈ ls, l ∈ t.lines) → ∀ skip, Post n (InTok t chs) (coveragesLines n chs ls skip)
  | [], _, skip => by rw [coveragesLines]; exact Post.nil _ _ _
  | .mk cs :: ls, hls, skip => by
    rw [coveragesLines]
    exact Post.seq (post_containers n chs t (.mk cs) (hls _ (by simp)) cs (fun c hc => hc) skip)
      (fun s => post_lines n chs t ls (fun l hl => hls l (by simp [hl])) s)
termination_by ls => (sizeOf ls, 0)
decreasing_by all_goals simp_wf; (try omega)

theorem post_containers (n : Nat) (chs : List Channel) (t : Token) (l : GLine) (hl : l ∈ t.lines) :
    ∀ (cs : List Container), (∀ c ∈ cs, c ∈ l.containers) → ∀ skip,
      Post n (InTok t chs) (coveragesContainers n chs cs skip)
  | [], _, skip => by rw [coveragesContainers]; exact Post.nil _ _ _
  | .compose _ :: cs, hcs, skip => by
    rw [coveragesContainers]
    exact post_containers n chs t l hl cs (fun c hc => hcs c (by simp [hc])) skip
  | .element min max c :: cs, hcs, skip => by
    rw [coveragesContainers]
    exact Post.seq (post_content n chs t l hl min max c (hcs _ (by simp)) skip)
      (fun s => post_containers n chs t l hl cs (fun c hc => hcs c (by simp [hc])) s)
termination_by cs => (sizeOf cs, 0)
decreasing_by all_goals simp_wf; (try omega)

theorem post_content (n : Nat) (chs : List Channel) (t : Token) (l : GLine) (hl : l ∈ t.lines) (min : Nat)
    (max : Option Nat) : ∀ (c : Content), .element min max c ∈ l.containers → ∀ skip,
      Post n (InTok t chs) (coveragesContent n chs c skip)
  | .external name g, hc, skip => by
    rw [coveragesContent]
    have ih := post_grammar n g
    have hu : UsesExternal t g := ⟨l, hl, min, max, name, hc⟩
    constructor
    · simp only [out_bind, ne_eq, andThen_err]
      rintro (h | ⟨a, _, h⟩)
      · exact ih.1 h
      · simp at h
    · simp only [out_bind, andThen_panic]
      rintro (h | ⟨a, _, h⟩)
      · exact (ih.2.1 h).mono (fun u uchs hx => InTok.external hu hx)
      · simp at h
    · simp only [out_bind, andThen_oof]
      rintro (h | ⟨a, _, h⟩)
      · exact (ih.2.2.1 h).mono (fun u uchs hx => InTok.external hu hx)
      · simp at h
    · simp only [out_bind, andThen_ok, Out.ok.injEq]
      rintro r ⟨a, ha, rfl⟩ c hcc
      exact (ih.2.2.2 a ha c hcc).mono (fun u uchs hx => InTok.external hu hx)
  | .token u, hc, skip => by
    rw [coveragesContent]
    exact (post_token n chs u skip).mono (fun w wchs => InTok.child (.token t u l min max hl hc))
  | .everything name ex none, hc, skip => by
    rw [coveragesContent]
    exact Post.seq
      ((post_token n chs ex skip).mono (fun w wchs => InTok.child (.exception t ex l min max name _ hl hc)))
      (fun s => by rw [coveragesOption]; exact Post.nil _ _ _)
  | .everything name ex (some esc), hc, skip => by
    rw [coveragesContent]
    exact Post.seq
      ((post_token n chs ex skip).mono (fun w wchs => InTok.child (.exception t ex l min max name _ hl hc)))
      (fun s => by
        rw [coveragesOption]
        exact (post_token n chs esc s).mono
          (fun w wchs => InTok.child (.escape t esc l min max name ex hl hc)))
  | .value _ _, _, skip => by rw [coveragesContent]; exact Post.nil _ _ _
  | .recursive _, _, skip => by rw [coveragesContent]; exact Post.nil _ _ _
termination_by c => (sizeOf c, 0)
decreasing_by all_goals simp_wf; (try omega)

theorem post_grammar (n : Nat) : ∀ (g : Grammar), coverages n g ≠ .err ∧
    (coverages n g = .panic → SuitePanics (TokenOf g)) ∧ (coverages n g = .oof → SuiteOof n (TokenOf g)) ∧
    (∀ l, coverages n g = .ok l → ∀ c ∈ l, TestOf (TokenOf g) c)
  | .mk root chs => by
    rw [coverages]
    have hr : Post n (TokenOf (.mk root chs)) (coveragesToken n chs root []) :=
      (post_token n chs root []).mono (fun u uchs h => TokenOf.root (g := .mk root chs) h)
    have hc := post_channels n (.mk root chs) chs (fun c hc => hc)
    refine ⟨?_, ?_, ?_, ?_⟩
    · simp only [out_bind, ne_eq, andThen_err]
      rintro (h | ⟨a, _, h | ⟨b, _, h⟩⟩)
      · exact hr.err h
      · exact (hc _).err h
      · simp at h
    · simp only [out_bind, andThen_panic]
      rintro (h | ⟨a, _, h | ⟨b, _, h⟩⟩)
      · exact hr.panic h
      · exact (hc _).panic h
      · simp at h
    · simp only [out_bind, andThen_oof]
      rintro (h | ⟨a, _, h | ⟨b, _, h⟩⟩)
      · exact hr.oof h
      · exact (hc _).oof h
      · simp at h
    · simp only [out_bind, andThen_ok, Out.ok.injEq]
      rintro r ⟨a, ha, b, hb, rfl⟩ c hcc
      simp only [List.mem_append] at hcc
      rcases hcc with hcc | hcc
      · exact (hc _).ok b hb c hcc
      · exact hr.ok a ha c hcc
termination_by g => (sizeOf g, 0)
decreasing_by all_goals simp_wf; (try omega)

theorem post_channels (n : Nat) (g : Grammar) : ∀ (cs : List Channel), (∀ c ∈ cs, c ∈ g.channels) → ∀ skip,
    Post n (TokenOf g) (coveragesChannels n cs skip)
  | [], _, skip => by rw [coveragesChannels]; exact Post.nil _ _ _
  | .mk t p x :: cs, hcs, skip => by
    rw [coveragesChannels]
    have hm : Channel.mk t p x ∈ g.channels := hcs _ (by simp)
    exact Post.seq ((post_token n [] t skip).mono (fun u uchs h => TokenOf.channel hm h))
      (fun s => post_channels n g cs (fun c hc => hcs c (by simp [hc])) s)
termination_by cs => (sizeOf cs, 0)
decreasing_by all_goals simp_wf; (try omega)
end

/-! ## Every token with suites is tested -/

theorem Child.sizeOf_lt {t u : Token} (h : Child t u) : sizeOf u < sizeOf t := by
  have key : ∀ (l : GLine) (c : Container), l ∈ t.lines → c ∈ l.containers → sizeOf c < sizeOf t := by
    intro l c hl hc
    have h1 := List.sizeOf_lt_of_mem hl
    have h2 := List.sizeOf_lt_of_mem hc
    cases t; cases l
    simp only [Token.lines, GLine.containers, GLine.mk.sizeOf_spec, Token.mk.sizeOf_spec] at *
    omega
  cases h with
  | token l min max hl hc =>
    have := key l _ hl hc
    simp at this; omega
  | exception l min max name esc hl hc =>
    have := key l _ hl hc
    simp at this; omega
  | escape l min max name ex hl hc =>
    have := key l _ hl hc
    simp at this; omega

/-- Some coverage is that of `u`. -/
def Has (acc : List Coverage) (u : Token) : Prop := u.suites ≠ [] → ∃ c ∈ acc, c.token = u

/-- Every token of an external grammar is tested. -/
def ExtDone (acc : List Coverage) (g : Grammar) : Prop := ∀ u chs, TokenOf g u chs → Has acc u

/-- The token and the external grammars in its lines are tested. -/
def Done (acc : List Coverage) (u : Token) : Prop := Has acc u ∧ ∀ h, UsesExternal u h → ExtDone acc h

/-- So is everything below. -/
def DoneBelow (acc : List Coverage) (t : Token) : Prop := ∀ u, Below t u → Done acc u

theorem Has.append {acc : List Coverage} {u : Token} (h : Has acc u) (l : List Coverage) : Has (acc ++ l) u := by
  intro hs
  obtain ⟨c, hc, he⟩ := h hs
  exact ⟨c, by simp [hc], he⟩

theorem Done.append {acc : List Coverage} {u : Token} (h : Done acc u) (l : List Coverage) :
    Done (acc ++ l) u := ⟨h.1.append l, fun k hk w chs hw => (h.2 k hk w chs hw).append l⟩

theorem DoneBelow.append {acc : List Coverage} {u : Token} (h : DoneBelow acc u) (l : List Coverage) :
    DoneBelow (acc ++ l) u := fun w hw => (h w hw).append l

theorem ExtDone.append {acc : List Coverage} {g : Grammar} (h : ExtDone acc g) (l : List Coverage) :
    ExtDone (acc ++ l) g := fun w chs hw => (h w chs hw).append l

/-- The tokens whose names are skipped are being visited (`path`), or done. -/
def Inv (U path : Token → Prop) (acc : List Coverage) (skip : List String) : Prop :=
  ∀ u, U u → u.name ∈ skip → path u ∨ DoneBelow acc u

/-- A set of tokens with distinct names, closed under use, whose external grammars have distinct names. -/
structure Universe (U : Token → Prop) : Prop where
  names : ∀ u u', U u → U u' → u.name = u'.name → u = u'
  child : ∀ u w, U u → Child u w → U w
  ext : ∀ u h, U u → UsesExternal u h → NamesIdentify h

/-- A content is done. -/
def ContentDone (acc : List Coverage) : Content → Prop
  | .token u => DoneBelow acc u
  | .everything _ ex esc => DoneBelow acc ex ∧ ∀ u, esc = some u → DoneBelow acc u
  | .external _ h => ExtDone acc h
  | .value _ _ => True
  | .recursive _ => True

theorem ContentDone.append {acc : List Coverage} {c : Content} (h : ContentDone acc c) (l : List Coverage) :
    ContentDone (acc ++ l) c := by
  cases c with
  | token u => exact DoneBelow.append h l
  | everything n ex esc => exact ⟨h.1.append l, fun u hu => (h.2 u hu).append l⟩
  | external n g => exact ExtDone.append h l
  | value n b => exact True.intro
  | recursive n => exact True.intro

/-- All elements of a list of containers are done. -/
def ContainersDone (acc : List Coverage) (cs : List Container) : Prop :=
  ∀ min max c, Container.element min max c ∈ cs → ContentDone acc c

/-- All lines of a list are done. -/
def LinesDone (acc : List Coverage) (ls : List GLine) : Prop := ∀ l ∈ ls, ContainersDone acc l.containers

theorem doneBelow_of_lines {acc : List Coverage} {t : Token} (h : Has acc t) (hl : LinesDone acc t.lines) :
    DoneBelow acc t := by
  intro u hu
  cases hu with
  | refl =>
    refine ⟨h, ?_⟩
    rintro g ⟨l, hm, min, max, name, hc⟩
    exact hl l hm min max _ hc
  | step _ w _ hc hb =>
    cases hc with
    | token l min max hm hc => exact hl l hm min max _ hc u hb
    | exception l min max name esc hm hc => exact (hl l hm min max _ hc).1 u hb
    | escape l min max name ex hm hc => exact (hl l hm min max _ hc).2 w rfl u hb

mutual
theorem done_token (n : Nat) (chs : List Channel) (U : Token → Prop) (hU : Universe U) :
    ∀ (t : Token) (path : Token → Prop) (skip : List String) (acc : List Coverage)
      (r : List Coverage × List String), U t → (∀ a, path a → sizeOf t < sizeOf a) →
      Inv U path acc skip → coveragesToken n chs t skip = .ok r →
      Inv U path (acc ++ r.1) r.2 ∧ DoneBelow (acc ++ r.1) t
  | .mk name lines suites, path, skip, acc, r => by
    intro hut hp hi h
    rw [coveragesToken] at h
    split at h
    · rename_i hm
      simp only [Out.ok.injEq] at h
      subst h
      simp only [List.append_nil]
      refine ⟨hi, ?_⟩
      rcases hi _ hut hm with hpa | hd
      · exact absurd (hp _ hpa) (by omega)
      · exact hd
    · simp only [out_bind, andThen_ok, Out.ok.injEq] at h
      obtain ⟨es, hes, b, hb, rfl⟩ := h
      have hr := coverageSuites_ok hes
      have hi' : Inv U (fun u => path u ∨ u = .mk name lines suites) acc (name :: skip) := by
        intro u hu hn
        simp only [List.mem_cons] at hn
        rcases hn with hn | hn
        · exact .inl (.inr (hU.names _ _ hu hut hn))
        · rcases hi u hu hn with h' | h'
          · exact .inl (.inl h')
          · exact .inr h'
      obtain ⟨h1, h2⟩ := done_lines n chs U hU (.mk name lines suites) hut lines (fun l hl => hl)
        (fun u => path u ∨ u = .mk name lines suites) (name :: skip) acc b (by
          rintro a u (ha | rfl) hc
          · exact Nat.lt_trans hc.sizeOf_lt (hp _ ha)
          · exact hc.sizeOf_lt) hi' hb
      have hd : DoneBelow (acc ++ addCoverage (.mk name lines suites) es b.1) (.mk name lines suites) := by
        simp only [addCoverage]
        split
        · rename_i hne
          apply doneBelow_of_lines
          · intro hs
            exact absurd (hr.nil_iff.mp (by simpa using hne)) hs
          · exact h2
        · rename_i hne
          rw [← List.append_assoc]
          apply doneBelow_of_lines
          · intro hs
            exact ⟨⟨.mk name lines suites, es⟩, by simp, rfl⟩
          · intro l hl min max c hc
            exact (h2 l hl min max c hc).append _
      refine ⟨?_, hd⟩
      intro u hu hn
      rcases h1 u hu hn with (h' | rfl) | h'
      · exact .inl h'
      · exact .inr hd
      · simp only [addCoverage]
        split
        · exact .inr h'
        · rw [← List.append_assoc]
          exact .inr (h'.append _)
termination_by t => (sizeOf t, 0)
decreasing_by all_goals simp_wf; (try omega)

theorem done_lines (n : Nat) (chs : List Channel) (U : Token → Prop) (hU : Universe U) (t : Token) (hut : U t) :
    ∀ (ls : List GLine), (∀ l ∈ ls, l ∈ t.lines) → ∀ (path : Token → Prop) (skip : List String)
      (acc : List Coverage) (r : List Coverage × List String),
      (∀ a u, path a → Child t u → sizeOf u < sizeOf a) →
      Inv U path acc skip → coveragesLines n chs ls skip = .ok r →
      Inv U path (acc ++ r.1) r.2 ∧ LinesDone (acc ++ r.1) ls
  | [], _, path, skip, acc, r => by
    intro _ hi h
    simp only [coveragesLines, Out.ok.injEq] at h
    subst h
    exact ⟨by simpa using hi, by simp [LinesDone]⟩
  | .mk cs :: ls, hls, path, skip, acc, r => by
    intro hp hi h
    simp only [coveragesLines, out_bind, andThen_ok, Out.ok.injEq] at h
    obtain ⟨a, ha, b, hb, rfl⟩ := h
    obtain ⟨h1, h2⟩ := done_containers n chs U hU t hut (.mk cs) (hls _ (by simp)) cs (fun c hc => hc) path
      skip acc a hp hi ha
    obtain ⟨h3, h4⟩ := done_lines n chs U hU t hut ls (fun l hl => hls l (by simp [hl])) path a.2
      (acc ++ a.1) b hp h1 hb
    simp only [← List.append_assoc]
    refine ⟨h3, ?_⟩
    intro l hl
    simp only [List.mem_cons] at hl
    rcases hl with rfl | hl
    · intro min max c hc
      exact (h2 min max c hc).append _
    · exact h4 l hl
termination_by ls => (sizeOf ls, 0)
decreasing_by all_goals simp_wf; (try omega)

theorem done_containers (n : Nat) (chs : List Channel) (U : Token → Prop) (hU : Universe U) (t : Token)
    (hut : U t) (l : GLine) (hl : l ∈ t.lines) :
    ∀ (cs : List Container), (∀ c ∈ cs, c ∈ l.containers) → ∀ (path : Token → Prop) (skip : List String)
      (acc : List Coverage) (r : List Coverage × List String),
      (∀ a u, path a → Child t u → sizeOf u < sizeOf a) →
      Inv U path acc skip → coveragesContainers n chs cs skip = .ok r →
      Inv U path (acc ++ r.1) r.2 ∧ ContainersDone (acc ++ r.1) cs
  | [], _, path, skip, acc, r => by
    intro _ hi h
    simp only [coveragesContainers, Out.ok.injEq] at h
    subst h
    exact ⟨by simpa using hi, by simp [ContainersDone]⟩
  | .compose k :: cs, hcs, path, skip, acc, r => by
    intro hp hi h
    simp only [coveragesContainers] at h
    obtain ⟨h1, h2⟩ := done_containers n chs U hU t hut l hl cs (fun c hc => hcs c (by simp [hc])) path skip
      acc r hp hi h
    refine ⟨h1, ?_⟩
    intro min max c hc
    simp only [List.mem_cons, reduceCtorEq, false_or] at hc
    exact h2 min max c hc
  | .element min max c :: cs, hcs, path, skip, acc, r => by
    intro hp hi h
    simp only [coveragesContainers, out_bind, andThen_ok, Out.ok.injEq] at h
    obtain ⟨a, ha, b, hb, rfl⟩ := h
    obtain ⟨h1, h2⟩ := done_content n chs U hU t hut l hl min max c (hcs _ (by simp)) path skip acc a hp hi ha
    obtain ⟨h3, h4⟩ := done_containers n chs U hU t hut l hl cs (fun c hc => hcs c (by simp [hc])) path a.2
      (acc ++ a.1) b hp h1 hb
    simp only [← List.append_assoc]
    refine ⟨h3, ?_⟩
    intro min' max' c' hc'
    simp only [List.mem_cons, Container.element.injEq] at hc'
    rcases hc' with ⟨rfl, rfl, rfl⟩ | hc'
    · exact h2.append _
    · exact h4 min' max' c' hc'
termination_by cs => (sizeOf cs, 0)
decreasing_by all_goals simp_wf; (try omega)

theorem done_content (n : Nat) (chs : List Channel) (U : Token → Prop) (hU : Universe U) (t : Token)
    (hut : U t) (l : GLine) (hl : l ∈ t.lines) (min : Nat) (max : Option Nat) :
    ∀ (c : Content), .element min max c ∈ l.containers → ∀ (path : Token → Prop) (skip : List String)
      (acc : List Coverage) (r : List Coverage × List String),
      (∀ a u, path a → Child t u → sizeOf u < sizeOf a) →
      Inv U path acc skip → coveragesContent n chs c skip = .ok r →
      Inv U path (acc ++ r.1) r.2 ∧ ContentDone (acc ++ r.1) c
  | .external name g, hc, path, skip, acc, r => by
    intro hp hi h
    simp only [coveragesContent, out_bind, andThen_ok, Out.ok.injEq] at h
    obtain ⟨a, ha, rfl⟩ := h
    have ih := done_grammar n g (hU.ext t g hut ⟨l, hl, min, max, name, hc⟩) a ha
    refine ⟨?_, ?_⟩
    · intro u hu hn
      rcases hi u hu hn with h' | h'
      · exact .inl h'
      · exact .inr (h'.append _)
    · intro w wchs hw hs
      obtain ⟨c, hcm, he⟩ := ih w wchs hw hs
      exact ⟨c, by simp [hcm], he⟩
  | .token u, hc, path, skip, acc, r => by
    intro hp hi h
    simp only [coveragesContent] at h
    have hch : Child t u := .token t u l min max hl hc
    exact done_token n chs U hU u path skip acc r (hU.child _ _ hut hch) (fun a ha => hp a u ha hch) hi h
  | .everything name ex none, hc, path, skip, acc, r => by
    intro hp hi h
    simp only [coveragesContent, coveragesOption, out_bind, andThen_ok, Out.ok.injEq] at h
    obtain ⟨a, ha, b, rfl, rfl⟩ := h
    have hch : Child t ex := .exception t ex l min max name _ hl hc
    have := done_token n chs U hU ex path skip acc a (hU.child _ _ hut hch) (fun a ha => hp a ex ha hch) hi ha
    simp only [List.append_nil]
    exact ⟨this.1, this.2, by simp⟩
  | .everything name ex (some esc), hc, path, skip, acc, r => by
    intro hp hi h
    simp only [coveragesContent, coveragesOption, out_bind, andThen_ok, Out.ok.injEq] at h
    obtain ⟨a, ha, b, hb, rfl⟩ := h
    have hch : Child t ex := .exception t ex l min max name _ hl hc
    have hch' : Child t esc := .escape t esc l min max name ex hl hc
    have h1 := done_token n chs U hU ex path skip acc a (hU.child _ _ hut hch) (fun a ha => hp a ex ha hch) hi ha
    have h2 := done_token n chs U hU esc path a.2 (acc ++ a.1) b (hU.child _ _ hut hch')
      (fun a ha => hp a esc ha hch') h1.1 hb
    simp only [← List.append_assoc]
    refine ⟨h2.1, h1.2.append _, ?_⟩
    intro u hu
    cases hu
    exact h2.2
  | .value _ _, _, path, skip, acc, r => by
    intro _ hi h
    simp only [coveragesContent, Out.ok.injEq] at h
    subst h
    exact ⟨by simpa using hi, True.intro⟩
  | .recursive _, _, path, skip, acc, r => by
    intro _ hi h
    simp only [coveragesContent, Out.ok.injEq] at h
    subst h
    exact ⟨by simpa using hi, True.intro⟩
termination_by c => (sizeOf c, 0)
decreasing_by all_goals simp_wf; (try omega)

theorem done_grammar (n : Nat) : ∀ (g : Grammar), NamesIdentify g → ∀ l, coverages n g = .ok l → ExtDone l g
  | .mk root chs, hg, r => by
    intro h
    simp only [coverages, out_bind, andThen_ok, Out.ok.injEq] at h
    obtain ⟨a, ha, b, hb, rfl⟩ := h
    have below : ∀ {t u w}, Below t u → Child u w → Below t w := by
      intro t u w h hc
      induction h with
      | refl t => exact .step _ _ _ hc (.refl _)
      | step t x y hx _ ih => exact .step _ _ _ hx (ih hc)
    have hU : Universe (fun u => ∃ uchs, Level (.mk root chs) u uchs) := by
      constructor
      · rintro u u' ⟨c, hu⟩ ⟨c', hu'⟩ hn
        exact hg _ (.refl _) u c u' c' hu hu' hn
      · rintro u w ⟨c, hu⟩ hc
        rcases hu with ⟨hb, rfl⟩ | ⟨k, hk, hb, rfl⟩
        · exact ⟨_, .inl ⟨below hb hc, rfl⟩⟩
        · exact ⟨_, .inr ⟨k, hk, below hb hc, rfl⟩⟩
      · rintro u h ⟨c, hu⟩ he k hk
        exact hg k (.step _ _ _ u c hu he hk)
    have h1 := done_token n chs _ hU root (fun _ => False) [] [] a
      ⟨chs, .inl ⟨.refl _, rfl⟩⟩ (by simp) (by simp [Inv]) ha
    have h2 := done_channels n _ hU chs (fun c hc => ⟨[], .inr ⟨c, hc, .refl _, rfl⟩⟩) a.2 ([] ++ a.1) b h1.1 hb
    simp only [List.nil_append] at h1 h2
    have hall : ∀ u uchs, Level (.mk root chs) u uchs → Done (a.1 ++ b.1) u := by
      rintro u uchs (⟨hb, rfl⟩ | ⟨k, hk, hb, rfl⟩)
      · exact (h1.2 u hb).append _
      · exact h2 k hk u hb
    have hswap : ∀ u, Has (a.1 ++ b.1) u → Has (b.1 ++ a.1) u := by
      intro u hx hs
      obtain ⟨c, hc, he⟩ := hx hs
      exact ⟨c, by simpa [or_comm] using hc, he⟩
    rintro u uchs ⟨k, hk, hl⟩
    apply hswap
    cases hk with
    | refl => exact (hall u uchs hl).1
    | step _ h' _ w wchs hw he hs => exact (hall w wchs hw).2 h' he u uchs ⟨k, hs, hl⟩
termination_by g => (sizeOf g, 0)
decreasing_by all_goals simp_wf; (try omega)

theorem done_channels (n : Nat) (U : Token → Prop) (hU : Universe U) : ∀ (cs : List Channel),
    (∀ c ∈ cs, U c.token) → ∀ (skip : List String) (acc : List Coverage) (r : List Coverage × List String),
      Inv U (fun _ => False) acc skip → coveragesChannels n cs skip = .ok r →
      ∀ c ∈ cs, DoneBelow (acc ++ r.1) c.token
  | [], _, skip, acc, r => by simp
  | .mk t p x :: cs, hcs, skip, acc, r => by
    intro hi h
    simp only [coveragesChannels, out_bind, andThen_ok, Out.ok.injEq] at h
    obtain ⟨a, ha, b, hb, rfl⟩ := h
    have h1 := done_token n [] U hU t (fun _ => False) skip acc a (hcs (.mk t p x) (by simp)) (by simp) hi ha
    have h2 := done_channels n U hU cs (fun c hc => hcs c (by simp [hc])) a.2 (acc ++ a.1) b h1.1 hb
    intro c hc
    simp only [List.mem_cons] at hc
    simp only [← List.append_assoc]
    rcases hc with rfl | hc
    · exact h1.2.append _
    · exact h2 c hc
termination_by cs => (sizeOf cs, 0)
decreasing_by all_goals simp_wf; (try omega)
end

end Rodkina.Ast
