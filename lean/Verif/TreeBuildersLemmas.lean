import Verif.TreeBuildersSpec
import Verif.BuildersLemmas
import Verif.AstLemmas
/-! Lemmas about the builders of trees and of coverages. -/

namespace Rodkina.Ast
namespace TreeBuildSpec

open TreeBuild
open Build (Builder listBuilder)
open BuildSpec

theorem value_build (calls : List (Option (ValueCall))) (v : TVal) :
    valueBuilder.build calls = .ok v ↔
      some v.byte = givenPart ValueCall.content? calls ∧ v.prefix_ = (givenPart ValueCall.prefix_? calls).getD [] := by
  have h0 := field_part valueBuilder (·.content) ValueCall.content? (by intro k s; cases k <;> rfl) rfl calls
  have h1 := field_part valueBuilder (·.prefix_) ValueCall.prefix_? (by intro k s; cases k <;> rfl) rfl calls
  unfold Builder.build
  rw [← h0, ← h1]
  obtain ⟨c, p⟩ := valueBuilder.run calls
  obtain ⟨vp, vb⟩ := v
  cases c <;> cases p <;> simp [valueBuilder] <;> grind

theorem content_build (calls : List (Option (ContentCall))) (c : TContent) :
    contentBuilder.build calls = .ok c ↔
      (∃ v, c = .value v.prefix_ v.byte ∧ givenPart ContentCall.value? calls = some v) ∨
        (∃ t, c = .tree t ∧ givenPart ContentCall.value? calls = none ∧ givenPart ContentCall.tree? calls = some t) := by
  have h0 := field_part contentBuilder (·.value) ContentCall.value? (by intro k s; cases k <;> rfl) rfl calls
  have h1 := field_part contentBuilder (·.tree) ContentCall.tree? (by intro k s; cases k <;> rfl) rfl calls
  unfold Builder.build
  rw [← h0, ← h1]
  obtain ⟨v, t⟩ := contentBuilder.run calls
  cases v <;> cases t <;> simp [contentBuilder] <;> grind

theorem element_build (calls : List (Option (ElementCall))) (e : TElement) :
    elementBuilder.build calls = .ok e ↔
      some e.contents = givenPart ElementCall.contents? calls ∧ e.grammar = givenPart ElementCall.grammar? calls := by
  have h0 := field_part elementBuilder (·.grammar) ElementCall.grammar? (by intro k s; cases k <;> rfl) rfl calls
  have h1 := field_part elementBuilder (·.contents) ElementCall.contents? (by intro k s; cases k <;> rfl) rfl calls
  unfold Builder.build
  rw [← h0, ← h1]
  obtain ⟨g, l⟩ := elementBuilder.run calls
  obtain ⟨eg, el⟩ := e
  simp only [TElement.contents, TElement.grammar]
  cases g <;> cases l <;> simp [elementBuilder] <;> grind

theorem line_build (calls : List (Option (LineCall))) (l : TLine) :
    lineBuilder.build calls = .ok l ↔
      some l.index = givenPart LineCall.index? calls ∧ some l.grammar = givenPart LineCall.grammar? calls ∧
        l.isReverse = (given LineCall.isReverse? calls).getD false ∧ l.elements = (givenPart LineCall.elements? calls).getD [] := by
  have h0 := field_part lineBuilder (·.index) LineCall.index? (by intro k s; cases k <;> rfl) rfl calls
  have h1 := field_part lineBuilder (·.grammar) LineCall.grammar? (by intro k s; cases k <;> rfl) rfl calls
  have h2 : (lineBuilder.run calls).isReverse = (given LineCall.isReverse? calls).getD false :=
    field lineBuilder (·.isReverse) LineCall.isReverse? (by intro k s; cases k <;> rfl) calls
  have h3 := field_part lineBuilder (·.elements) LineCall.elements? (by intro k s; cases k <;> rfl) rfl calls
  unfold Builder.build
  rw [← h0, ← h1, ← h2, ← h3]
  obtain ⟨i, g, r, es⟩ := lineBuilder.run calls
  obtain ⟨li, lg, lr, le⟩ := l
  simp only [TLine.index, TLine.grammar, TLine.isReverse, TLine.elements]
  cases i <;> cases g <;> cases r <;> cases es <;> simp [lineBuilder] <;> grind

theorem tree_build (calls : List (Option (TreeCall))) (t : Tree) :
    treeBuilder.build calls = .ok t ↔
      some t.grammar = givenPart TreeCall.grammar? calls ∧ some t.block = givenPart TreeCall.block? calls ∧
        t.suffix = (givenPart TreeCall.suffix? calls).getD [] ∧ t.remaining = (givenPart TreeCall.remaining? calls).getD [] := by
  have h0 := field_part treeBuilder (·.grammar) TreeCall.grammar? (by intro k s; cases k <;> rfl) rfl calls
  have h1 := field_part treeBuilder (·.block) TreeCall.block? (by intro k s; cases k <;> rfl) rfl calls
  have h2 := field_part treeBuilder (·.suffix) TreeCall.suffix? (by intro k s; cases k <;> rfl) rfl calls
  have h3 := field_part treeBuilder (·.remaining) TreeCall.remaining? (by intro k s; cases k <;> rfl) rfl calls
  unfold Builder.build
  rw [← h0, ← h1, ← h2, ← h3]
  obtain ⟨g, b, s, r⟩ := treeBuilder.run calls
  obtain ⟨tg, tb, ts, tr⟩ := t
  simp only [Tree.grammar, Tree.block, Tree.suffix, Tree.remaining]
  cases g <;> cases b <;> cases s <;> rcases r with _ | ⟨_ | ⟨x, xs⟩⟩ <;> simp [treeBuilder] <;> grind

theorem result_build (calls : List (Option (ResultCall))) (r : Option Tree) :
    resultBuilder.build calls = .ok r ↔
      (∃ t, r = some t ∧ givenPart ResultCall.tree? calls = some t) ∨
        (r = none ∧ givenPart ResultCall.tree? calls = none ∧ givenName ResultCall.error? calls ≠ "") := by
  have h0 := field_part resultBuilder (·.tree) ResultCall.tree? (by intro k s; cases k <;> rfl) rfl calls
  have h1 : (resultBuilder.run calls).error = (given ResultCall.error? calls).getD "" :=
    field resultBuilder (·.error) ResultCall.error? (by intro k s; cases k <;> rfl) calls
  unfold Builder.build givenName
  rw [← h0, ← h1]
  obtain ⟨t, e⟩ := resultBuilder.run calls
  cases t <;> by_cases h_e : e = "" <;> simp [resultBuilder] <;> grind

theorem execution_build (calls : List (Option (ExecutionCall))) (e : Execution) :
    executionBuilder.build calls = .ok e ↔
      some e.expectation = givenPart ExecutionCall.expectation? calls ∧ some e.result = givenPart ExecutionCall.result? calls := by
  have h0 := field_part executionBuilder (·.expectation) ExecutionCall.expectation? (by intro k s; cases k <;> rfl) rfl calls
  have h1 := field_part executionBuilder (·.result) ExecutionCall.result? (by intro k s; cases k <;> rfl) rfl calls
  unfold Builder.build
  rw [← h0, ← h1]
  obtain ⟨x, r⟩ := executionBuilder.run calls
  obtain ⟨ex, er⟩ := e
  cases x <;> cases r <;> simp [executionBuilder] <;> grind

theorem coverage_build (calls : List (Option (CoverageCall))) (c : Coverage) :
    coverageBuilder.build calls = .ok c ↔
      some c.token = givenPart CoverageCall.token? calls ∧ some c.executions = givenPart CoverageCall.executions? calls := by
  have h0 := field_part coverageBuilder (·.token) CoverageCall.token? (by intro k s; cases k <;> rfl) rfl calls
  have h1 := field_part coverageBuilder (·.executions) CoverageCall.executions? (by intro k s; cases k <;> rfl) rfl calls
  unfold Builder.build
  rw [← h0, ← h1]
  obtain ⟨t, l⟩ := coverageBuilder.run calls
  obtain ⟨ct, cl⟩ := c
  cases t <;> cases l <;> simp [coverageBuilder] <;> grind

/-! ### Success -/

theorem lastNamed_iff (n : String) (es : List TElement) (e : TElement) : fetchElement es n = some e ↔ LastNamed n es e := by
  unfold fetchElement LastNamed TElement.key
  rw [List.find?_eq_some_iff_append]
  constructor
  · rintro ⟨h, as, bs, hr, hn⟩
    refine ⟨bs.reverse, as.reverse, ?_, by simpa using h, ?_⟩
    · have := congrArg List.reverse hr
      simpa using this
    · intro x hx
      have := hn x (by simpa using hx)
      simpa using this
  · rintro ⟨pre, post, rfl, h, hn⟩
    refine ⟨by simpa using h, post.reverse, pre.reverse, by simp, ?_⟩
    intro x hx
    have := hn x (by simpa using hx)
    simpa using this

theorem any_fetch (n : String) (es : List TElement) (p : TElement → Bool) :
    (fetchElement es n).any p = true ↔ ∃ e, LastNamed n es e ∧ p e = true := by
  cases h : fetchElement es n with
  | none =>
    simp only [Option.any_none, Bool.false_eq_true, false_iff]
    rintro ⟨e, he, _⟩
    rw [(lastNamed_iff n es e).mpr he] at h
    cases h
  | some e =>
    simp only [Option.any_some]
    constructor
    · intro hp; exact ⟨e, (lastNamed_iff n es e).mp h, hp⟩
    · rintro ⟨e', he, hp⟩
      rw [(lastNamed_iff n es e').mpr he] at h
      cases h
      exact hp

theorem elementFits_iff (e : TElement) : e.isSuccessful = true ↔ ElementFits e := by
  rcases e with ⟨_ | ⟨min, max, c⟩ | c, cs⟩
  · simp [TElement.isSuccessful, ElementFits]
  · cases max <;> simp [TElement.isSuccessful, ElementFits, withinMax]
  · exact decide_eq_true_iff

theorem asked_iff (es : List TElement) (c : Container) : containerSatisfied es c = true ↔ Asked es c := by
  cases c with
  | element min max c =>
    simp only [containerSatisfied, Asked, Bool.or_eq_true, any_fetch, decide_eq_true_eq]
    rfl
  | compose c =>
    simp only [containerSatisfied, Asked, any_fetch, decide_eq_true_eq]
    rfl

theorem succeeds_iff (l : TLine) : l.isSuccessful = true ↔ Succeeds l := by
  rcases l with ⟨i, g, rev, es⟩
  simp only [TLine.isSuccessful, Succeeds, Bool.and_eq_true, Bool.or_eq_true, List.all_eq_true, elementFits_iff, asked_iff]
  cases es <;> simp

theorem first_iff {α : Type} (p : α → Bool) (q : α → Prop) (h : ∀ x, p x = true ↔ q x) (l : List α) (o : Option α) :
    l.find? p = o ↔ First q l o := by
  cases o with
  | none => simp [First, ← h]
  | some x =>
    simp only [First, List.find?_eq_some_iff_append, ← h]
    constructor
    · rintro ⟨h1, as, bs, h2, h3⟩; exact ⟨as, bs, h2, h1, fun y hy => by simpa using h3 y hy⟩
    · rintro ⟨as, bs, h2, h1, h3⟩; exact ⟨h1, as, bs, h2, fun y hy => by simpa using h3 y hy⟩

theorem mkBlock_iff (ls : List TLine) (b : Block) : mkBlock ls = b ↔ b.lines = ls ∧ First Succeeds b.lines b.successful := by
  rcases b with ⟨bl, bs⟩
  simp only [mkBlock, Block.mk.injEq, Block.lines, Block.successful]
  constructor
  · rintro ⟨rfl, h⟩; exact ⟨rfl, (first_iff _ _ succeeds_iff _ _).mp h⟩
  · rintro ⟨rfl, h⟩; exact ⟨rfl, (first_iff _ _ succeeds_iff _ _).mpr h⟩

theorem block_build (calls : List (Option (Option (List TLine)))) (b : Block) :
    blockBuilder.build calls = .ok b ↔
      b.lines ≠ [] ∧ some b.lines = givenPart some calls ∧ First Succeeds b.lines b.successful := by
  have h := field_part blockBuilder id some (fun _ _ => rfl) rfl calls
  unfold Builder.build
  generalize blockBuilder.run calls = s at *
  rw [← h]
  rcases s with _ | _ | ⟨a, s⟩
  · simp [blockBuilder]
  · simp only [blockBuilder, id, Option.some.injEq, reduceCtorEq, false_iff]
    rintro ⟨h1, h2, _⟩
    exact h1 h2
  · simp only [blockBuilder, Res.ok.injEq, mkBlock_iff, id, Option.some.injEq]
    constructor
    · rintro ⟨h1, h2⟩; exact ⟨by simp [h1], h1, h2⟩
    · rintro ⟨_, h1, h2⟩; exact ⟨h1, h2⟩

/-! ### Built is well-formed -/

theorem getD_mem {κ β : Type} (part : κ → Option (Option (List β))) (calls : List (Option κ)) (l : List β)
    (h : l = (givenPart part calls).getD []) : l = [] ∨ ∃ k, some k ∈ calls ∧ part k = some (some l) := by
  cases hg : givenPart part calls with
  | none => left; rw [h, hg]; rfl
  | some l' =>
    right
    rw [hg] at h
    obtain ⟨k, hk, hp⟩ := givenPart_mem _ _ _ hg
    exact ⟨k, hk, by rw [h]; exact hp⟩

/-- The trees before a byte are well-formed. -/
def TValWF (v : TVal) : Prop := ∀ t ∈ v.prefix_, TreeWF t

mutual
theorem TreeBuilt.wf {t : Tree} : TreeBuilt t → TreeWF t
  | .mk t calls h hb _ hs => by
    have hbw : ∀ b, some (.withBlock (some b)) ∈ calls → BlockWF b := fun b hm => BlockBuilt.wf (hb b hm)
    have hsw : ∀ l, some (.withSuffix (some l)) ∈ calls → ∀ t ∈ l, TreeWF t := fun l hm t ht => TreeBuilt.wf (hs l hm t ht)
    obtain ⟨_, h2, h3, _⟩ := (tree_build _ _).mp h
    obtain ⟨g, b, s, r⟩ := t
    refine .mk g b s r ?_ ?_
    · obtain ⟨k, hk, hp⟩ := givenPart_mem _ _ _ h2.symm
      cases k with
      | withBlock x => injection hp with hp; exact hbw _ (hp ▸ hk)
      | _ => cases hp
    · rcases getD_mem _ _ _ h3 with h3 | ⟨k, hk, hp⟩
      · simp only [Tree.suffix] at h3; simp [h3]
      · cases k with
        | withSuffix x => injection hp with hp; exact hsw _ (hp ▸ hk)
        | _ => cases hp

theorem BlockBuilt.wf {b : Block} : BlockBuilt b → BlockWF b
  | .mk b calls h hl => by
    have hlw : ∀ l, some (some l) ∈ calls → ∀ x ∈ l, TLineWF x := fun l hm x hx => TLineBuilt.wf (hl l hm x hx)
    obtain ⟨h1, h2, h3⟩ := (block_build _ _).mp h
    obtain ⟨ls, s⟩ := b
    obtain ⟨k, hk, hp⟩ := givenPart_mem _ _ _ h2.symm
    cases hp
    exact .mk ls s h1 (hlw _ hk) h3

theorem TLineBuilt.wf {l : TLine} : TLineBuilt l → TLineWF l
  | .mk l calls h _ he => by
    have hew : ∀ es, some (.withElements (some es)) ∈ calls → ∀ e ∈ es, TElementWF e :=
      fun es hm e hx => TElementBuilt.wf (he es hm e hx)
    obtain ⟨_, _, _, h4⟩ := (line_build _ _).mp h
    obtain ⟨i, g, r, es⟩ := l
    refine .mk i g r es ?_
    rcases getD_mem _ _ _ h4 with h4 | ⟨k, hk, hp⟩
    · simp only [TLine.elements] at h4; simp [h4]
    · cases k with
      | withElements x => injection hp with hp; exact hew _ (hp ▸ hk)
      | _ => cases hp

theorem TElementBuilt.wf {e : TElement} : TElementBuilt e → TElementWF e
  | .mk e calls h hn hc => by
    have hcw : ∀ cs, some (.withContents (some cs)) ∈ calls → ∀ c ∈ cs, TContentWF c :=
      fun cs hm c hx => TContentBuilt.wf (hc cs hm c hx)
    obtain ⟨h1, _⟩ := (element_build _ _).mp h
    obtain ⟨g, cs⟩ := e
    obtain ⟨k, hk, hp⟩ := givenPart_mem _ _ _ h1.symm
    cases k with
    | withContents x =>
      injection hp with hp
      subst hp
      exact .mk g cs (listBuilt_iff.mp (hn _ hk)) (hcw _ hk)
    | _ => cases hp

theorem TContentBuilt.wf {c : TContent} : TContentBuilt c → TContentWF c
  | .mk c calls h hv ht => by
    have hvw : ∀ v, some (.withValue (some v)) ∈ calls → TValWF v := fun v hm => TValBuilt.wf (hv v hm)
    have htw : ∀ t, some (.withTree (some t)) ∈ calls → TreeWF t := fun t hm => TreeBuilt.wf (ht t hm)
    rcases (content_build _ _).mp h with ⟨v, rfl, h1⟩ | ⟨t, rfl, _, h1⟩
    · obtain ⟨k, hk, hp⟩ := givenPart_mem _ _ _ h1
      cases k with
      | withValue x => injection hp with hp; exact .value _ _ (hvw _ (hp ▸ hk))
      | _ => cases hp
    · obtain ⟨k, hk, hp⟩ := givenPart_mem _ _ _ h1
      cases k with
      | withTree x => injection hp with hp; exact .tree _ (htw _ (hp ▸ hk))
      | _ => cases hp

theorem TValBuilt.wf {v : TVal} : TValBuilt v → TValWF v
  | .mk v calls h _ hl => by
    have hlw : ∀ l, some (.withPrefix (some l)) ∈ calls → ∀ t ∈ l, TreeWF t := fun l hm t ht => TreeBuilt.wf (hl l hm t ht)
    obtain ⟨_, h2⟩ := (value_build _ _).mp h
    rcases getD_mem _ _ _ h2 with h2 | ⟨k, hk, hp⟩
    · simp [TValWF, h2]
    · cases k with
      | withPrefix x => injection hp with hp; exact hlw _ (hp ▸ hk)
      | _ => cases hp
end

theorem tval_built (p : List Tree) (b : UInt8) (h : ∀ t ∈ p, TreeBuilt t) : TValBuilt ⟨p, b⟩ := by
  cases p with
  | nil =>
    refine .mk _ [some (.withContent b)] ((value_build _ _).mpr ⟨rfl, rfl⟩) ?_ ?_
    · intro l hl; simp at hl
    · intro l hl; simp at hl
  | cons t ts =>
    refine .mk _ [some (.withContent b), some (.withPrefix (some (t :: ts)))] ((value_build _ _).mpr ⟨rfl, rfl⟩) ?_ ?_
    · intro l hl; simp at hl; subst hl; exact listBuilt_iff.mpr (by simp)
    · intro l hl; simp at hl; subst hl; exact h

mutual
theorem TreeWF.built {t : Tree} : TreeWF t → TreeBuilt t
  | .mk g b s r hb hs => by
    have hb' := BlockWF.built hb
    have hs' : ∀ t ∈ s, TreeBuilt t := fun t ht => TreeWF.built (hs t ht)
    cases s with
    | nil =>
      refine .mk _ [some (.withGrammar (some g)), some (.withBlock (some b)), some (.withRemaining (some r))]
        ((tree_build _ _).mpr ⟨rfl, rfl, rfl, rfl⟩) ?_ ?_ ?_
      · intro x hx; simp at hx; exact hx ▸ hb'
      · intro l hl; simp at hl
      · intro l hl; simp at hl
    | cons t ts =>
      refine .mk _ [some (.withGrammar (some g)), some (.withBlock (some b)), some (.withRemaining (some r)),
        some (.withSuffix (some (t :: ts)))] ((tree_build _ _).mpr ⟨rfl, rfl, rfl, rfl⟩) ?_ ?_ ?_
      · intro x hx; simp at hx; exact hx ▸ hb'
      · intro l hl; simp at hl; subst hl; exact listBuilt_iff.mpr (by simp)
      · intro l hl; simp at hl; subst hl; exact hs'

theorem BlockWF.built {b : Block} : BlockWF b → BlockBuilt b
  | .mk ls s hne hl hf => by
    have hl' : ∀ l ∈ ls, TLineBuilt l := fun l h => TLineWF.built (hl l h)
    refine .mk _ [some (some ls)] ((block_build _ _).mpr ⟨hne, rfl, hf⟩) ?_
    intro l h; simp at h; subst h; exact hl'

theorem TLineWF.built {l : TLine} : TLineWF l → TLineBuilt l
  | .mk i g r es he => by
    have he' : ∀ e ∈ es, TElementBuilt e := fun e h => TElementWF.built (he e h)
    cases es with
    | nil =>
      cases r with
      | false =>
        refine .mk _ [some (.withIndex i), some (.withGrammar (some g))] ((line_build _ _).mpr ⟨rfl, rfl, rfl, rfl⟩) ?_ ?_
        · intro x hx; simp at hx
        · intro x hx; simp at hx
      | true =>
        refine .mk _ [some (.withIndex i), some (.withGrammar (some g)), some .isReverse]
          ((line_build _ _).mpr ⟨rfl, rfl, rfl, rfl⟩) ?_ ?_
        · intro x hx; simp at hx
        · intro x hx; simp at hx
    | cons a as =>
      cases r with
      | false =>
        refine .mk _ [some (.withIndex i), some (.withGrammar (some g)), some (.withElements (some (a :: as)))]
          ((line_build _ _).mpr ⟨rfl, rfl, rfl, rfl⟩) ?_ ?_
        · intro x hx; simp at hx; subst hx; exact listBuilt_iff.mpr (by simp)
        · intro x hx; simp at hx; subst hx; exact he'
      | true =>
        refine .mk _ [some (.withIndex i), some (.withGrammar (some g)), some .isReverse, some (.withElements (some (a :: as)))]
          ((line_build _ _).mpr ⟨rfl, rfl, rfl, rfl⟩) ?_ ?_
        · intro x hx; simp at hx; subst hx; exact listBuilt_iff.mpr (by simp)
        · intro x hx; simp at hx; subst hx; exact he'

theorem TElementWF.built {e : TElement} : TElementWF e → TElementBuilt e
  | .mk g cs hne hc => by
    have hc' : ∀ c ∈ cs, TContentBuilt c := fun c h => TContentWF.built (hc c h)
    refine .mk _ [some (.withContents (some cs)), some (.withGrammar g)] ((element_build _ _).mpr ⟨rfl, ?_⟩) ?_ ?_
    · cases g <;> rfl
    · intro x hx; simp at hx; subst hx; exact listBuilt_iff.mpr hne
    · intro x hx; simp at hx; subst hx; exact hc'

theorem TContentWF.built {c : TContent} : TContentWF c → TContentBuilt c
  | .value p b h => by
    have h' : ∀ t ∈ p, TreeBuilt t := fun t ht => TreeWF.built (h t ht)
    refine .mk _ [some (.withValue (some ⟨p, b⟩))] ((content_build _ _).mpr (.inl ⟨⟨p, b⟩, rfl, rfl⟩)) ?_ ?_
    · intro x hx; simp at hx; subst hx; exact tval_built p b h'
    · intro x hx; simp at hx
  | .tree t h => by
    have h' := TreeWF.built h
    refine .mk _ [some (.withTree (some t))] ((content_build _ _).mpr (.inr ⟨t, rfl, rfl, rfl⟩)) ?_ ?_
    · intro x hx; simp at hx
    · intro x hx; simp at hx; subst hx; exact h'
end

theorem treeBuilt_iff {t : Tree} : TreeBuilt t ↔ TreeWF t := ⟨TreeBuilt.wf, TreeWF.built⟩

theorem resultBuilt_iff {r : Option Tree} : ResultBuilt r ↔ ∀ t, r = some t → TreeWF t := by
  constructor
  · rintro ⟨calls, h, ht⟩ t rfl
    rcases (result_build _ _).mp h with ⟨t', h1, h2⟩ | ⟨h1, _⟩
    · injection h1 with h1
      subst h1
      obtain ⟨k, hk, hp⟩ := givenPart_mem _ _ _ h2
      cases k with
      | withTree x => injection hp with hp; exact (ht _ (hp ▸ hk)).wf
      | _ => cases hp
    · cases h1
  · intro h
    cases r with
    | none =>
      refine ⟨[some (.withError "error")], (result_build _ _).mpr (.inr ⟨rfl, rfl, by decide⟩), ?_⟩
      intro t ht; simp at ht
    | some t =>
      refine ⟨[some (.withTree (some t))], (result_build _ _).mpr (.inl ⟨t, rfl, rfl⟩), ?_⟩
      intro x hx; simp at hx; subst hx; exact (h _ rfl).built

theorem executionBuilt_iff {e : Execution} : ExecutionBuilt e ↔ ∀ t, e.result = some t → TreeWF t := by
  rw [← resultBuilt_iff]
  constructor
  · rintro ⟨calls, h, hr⟩
    obtain ⟨_, h2⟩ := (execution_build _ _).mp h
    obtain ⟨k, hk, hp⟩ := givenPart_mem _ _ _ h2.symm
    cases k with
    | withResult x => injection hp with hp; exact hr _ (hp ▸ hk)
    | _ => cases hp
  · intro h
    refine ⟨[some (.withExpectation (some e.expectation)), some (.withResult (some e.result))],
      (execution_build _ _).mpr ⟨rfl, rfl⟩, ?_⟩
    intro x hx; simp at hx; subst hx; exact h

theorem coverageBuilt_iff {c : Coverage} : CoverageBuilt c ↔ CoverageWF c := by
  constructor
  · rintro ⟨calls, h, hl, he⟩
    obtain ⟨_, h2⟩ := (coverage_build _ _).mp h
    obtain ⟨k, hk, hp⟩ := givenPart_mem _ _ _ h2.symm
    cases k with
    | withExecutions x =>
      injection hp with hp
      subst hp
      exact ⟨listBuilt_iff.mp (hl _ hk), fun e hm => executionBuilt_iff.mp (he _ hk e hm)⟩
    | _ => cases hp
  · rintro ⟨h1, h2⟩
    refine ⟨[some (.withToken (some c.token)), some (.withExecutions (some c.executions))],
      (coverage_build _ _).mpr ⟨rfl, rfl⟩, ?_, ?_⟩
    · intro x hx; simp at hx; subst hx; exact listBuilt_iff.mpr h1
    · intro x hx; simp at hx; subst hx; exact fun e hm => executionBuilt_iff.mpr (h2 e hm)

end TreeBuildSpec
end Rodkina.Ast
