import Verif.Coverage
import Verif.AstRecode

/-!
# Coverage reports with other bytes and names
-/

namespace Rodkina.Ast

variable [Recoding]

/-- An execution (libs/asts/domain/grammars/coverages/execution.go:7-32) with bytes and names replaced. -/
def Execution.recode (e : Execution) : Execution := ⟨e.expectation.recode, e.result.map Tree.recode⟩

/-- A coverage (libs/asts/domain/grammars/coverages/coverage.go:5-30) with bytes and names replaced. -/
def Coverage.recode (c : Coverage) : Coverage := ⟨c.token.recode, c.executions.map Execution.recode⟩

/-- A position with its token name replaced (keys of the maps of libs/asts/applications/application.go:434-454). -/
def Pos.recode (p : Pos) : Pos := (Recoding.title p.1, p.2)

/-- A report with its names replaced. -/
def Positions.recode (m : Positions) : Positions := m.map (fun e => (Pos.recode e.1, Recoding.title e.2))

/-- Coverages found and names to skip, replaced. -/
def foundCoverage (r : List Coverage × List String) : List Coverage × List String :=
  (r.1.map Coverage.recode, r.2.map Recoding.title)

theorem Out.map_bind {α β γ δ : Type} {m : Out α} {m' : Out β} {f : α → β} {g : γ → δ} {k : α → Out γ} {k' : β → Out δ}
    (hm : m' = m.map f) (hk : ∀ a, k' (f a) = (k a).map g) : m' >>= k' = (m >>= k).map g := by
  subst hm
  cases m with
  | ok a => exact hk a
  | err => rfl
  | panic => rfl
  | oof => rfl

theorem Coverage.recode_containsError (c : Coverage) : c.recode.containsError = c.containsError := by
  simp only [Coverage.containsError, Coverage.recode, List.any_map]
  congr 1
  funext e
  simp [Execution.isError, Execution.recode]

theorem containsError_recode (cs : List Coverage) : containsError (cs.map Coverage.recode) = containsError cs := by
  simp only [containsError, List.any_map]
  congr 1
  funext c
  exact c.recode_containsError

theorem addCoverage_recode (t : Token) (es : List Execution) (l : List Coverage) :
    addCoverage t.recode (es.map Execution.recode) (l.map Coverage.recode) = (addCoverage t es l).map Coverage.recode := by
  unfold addCoverage
  cases es <;> simp [Coverage.recode]

variable [Recoding.Faithful]

theorem coverageTokenSuite_recode (n : Nat) (t : Token) (chs : List Channel) (s : Suite) :
    coverageTokenSuite n t.recode (chs.map Channel.recode) s.recode =
      (coverageTokenSuite n t chs s).map Execution.recode := by
  unfold coverageTokenSuite
  have := congrArg Prod.fst (rc_token n t ⟨none, chs, false⟩ [] (composeCompose s.content) [])
  rw [← composeCompose_recode] at this
  have h2 : (token n t.recode ⟨none, chs.map Channel.recode, false⟩ [] (composeCompose s.recode.content) []).1 =
    (token n t ⟨none, chs, false⟩ [] (composeCompose s.content) []).1.map Tree.recode := this
  rw [h2]
  generalize (token n t ⟨none, chs, false⟩ [] (composeCompose s.content) []).1 = o
  cases o <;> rfl

theorem coverageSuites_recode (n : Nat) (t : Token) (chs : List Channel) (ss : List Suite) :
    coverageSuites n t.recode (chs.map Channel.recode) (ss.map Suite.recode) =
      (coverageSuites n t chs ss).map (List.map Execution.recode) := by
  induction ss with
  | nil => rfl
  | cons s ss ih =>
    exact Out.map_bind (coverageTokenSuite_recode n t chs s) (fun e => Out.map_bind ih (fun es => rfl))

theorem title_mem (x : String) (l : List String) : Recoding.title x ∈ l.map Recoding.title ↔ x ∈ l :=
  List.mem_map_of_injective Recoding.Faithful.titles

mutual
theorem coveragesToken_recode (n : Nat) (chs : List Channel) : ∀ (t : Token) (skip : List String),
    coveragesToken n (chs.map Channel.recode) t.recode (skip.map Recoding.title) =
      (coveragesToken n chs t skip).map foundCoverage
  | .mk name lines suites, skip => by
    simp only [Token.recode, coveragesToken, title_mem]
    by_cases h : name ∈ skip
    · rw [if_pos h, if_pos h]; rfl
    · rw [if_neg h, if_neg h]
      refine Out.map_bind (coverageSuites_recode n (.mk name lines suites) chs suites) (fun es => ?_)
      refine Out.map_bind (coveragesLines_recode n chs lines (name :: skip)) (fun r => ?_)
      exact congrArg Out.ok (Prod.ext (addCoverage_recode (.mk name lines suites) es r.1) rfl)
termination_by structural x => x
theorem coveragesLines_recode (n : Nat) (chs : List Channel) : ∀ (ls : List GLine) (skip : List String),
    coveragesLines n (chs.map Channel.recode) (linesRecode ls) (skip.map Recoding.title) =
      (coveragesLines n chs ls skip).map foundCoverage
  | [], skip => rfl
  | .mk cs :: ls, skip => by
    simp only [linesRecode, GLine.recode, coveragesLines]
    refine Out.map_bind (coveragesContainers_recode n chs cs skip) (fun r => ?_)
    refine Out.map_bind (coveragesLines_recode n chs ls r.2) (fun r' => ?_)
    exact congrArg Out.ok (Prod.ext List.map_append.symm rfl)
termination_by structural x => x
theorem coveragesContainers_recode (n : Nat) (chs : List Channel) : ∀ (cs : List Container) (skip : List String),
    coveragesContainers n (chs.map Channel.recode) (containersRecode cs) (skip.map Recoding.title) =
      (coveragesContainers n chs cs skip).map foundCoverage
  | [], skip => rfl
  | .compose c :: cs, skip => by
    simp only [containersRecode, Container.recode, coveragesContainers]
    exact coveragesContainers_recode n chs cs skip
  | .element _ _ c :: cs, skip => by
    simp only [containersRecode, Container.recode, coveragesContainers]
    refine Out.map_bind (coveragesContent_recode n chs c skip) (fun r => ?_)
    refine Out.map_bind (coveragesContainers_recode n chs cs r.2) (fun r' => ?_)
    exact congrArg Out.ok (Prod.ext List.map_append.symm rfl)
termination_by structural x => x
theorem coveragesContent_recode (n : Nat) (chs : List Channel) : ∀ (c : Content) (skip : List String),
    coveragesContent n (chs.map Channel.recode) c.recode (skip.map Recoding.title) =
      (coveragesContent n chs c skip).map foundCoverage
  | .external _ g, skip => by
    simp only [Content.recode, coveragesContent]
    exact Out.map_bind (coverages_recode n g) (fun l => rfl)
  | .token t, skip => by
    simp only [Content.recode, coveragesContent]
    exact coveragesToken_recode n chs t skip
  | .everything _ ex esc, skip => by
    simp only [Content.recode, coveragesContent]
    refine Out.map_bind (coveragesToken_recode n chs ex skip) (fun r => ?_)
    refine Out.map_bind (coveragesOption_recode n chs esc r.2) (fun r' => ?_)
    exact congrArg Out.ok (Prod.ext List.map_append.symm rfl)
  | .value _ _, skip => rfl
  | .recursive _, skip => rfl
termination_by structural x => x
theorem coveragesOption_recode (n : Nat) (chs : List Channel) : ∀ (o : Option Token) (skip : List String),
    coveragesOption n (chs.map Channel.recode) (optionRecode o) (skip.map Recoding.title) =
      (coveragesOption n chs o skip).map foundCoverage
  | none, skip => rfl
  | some t, skip => by
    simp only [optionRecode, coveragesOption]
    exact coveragesToken_recode n chs t skip
termination_by structural x => x
theorem coverages_recode (n : Nat) : ∀ g : Grammar,
    coverages n g.recode = (coverages n g).map (List.map Coverage.recode)
  | .mk root chs => by
    simp only [Grammar.recode, coverages]
    refine Out.map_bind (f := foundCoverage) ?_ (fun r => ?_)
    · rw [channelsRecode_eq]
      exact coveragesToken_recode n chs root []
    refine Out.map_bind (coveragesChannels_recode n chs r.2) (fun r' => ?_)
    exact congrArg Out.ok List.map_append.symm
termination_by structural x => x
theorem coveragesChannels_recode (n : Nat) : ∀ (cs : List Channel) (skip : List String),
    coveragesChannels n (channelsRecode cs) (skip.map Recoding.title) =
      (coveragesChannels n cs skip).map foundCoverage
  | [], skip => rfl
  | .mk t _ _ :: cs, skip => by
    simp only [channelsRecode, Channel.recode, coveragesChannels]
    refine Out.map_bind (coveragesToken_recode n [] t skip) (fun r => ?_)
    refine Out.map_bind (coveragesChannels_recode n cs r.2) (fun r' => ?_)
    exact congrArg Out.ok (Prod.ext List.map_append.symm rfl)
termination_by structural x => x
end

/-! ## Positions -/

theorem Pos.recode_injective : Function.Injective Pos.recode := by
  rintro ⟨a, b⟩ ⟨c, d⟩ h
  simp only [Pos.recode, Prod.mk.injEq] at h
  rw [Recoding.Faithful.titles h.1, h.2]

theorem Pos.recode_beq (a b : Pos) : (Pos.recode a == Pos.recode b) = (a == b) := by
  by_cases h : a = b
  · simp [h]
  · have : Pos.recode a ≠ Pos.recode b := fun x => h (Pos.recode_injective x)
    rw [beq_eq_false_iff_ne.mpr h, beq_eq_false_iff_ne.mpr this]

theorem Positions.recode_put (m : Positions) (p : Pos) (v : String) :
    (m.recode.put (Pos.recode p) (Recoding.title v)) = Positions.recode (m.put p v) := by
  unfold Positions.put Positions.recode
  rw [List.map_cons, List.filter_map]
  congr 3
  funext e
  simp only [Function.comp, bne, Pos.recode_beq]

theorem Positions.recode_lookup (m : Positions) (p : Pos) :
    m.recode.lookup (Pos.recode p) = (m.lookup p).map Recoding.title := by
  unfold Positions.recode
  induction m with
  | nil => rfl
  | cons e m ih =>
    obtain ⟨a, v⟩ := e
    simp only [List.map_cons, List.lookup, Pos.recode_beq]
    cases p == a with
    | true => rfl
    | false => exact ih

theorem Positions.recode_add (m : Positions) (p : Pos) (v : String) :
    (m.recode.add (Pos.recode p) (Recoding.title v)) = Positions.recode (m.add p v) := by
  unfold Positions.add
  rw [Positions.recode_lookup, Option.isSome_map, Positions.recode_put]
  split <;> rfl

mutual
theorem elementsToken_recode : ∀ (t : Token) (m : Positions),
    elementsToken t.recode m.recode = Positions.recode (elementsToken t m)
  | .mk name lines _, m => by
    simp only [Token.recode, elementsToken]
    exact elementsLines_recode name 0 lines m
theorem elementsLines_recode (name : String) : ∀ (i : Nat) (ls : List GLine) (m : Positions),
    elementsLines (Recoding.title name) i (linesRecode ls) m.recode = Positions.recode (elementsLines name i ls m)
  | i, [], m => by simp only [linesRecode, elementsLines]
  | i, .mk cs :: ls, m => by
    simp only [linesRecode, GLine.recode, elementsLines]
    rw [elementsContainers_recode name i 0 cs m, elementsLines_recode name (i + 1) ls]
theorem elementsContainers_recode (name : String) (i : Nat) : ∀ (j : Nat) (cs : List Container) (m : Positions),
    elementsContainers (Recoding.title name) i j (containersRecode cs) m.recode =
      Positions.recode (elementsContainers name i j cs m)
  | j, [], m => by simp only [containersRecode, elementsContainers]
  | j, .compose _ :: cs, m => by
    simp only [containersRecode, Container.recode, elementsContainers]
    exact elementsContainers_recode name i (j + 1) cs m
  | j, .element _ _ c :: cs, m => by
    simp only [containersRecode, Container.recode, elementsContainers, Content.recode_name]
    rw [show ((Recoding.title name, i, j) : Pos) = Pos.recode (name, i, j) from rfl, Positions.recode_put,
      elementsContent_recode c, elementsContainers_recode name i (j + 1) cs]
theorem elementsContent_recode : ∀ (c : Content) (m : Positions),
    elementsContent c.recode m.recode = Positions.recode (elementsContent c m)
  | .external _ g, m => by
    simp only [Content.recode, elementsContent]
    exact findElements_recode g m
  | .token t, m => by
    simp only [Content.recode, elementsContent]
    exact elementsToken_recode t m
  | .everything _ ex esc, m => by
    simp only [Content.recode, elementsContent]
    rw [elementsToken_recode ex m, elementsOption_recode esc]
  | .value _ _, m => by simp only [Content.recode, elementsContent]
  | .recursive _, m => by simp only [Content.recode, elementsContent]
theorem elementsOption_recode : ∀ (o : Option Token) (m : Positions),
    elementsOption (optionRecode o) m.recode = Positions.recode (elementsOption o m)
  | none, m => by simp only [optionRecode, elementsOption]
  | some t, m => by
    simp only [optionRecode, elementsOption]
    exact elementsToken_recode t m
theorem findElements_recode : ∀ (g : Grammar) (m : Positions),
    findElements g.recode m.recode = Positions.recode (findElements g m)
  | .mk root chs, m => by
    simp only [Grammar.recode, findElements]
    rw [elementsToken_recode root m, elementsChannels_recode chs]
theorem elementsChannels_recode : ∀ (cs : List Channel) (m : Positions),
    elementsChannels (channelsRecode cs) m.recode = Positions.recode (elementsChannels cs m)
  | [], m => by simp only [channelsRecode, elementsChannels]
  | .mk t _ _ :: cs, m => by
    simp only [channelsRecode, Channel.recode, elementsChannels]
    rw [elementsToken_recode t m, elementsChannels_recode cs]
end

mutual
theorem coveredTree_recode (name : String) : ∀ (t : Tree) (m : Positions),
    coveredTree (Recoding.title name) t.recode m.recode = (coveredTree name t m).map Positions.recode
  | .mk _ b _ _, m => by
    simp only [Tree.recode, coveredTree]
    exact coveredBlock_recode name b m
theorem coveredBlock_recode (name : String) : ∀ (b : Block) (m : Positions),
    coveredBlock (Recoding.title name) b.recode m.recode = (coveredBlock name b m).map Positions.recode
  | .mk _ none, m => by simp only [Block.recode, coveredBlock]; rfl
  | .mk _ (some (.mk i _ _ es)), m => by
    simp only [Block.recode, TLine.recode, coveredBlock]
    cases es with
    | nil => rfl
    | cons e es =>
      have := coveredElements_recode name i 0 (e :: es) m
      simpa [telementsRecode] using this
theorem coveredElements_recode (name : String) (i : Nat) : ∀ (j : Nat) (es : List TElement) (m : Positions),
    coveredElements (Recoding.title name) i j (telementsRecode es) m.recode =
      (coveredElements name i j es m).map Positions.recode
  | j, [], m => by simp only [telementsRecode, coveredElements]; rfl
  | j, .mk none _ :: es, m => by
    simp only [telementsRecode, TElement.recode, Option.map_none, coveredElements]
    exact coveredElements_recode name i (j + 1) es m
  | j, .mk (some c) xs :: es, m => by
    simp only [telementsRecode, TElement.recode, Option.map_some, coveredElements, Container.recode_name]
    rw [show ((Recoding.title name, i, j) : Pos) = Pos.recode (name, i, j) from rfl, Positions.recode_add]
    exact Out.map_bind (coveredContents_recode c.name xs _) (fun m' => coveredElements_recode name i (j + 1) es m')
theorem coveredContents_recode (name : String) : ∀ (xs : List TContent) (m : Positions),
    coveredContents (Recoding.title name) (tcontentsRecode xs) m.recode = (coveredContents name xs m).map Positions.recode
  | [], m => by simp only [tcontentsRecode, coveredContents]; rfl
  | .value _ _ :: xs, m => by
    simp only [tcontentsRecode, TContent.recode, coveredContents]
    exact coveredContents_recode name xs m
  | .tree t :: xs, m => by
    simp only [tcontentsRecode, TContent.recode, coveredContents]
    exact Out.map_bind (coveredTree_recode name t m) (fun m' => coveredContents_recode name xs m')
end

theorem coveredExecutions_recode (name : String) (es : List Execution) (m : Positions) :
    coveredExecutions (Recoding.title name) (es.map Execution.recode) m.recode =
      (coveredExecutions name es m).map Positions.recode := by
  induction es generalizing m with
  | nil => rfl
  | cons e es ih =>
    obtain ⟨s, r⟩ := e
    cases r with
    | none => exact ih m
    | some t => exact Out.map_bind (coveredTree_recode name t m) (fun m' => ih m')

theorem coveredList_recode (cs : List Coverage) (m : Positions) :
    coveredList (cs.map Coverage.recode) m.recode = (coveredList cs m).map Positions.recode := by
  induction cs generalizing m with
  | nil => rfl
  | cons c cs ih =>
    simp only [List.map_cons, coveredList]
    refine Out.map_bind ?_ (fun m' => ih m')
    show coveredExecutions c.token.recode.name (c.executions.map Execution.recode) m.recode = _
    rw [Token.recode_name]
    exact coveredExecutions_recode _ _ _

theorem covered_recode (cs : List Coverage) : covered (cs.map Coverage.recode) = (covered cs).map Positions.recode := by
  unfold covered
  cases cs with
  | nil => rfl
  | cons c cs => exact coveredList_recode (c :: cs) []

theorem uncovered_recode (n : Nat) (g : Grammar) : uncovered n g.recode = (uncovered n g).map Positions.recode := by
  unfold uncovered
  refine Out.map_bind (coverages_recode n g) (fun cs => Out.map_bind (covered_recode cs) (fun m => congrArg Out.ok ?_))
  rw [show findElements g.recode [] = Positions.recode (findElements g []) from findElements_recode g []]
  unfold Positions.recode
  rw [List.filter_map]
  congr 2
  funext e
  have := Positions.recode_lookup m e.1
  unfold Positions.recode at this
  simp only [Function.comp, this, Option.isNone_map]

end Rodkina.Ast
