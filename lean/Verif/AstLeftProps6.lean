import Verif.AstLeftMutualRun
import Verif.AstLeftProps3

/-!
# Two rules that refer to each other at the left (C160)

What one expects of `A: B t | baseA`, `B: A u | baseB` is a start followed by as many `u t` as there are.
-/

namespace Rodkina.Props

open Rodkina.Ast Rodkina.Ast.Shipped

/-- Two rules `nA: nB t | baseA…` and `nB: nA u | baseB…` whose other parts have no reference by name, external grammar or escape and no part
named as one of the two, with channels without conditions. -/
structure MutualRules (nA nB : String) (t u : List Container) (baseA baseB : List GLine) (chs : List Channel) (N : Nat) : Prop where
  apart : nA ≠ nB
  linesA : PegLines [nA, nB] baseA
  linesB : PegLines [nB, nA] baseB
  ne : baseA ≠ []
  upper : PegConts [nA, nB] t
  lower : PegConts [nA, nB] u
  namesT : sameNames (.element 1 (some 1) (.token (lowerTok nA nB u baseB)) :: t)
  namesU : sameNames (selfRef nA :: u)
  channels : ∀ c ∈ chs, PegChannel N c

theorem mutual_agrees {nA nB : String} {t u : List Container} {baseA baseB : List GLine} {chs : List Channel} {N : Nat}
    (h : MutualRules nA nB t u baseA baseB chs N) (input : Bytes) :
    Agrees (.mk (upperTok nA nB t u baseA baseB) chs) input (upperRead (skipAll chs) nA nB t u baseA baseB input) :=
  agrees_of_found (mut_upper (mutOK (fun m hm => skipIs_channels h.channels hm) h.apart h.linesA h.linesB h.ne h.upper h.lower h.namesT h.namesU)
    (Nat.le_refl _) [] input)

/-- **C160, it ends.**  Parsing with two rules that refer to each other in their first alternatives returns for every input. -/
theorem C160_ends (nA nB : String) (t u : List Container) (baseA baseB : List GLine) (chs : List Channel) (N : Nat)
    (h : MutualRules nA nB t u baseA baseB chs N) (input : Bytes) :
    Parses (.mk (upperTok nA nB t u baseA baseB) chs) input .err ∨ ∃ x, Parses (.mk (upperTok nA nB t u baseA baseB) chs) input (.ok x) := by
  have ha := mutual_agrees h input
  cases hr : upperRead (skipAll chs) nA nB t u baseA baseB input with
  | none =>
    rw [hr] at ha
    rcases ha with ha | ⟨x, ha, _⟩
    · exact .inl ha
    · exact .inr ⟨x, ha⟩
  | some x =>
    rw [hr] at ha
    obtain ⟨x, ha, _⟩ := ha
    exact .inr ⟨x, ha⟩

/-- **C160, what is read.**  When `baseA` matches: with `u` and `t` after it, they are read, once; with `u` but no `t` after it, `baseA`
alone; without `u`, `baseB t` if that matches, else `baseA` alone.  When `baseA` does not match: `baseB t`, else the input is refused. -/
theorem C160_reads (nA nB : String) (t u : List Container) (baseA baseB : List GLine) (chs : List Channel) (N : Nat)
    (h : MutualRules nA nB t u baseA baseB chs N) (input : Bytes) :
    (∀ i es rest, pegLines (skipAll chs) 1 baseA input = some (i, es, rest) →
      (∀ eu ru et rt, pegSeq (skipAll chs) u (skipAll chs rest) = some (eu, ru) → pegSeq (skipAll chs) t (skipAll chs ru) = some (et, rt) →
        Agrees (.mk (upperTok nA nB t u baseA baseB) chs) input
          (some (.node nA 0 (.mk nB [.node nB 0 (.mk nA [.node nA i es] :: eu)] :: et), skipAll chs rt))) ∧
      (∀ eu ru, pegSeq (skipAll chs) u (skipAll chs rest) = some (eu, ru) → pegSeq (skipAll chs) t (skipAll chs ru) = none →
        Agrees (.mk (upperTok nA nB t u baseA baseB) chs) input (some (.node nA i es, skipAll chs rest))) ∧
      (pegSeq (skipAll chs) u (skipAll chs rest) = none →
        (∀ j eb rb, pegLines (skipAll chs) 1 baseB input = some (j, eb, rb) →
          (∀ et rt, pegSeq (skipAll chs) t (skipAll chs rb) = some (et, rt) →
            Agrees (.mk (upperTok nA nB t u baseA baseB) chs) input (some (.node nA 0 (.mk nB [.node nB j eb] :: et), skipAll chs rt))) ∧
          (pegSeq (skipAll chs) t (skipAll chs rb) = none →
            Agrees (.mk (upperTok nA nB t u baseA baseB) chs) input (some (.node nA i es, skipAll chs rest)))) ∧
        (pegLines (skipAll chs) 1 baseB input = none →
          Agrees (.mk (upperTok nA nB t u baseA baseB) chs) input (some (.node nA i es, skipAll chs rest))))) ∧
    (pegLines (skipAll chs) 1 baseA input = none →
      (∀ j eb rb, pegLines (skipAll chs) 1 baseB input = some (j, eb, rb) →
        (∀ et rt, pegSeq (skipAll chs) t (skipAll chs rb) = some (et, rt) →
          Agrees (.mk (upperTok nA nB t u baseA baseB) chs) input (some (.node nA 0 (.mk nB [.node nB j eb] :: et), skipAll chs rt))) ∧
        (pegSeq (skipAll chs) t (skipAll chs rb) = none → Rejects (.mk (upperTok nA nB t u baseA baseB) chs) input)) ∧
      (pegLines (skipAll chs) 1 baseB input = none → Rejects (.mk (upperTok nA nB t u baseA baseB) chs) input)) := by
  have ha := mutual_agrees h input
  refine ⟨?_, ?_⟩
  · intro i es rest hA
    refine ⟨?_, ?_, ?_⟩
    · intro eu ru et rt hu ht
      simpa [upperRead, lowerRead, pegBase, elemTail, hA, hu, ht] using ha
    · intro eu ru hu ht
      simpa [upperRead, lowerRead, pegBase, elemTail, hA, hu, ht] using ha
    · intro hu
      refine ⟨?_, ?_⟩
      · intro j eb rb hB
        refine ⟨?_, ?_⟩
        · intro et rt ht
          simpa [upperRead, lowerRead, pegBase, elemTail, hA, hu, hB, ht] using ha
        · intro ht
          simpa [upperRead, lowerRead, pegBase, elemTail, hA, hu, hB, ht] using ha
      · intro hB
        simpa [upperRead, lowerRead, pegBase, elemTail, hA, hu, hB] using ha
  · intro hA
    refine ⟨?_, ?_⟩
    · intro j eb rb hB
      refine ⟨?_, ?_⟩
      · intro et rt ht
        simpa [upperRead, lowerRead, pegBase, elemTail, hA, hB, ht] using ha
      · intro ht
        have hn : upperRead (skipAll chs) nA nB t u baseA baseB input = none := by
          simp [upperRead, lowerRead, pegBase, elemTail, hA, hB, ht]
        rw [hn] at ha
        exact ha
    · intro hB
      have hn : upperRead (skipAll chs) nA nB t u baseA baseB input = none := by
        simp [upperRead, lowerRead, pegBase, elemTail, hA, hB]
      rw [hn] at ha
      exact ha

/-- `A: B 'x' | 'y'`, `B: A 'z' | 'w'` (libs/asts/domain/grammars/grammar.go:3-46). -/
def mutualG : Grammar := .mk (upperTok "A" "B" [byteC 120] [byteC 122] [.mk [byteC 121]] [.mk [byteC 119]]) [blankCh]

theorem mutualG_rules : MutualRules "A" "B" [byteC 120] [byteC 122] [.mk [byteC 121]] [.mk [byteC 119]] [blankCh] 2 := by
  refine ⟨by decide, ?_, ?_, by simp, ?_, ?_, ?_, ?_, plusOnes_channels⟩ <;>
    simp [byteC, PegLines, PegLine, PegConts, PegCont, PegContent, sameNames, Container.min]

/-- The expected claim: a `y` followed by any number of `zx` is read whole. -/
def ReadsAllPairs : Prop := ∀ n, ∃ m, Succeeds mutualG (121 :: (List.replicate n [122, 120]).flatten) m []

/-- **C160, negation of the expected claim.**  The second pair is left. -/
theorem C160_not_all_pairs : ¬ ReadsAllPairs := by
  intro h
  obtain ⟨m, hm⟩ := h 2
  have ha := Agrees.view (mutual_agrees mutualG_rules [121, 122, 120, 122, 120])
  have he : (upperRead (skipAll [blankCh]) "A" "B" [byteC 120] [byteC 122] [.mk [byteC 121]] [.mk [byteC 119]]
      [121, 122, 120, 122, 120]).map view = some ([121, 122, 120], [122, 120]) := by decide +kernel
  rw [he] at ha
  have hm' : Succeeds mutualG [121, 122, 120, 122, 120] m [] := hm
  have := Succeeds.unique hm' ha
  exact absurd this.2 (by simp)

/-- `y z x` is read whole, `w x` too; `w` and the empty input are refused. -/
example : Succeeds mutualG [121, 32, 122, 120] [121, 122, 120] [] ∧ Succeeds mutualG [119, 120] [119, 120] [] ∧ Rejects mutualG [119] ∧
    Rejects mutualG [] := by
  have key : ∀ d, match ((upperRead (skipAll [blankCh]) "A" "B" [byteC 120] [byteC 122] [.mk [byteC 121]] [.mk [byteC 119]] d).map view) with
      | some x => Succeeds mutualG d x.1 x.2
      | none => Rejects mutualG d := fun d => Agrees.view (mutual_agrees mutualG_rules d)
  have h1 := key [121, 32, 122, 120]
  have h2 := key [119, 120]
  have h3 := key [119]
  have h4 := key []
  rw [show (upperRead (skipAll [blankCh]) "A" "B" [byteC 120] [byteC 122] [.mk [byteC 121]] [.mk [byteC 119]] [121, 32, 122, 120]).map view
    = some ([121, 122, 120], []) by decide +kernel] at h1
  rw [show (upperRead (skipAll [blankCh]) "A" "B" [byteC 120] [byteC 122] [.mk [byteC 121]] [.mk [byteC 119]] [119, 120]).map view
    = some ([119, 120], []) by decide +kernel] at h2
  rw [show (upperRead (skipAll [blankCh]) "A" "B" [byteC 120] [byteC 122] [.mk [byteC 121]] [.mk [byteC 119]] [119]).map view
    = none by decide +kernel] at h3
  rw [show (upperRead (skipAll [blankCh]) "A" "B" [byteC 120] [byteC 122] [.mk [byteC 121]] [.mk [byteC 119]] []).map view
    = none by decide +kernel] at h4
  exact ⟨h1, h2, h3, h4⟩

/-- The rules meet the hypotheses of `C160_ends` and `C160_reads`. -/
example : Parses mutualG [119] .err ∨ ∃ x, Parses mutualG [119] (.ok x) := C160_ends _ _ _ _ _ _ _ 2 mutualG_rules [119]

end Rodkina.Props
