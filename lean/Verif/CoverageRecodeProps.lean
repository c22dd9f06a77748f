import Verif.CoverageRecode
import Verif.CoverageProps
import Verif.AstRecodeProps

/-!
# Coverage reports only depend on which bytes and names are equal (C164)
-/

namespace Rodkina.Props

open Rodkina.Ast

/-- **C164.** Replacing the bytes and names of any grammar and of its suites, without making two different bytes or names equal,
replaces them in what `Coverages`, `Covered` and `Uncovered` return and changes nothing else: the same tokens are tested, each
suite gives the same tree with these replaced or an error as before, the same positions are covered and uncovered, and errors,
panics and recursion without end are the same. -/
theorem C164_reports_only_compare [Recoding] [Recoding.Faithful] (n : Nat) (g : Grammar) :
    coverages n g.recode = (coverages n g).map (List.map Coverage.recode) ∧
    (∀ cs, containsError (cs.map Coverage.recode) = containsError cs) ∧
    (∀ cs, covered (cs.map Coverage.recode) = (covered cs).map Positions.recode) ∧
    uncovered n g.recode = (uncovered n g).map Positions.recode ∧
    ∀ r, uncovered n g = .ok r → ∃ r', uncovered n g.recode = .ok r' ∧
      ∀ name i j, r'.lookup (Recoding.title name, i, j) = (r.lookup (name, i, j)).map Recoding.title := by
  refine ⟨coverages_recode n g, containsError_recode, covered_recode, uncovered_recode n g, fun r hr => ?_⟩
  refine ⟨Positions.recode r, by rw [uncovered_recode, hr]; rfl, fun name i j => ?_⟩
  exact Positions.recode_lookup r (name, i, j)

/-- A grammar with suites: one element is not covered, whatever the bytes and names. -/
example : letI := shifted; uncovered 4 covG.recode = .ok [(("nA", 1, 0), "nbyte")] := by
  let _ := shifted
  have := shifted_faithful
  rw [(C164_reports_only_compare 4 covG).2.2.2.1, covG_uncovered]
  rfl

/-- One name for all tokens and elements. -/
abbrev nameless : Recoding := ⟨id, fun _ => "S"⟩

/-- **C164, the condition is needed.** With one name for two tokens the suites of the inner one are not run. -/
theorem C164_injective_needed : (∃ cs, coverages 4 covG = .ok cs ∧ cs.length = 2) ∧
    (letI := nameless; ∃ cs, coverages 4 covG.recode = .ok cs ∧ cs.length = 1) := by
  constructor
  · obtain ⟨cs, h1, h2⟩ := covG_run
    exact ⟨cs, h1, by simpa using congrArg List.length h2⟩
  · let _ := nameless
    obtain ⟨cs, h1, h2⟩ := ok_of_summary (o := coverages 4 covG.recode) (s := [("S", [false, false])]) (by decide +kernel)
    exact ⟨cs, h1, by simpa using (congrArg List.length h2).symm⟩

end Rodkina.Props
