import Verif.Ast

/-!
# Model of the coverage reports of the parser (libs/asts/applications, coverages)

`coverages` runs the suites of the tokens of a grammar, `covered` and `findElements` list positions of
elements, `uncovered` subtracts them.

Conventions.
* A nil `Coverages` is the empty list (the builder refuses an empty list).
* The nested Go maps `map[string]map[uint]map[uint]string` are one map from (token name, line index,
  element index): empty inner maps are never returned by `Covered` and `Uncovered`, and make no difference
  to the loops over them.
* `n` is the fuel of the parser (see Ast.lean).
-/

namespace Rodkina.Ast

/-- `if err != nil { return nil, err }`. -/
def Out.andThen {α β : Type} (m : Out α) (f : α → Out β) : Out β :=
  match m with
  | .ok a => f a
  | .err => .err
  | .panic => .panic
  | .oof => .oof

instance : Monad Out where
  pure := .ok
  bind := Out.andThen

/-- The execution of a suite; the result is a tree or an error (`none`).
libs/asts/domain/grammars/coverages/execution.go:7-32, libs/asts/domain/grammars/coverages/result.go:5-52. -/
structure Execution where
  expectation : Suite
  result : Option Tree

/-- The executions of the suites of a token.
libs/asts/domain/grammars/coverages/coverage.go:5-30, libs/asts/domain/grammars/coverages/executions.go:3-20. -/
structure Coverage where
  token : Token
  executions : List Execution

/-- `IsError`, libs/asts/domain/grammars/coverages/result.go:44-47. -/
def Execution.isError (e : Execution) : Bool := e.result.isNone

/-- `ContainsError` of executions: libs/asts/domain/grammars/coverages/executions.go:22-33. -/
def Coverage.containsError (c : Coverage) : Bool := c.executions.any Execution.isError

/-- `ContainsError` of coverages: libs/asts/domain/grammars/coverages/coverages.go:22-33. -/
def containsError (cs : List Coverage) : Bool := cs.any Coverage.containsError

/-- `coverageTokenSuite`, libs/asts/applications/application.go:317-343.  The parser starts with an empty
map; a tree or an error is the result (libs/asts/applications/application.go:325-337,
libs/asts/domain/grammars/coverages/result_builder.go:41-51). -/
def coverageTokenSuite (n : Nat) (tok : Token) (chs : List Channel) (s : Suite) : Out Execution :=
  match (token n tok ⟨none, chs, false⟩ [] (composeCompose s.content) []).1 with
  | .ok t => .ok ⟨s, some t⟩
  | .err => .ok ⟨s, none⟩
  | .panic => .panic
  | .oof => .oof

/-- The loop over the suites: libs/asts/applications/application.go:215-230. -/
def coverageSuites (n : Nat) (tok : Token) (chs : List Channel) : List Suite → Out (List Execution)
  | [] => .ok []
  | s :: ss =>
    coverageTokenSuite n tok chs s >>= fun e =>
    coverageSuites n tok chs ss >>= fun es => .ok (e :: es)

/-- The coverage of a token is added after those found in its lines, if it has executions:
libs/asts/applications/application.go:296-314. -/
def addCoverage (tok : Token) (es : List Execution) (l : List Coverage) : List Coverage :=
  if es.isEmpty then l else l ++ [⟨tok, es⟩]

mutual
/-- `coveragesToken`, libs/asts/applications/application.go:206-315.  The map of names to skip is shared:
it is threaded. -/
def coveragesToken (n : Nat) (chs : List Channel) :
    Token → List String → Out (List Coverage × List String)
  | .mk name lines suites, skip =>
    if name ∈ skip then .ok ([], skip)
    else
      coverageSuites n (.mk name lines suites) chs suites >>= fun es =>
      coveragesLines n chs lines (name :: skip) >>= fun r =>
      .ok (addCoverage (.mk name lines suites) es r.1, r.2)
termination_by structural x => x

/-- The loop over the lines: libs/asts/applications/application.go:232-294. -/
def coveragesLines (n : Nat) (chs : List Channel) :
    List GLine → List String → Out (List Coverage × List String)
  | [], skip => .ok ([], skip)
  | .mk cs :: ls, skip =>
    coveragesContainers n chs cs skip >>= fun r =>
    coveragesLines n chs ls r.2 >>= fun r' => .ok (r.1 ++ r'.1, r'.2)
termination_by structural x => x

/-- The loop over the containers; composes are skipped: libs/asts/applications/application.go:235-293. -/
def coveragesContainers (n : Nat) (chs : List Channel) :
    List Container → List String → Out (List Coverage × List String)
  | [], skip => .ok ([], skip)
  | .compose _ :: cs, skip => coveragesContainers n chs cs skip
  | .element _ _ c :: cs, skip =>
    coveragesContent n chs c skip >>= fun r =>
    coveragesContainers n chs cs r.2 >>= fun r' => .ok (r.1 ++ r'.1, r'.2)
termination_by structural x => x

/-- The cases of a content: libs/asts/applications/application.go:241-292. -/
def coveragesContent (n : Nat) (chs : List Channel) :
    Content → List String → Out (List Coverage × List String)
  | .external _ g, skip => coverages n g >>= fun l => .ok (l, skip)
  | .token t, skip => coveragesToken n chs t skip
  | .everything _ exception escape, skip =>
    coveragesToken n chs exception skip >>= fun r =>
    coveragesOption n chs escape r.2 >>= fun r' => .ok (r.1 ++ r'.1, r'.2)
  | .value _ _, skip => .ok ([], skip)
  | .recursive _, skip => .ok ([], skip)
termination_by structural x => x

/-- The escape token, if any: libs/asts/applications/application.go:280-290. -/
def coveragesOption (n : Nat) (chs : List Channel) :
    Option Token → List String → Out (List Coverage × List String)
  | none, skip => .ok ([], skip)
  | some t, skip => coveragesToken n chs t skip
termination_by structural x => x

/-- `Coverages`, libs/asts/applications/application.go:117-152: the channels' coverages come first, but the
root is visited first. -/
def coverages (n : Nat) : Grammar → Out (List Coverage)
  | .mk root chs =>
    coveragesToken n chs root [] >>= fun r =>
    coveragesChannels n chs r.2 >>= fun r' => .ok (r'.1 ++ r.1)
termination_by structural x => x

/-- The loop over the channels, whose tokens are tested without channels:
libs/asts/applications/application.go:127-141. -/
def coveragesChannels (n : Nat) : List Channel → List String → Out (List Coverage × List String)
  | [], skip => .ok ([], skip)
  | .mk t _ _ :: cs, skip =>
    coveragesToken n [] t skip >>= fun r =>
    coveragesChannels n cs r.2 >>= fun r' => .ok (r.1 ++ r'.1, r'.2)
termination_by structural x => x
end

/-! ## Positions -/

/-- Token name, line index, element index. -/
abbrev Pos := String × Nat × Nat

/-- A map from positions to element names, one entry per position. -/
abbrev Positions := List (Pos × String)

/-- Map assignment: libs/asts/applications/application.go:389. -/
def Positions.put (m : Positions) (p : Pos) (v : String) : Positions :=
  (p, v) :: m.filter (fun e => e.1 != p)

/-- Store unless there is an entry: libs/asts/applications/application.go:480-482. -/
def Positions.add (m : Positions) (p : Pos) (v : String) : Positions :=
  if (m.lookup p).isSome then m else m.put p v

mutual
/-- `findElementsFromToken`, libs/asts/applications/application.go:367-432. -/
def elementsToken : Token → Positions → Positions
  | .mk name lines _, m => elementsLines name 0 lines m

/-- The loop over the lines: libs/asts/applications/application.go:374-428. -/
def elementsLines (name : String) : Nat → List GLine → Positions → Positions
  | _, [], m => m
  | i, .mk cs :: ls, m => elementsLines name (i + 1) ls (elementsContainers name i 0 cs m)

/-- The loop over the containers; composes are skipped but counted:
libs/asts/applications/application.go:381-427. -/
def elementsContainers (name : String) (i : Nat) : Nat → List Container → Positions → Positions
  | _, [], m => m
  | j, .compose _ :: cs, m => elementsContainers name i (j + 1) cs m
  | j, .element _ _ c :: cs, m =>
    elementsContainers name i (j + 1) cs (elementsContent c (m.put (name, i, j) c.name))

/-- The cases of a content: libs/asts/applications/application.go:391-426. -/
def elementsContent : Content → Positions → Positions
  | .external _ g, m => findElements g m
  | .token t, m => elementsToken t m
  | .everything _ exception escape, m => elementsOption escape (elementsToken exception m)
  | .value _ _, m => m
  | .recursive _, m => m

/-- The escape token, if any: libs/asts/applications/application.go:418-424. -/
def elementsOption : Option Token → Positions → Positions
  | none, m => m
  | some t, m => elementsToken t m

/-- `findElements`, libs/asts/applications/application.go:345-365. -/
def findElements : Grammar → Positions → Positions
  | .mk root chs, m => elementsChannels chs (elementsToken root m)

/-- The loop over the channels: libs/asts/applications/application.go:353-362. -/
def elementsChannels : List Channel → Positions → Positions
  | [], m => m
  | .mk t _ _ :: cs, m => elementsChannels cs (elementsToken t m)
end

mutual
/-- `findCoveraredElementsFromBlock`, libs/asts/applications/application.go:456-499, on the block of a
tree. -/
def coveredTree (name : String) : Tree → Positions → Out Positions
  | .mk _ b _ _, m => coveredBlock name b m

/-- The check at libs/asts/applications/application.go:457-459; `Elements()` of a line without elements is
nil, so `List()` panics (line 463). -/
def coveredBlock (name : String) : Block → Positions → Out Positions
  | .mk _ none, m => .ok m
  | .mk _ (some (.mk i _ _ es)), m => if es.isEmpty then .panic else coveredElements name i 0 es m

/-- The loop over the elements: libs/asts/applications/application.go:464-496. -/
def coveredElements (name : String) (i : Nat) : Nat → List TElement → Positions → Out Positions
  | _, [], m => .ok m
  | j, .mk none _ :: es, m => coveredElements name i (j + 1) es m
  | j, .mk (some c) xs :: es, m =>
    coveredContents c.name xs (m.add (name, i, j) c.name) >>= fun m' =>
    coveredElements name i (j + 1) es m'

/-- The loop over the contents of an element: libs/asts/applications/application.go:484-493. -/
def coveredContents (name : String) : List TContent → Positions → Out Positions
  | [], m => .ok m
  | .value _ _ :: xs, m => coveredContents name xs m
  | .tree t :: xs, m => coveredTree name t m >>= fun m' => coveredContents name xs m'
end

/-- The loop over the executions: libs/asts/applications/application.go:438-450. -/
def coveredExecutions (name : String) : List Execution → Positions → Out Positions
  | [], m => .ok m
  | e :: es, m =>
    match e.result with
    | none => coveredExecutions name es m
    | some t => coveredTree name t m >>= fun m' => coveredExecutions name es m'

/-- The loop over the coverages: libs/asts/applications/application.go:436-451. -/
def coveredList : List Coverage → Positions → Out Positions
  | [], m => .ok m
  | c :: cs, m => coveredExecutions c.token.name c.executions m >>= fun m' => coveredList cs m'

/-- `Covered`, libs/asts/applications/application.go:154-163, 434-454; `List()` of a nil `Coverages`
panics (line 435). -/
def covered (cs : List Coverage) : Out Positions :=
  if cs.isEmpty then .panic else coveredList cs []

/-- `Uncovered`, libs/asts/applications/application.go:165-204. -/
def uncovered (n : Nat) (g : Grammar) : Out Positions :=
  coverages n g >>= fun cs =>
  covered cs >>= fun m =>
  .ok ((findElements g []).filter (fun e => (m.lookup e.1).isNone))

end Rodkina.Ast
