import Verif.Coverage

/-!
# Model: the loop of `Uncovered` over a Go map

Go traverses a map in an order that changes from one run to the next. `uncovered` (Coverage.lean) subtracts without an order; here is the
loop itself, in whatever order the entries come.
-/

namespace Rodkina.Ast

/-- The loop of `Uncovered`, libs/asts/applications/application.go:183-201: `order` lists the entries of `allElements` as the three nested
loops come upon them, `m` is `coveredElements`, the last argument is `uncoveredElements`. As in Coverage.lean the three nested maps are
one. -/
def uncoveredLoop (m : Positions) : List (Pos × String) → Positions → Positions
  | [], u => u
  | (p, v) :: order, u => uncoveredLoop m order (if (m.lookup p).isNone then u.put p v else u)

end Rodkina.Ast
