import Verif.BuilderReuse
/-!
# Specification of builders that are used again
-/

namespace Rodkina.Reuse

open Rodkina.Ast.Build (Builder)

/-- The calls without `Now`, as the other models of builders take them. -/
def withoutNow {κ : Type} (steps : List (Step κ)) : List (Option κ) :=
  steps.filterMap (fun st => match st with | .create => some none | .call k => some (some k) | .now => none)

/-- `Now` can be called at any time without consequences: it always gives what it would give had it never been called before. -/
def Reusable {σ κ α : Type} (b : Builder σ κ α) (effect : σ → σ) (allowed : κ → Prop) : Prop :=
  ∀ steps : List (Step κ), (∀ k, .call k ∈ steps → allowed k) → b.now (after b effect steps) = b.build (withoutNow steps)

end Rodkina.Reuse
