import Verif.Interp

/-!
# Specification of what an execution does: C136
-/

namespace Rodkina.Interp

variable {W σ : Type}

/-- Modules that satisfy `M` are called one after the other, each in the state that the one before left; all return a value. -/
inductive Chain (M : Module W σ → Prop) : σ → σ → Prop
  | none (s : σ) : Chain M s s
  | call (m : Module W σ) (ps : Params W) (v : Val W) (s s1 s2 : σ) : M m → m.fn ps s = (.ok v, s1) → Chain M s1 s2 → Chain M s s2

/-- What an execution that starts in the state `s` does: modules that satisfy `M` are called one after the other and nothing
else happens to the state.  If the execution fails because a module failed, or panics, this was the last call. -/
def Runs {α : Type} (M : Module W σ → Prop) (s : σ) : Outcome α × σ → Prop
  | (.fail .module, s') => ∃ m ps s1, M m ∧ Chain M s s1 ∧ m.fn ps s1 = (.err, s')
  | (.panic, s') => ∃ m ps s1, M m ∧ Chain M s s1 ∧ m.fn ps s1 = (.panic, s')
  | (_, s') => Chain M s s'

end Rodkina.Interp
