import Verif.InterpRename
import Verif.InterpProps

/-!
# The names in a program do not matter (C166)
-/

namespace Rodkina.Props

open Rodkina.Interp

variable {W σ : Type}

/-- **C166.** Replacing the names of the modules, of the applications and of the parameters and variables of a list of instructions,
each kind and each nested list on its own, without making two names of a kind equal, changes nothing: the compiled program is the
same, or none is compiled in both cases; so every execution gives the same outcome and the same effects. -/
theorem C166_names_do_not_matter (f : Names) (h : f.Apart) (all : List (Module W σ)) (src src' : List Instr)
    (hr : InstrsRenamed f src src') :
    compile all src' = compile all src ∧
    ∀ (input : List (Val W)) (s : σ) (o : Outcome (List (Val W)) × σ),
      (∃ p, compile all src' = .ok p ∧ execute input p s = o) ↔ ∃ p, compile all src = .ok p ∧ execute input p s = o := by
  have := compile_rename all h hr
  exact ⟨this, fun input s o => by rw [this]⟩

/-- Every name with a letter in front. -/
def prefixed (a : String) : Names := ⟨(a ++ ·), (a ++ ·), (a ++ ·)⟩

theorem prefixed_apart (a : String) : (prefixed a).Apart :=
  ⟨fun _ _ h => by simpa [prefixed] using h, fun _ _ h => by simpa [prefixed] using h, fun _ _ h => by simpa [prefixed] using h⟩

/-- A program inside a program; the names of the outer one get an `a` in front, those of the inner one a `b`. -/
example : compile [pairModule] [.parameter "ax" true, .parameter "ay" false, .assignment "ay" (.var "ax"),
    .assignment "ay" (.instructions [.module 1 "bm", .application "bm" "bf", .parameter "bx" true, .parameter "by" false,
      .assignment "bk" (.constant [7]), .attachment "bx" 0 "bf", .attachment "bx" 1 "bf", .attachment "bk" 1 "bf",
      .assignment "by" (.execution "bf")])] = compile [pairModule] nestedSource :=
  (C166_names_do_not_matter (prefixed "a") (prefixed_apart "a") _ nestedSource _
    (.cons (.parameter "x" true) (.cons (.parameter "y" false) (.cons (.assignment "y" (.var "x"))
      (.cons (.assignment "y" (.instructions (prefixed "b") (prefixed_apart "b")
        (.cons (.module 1 "m") (.cons (.application "m" "f") (.cons (.parameter "x" true) (.cons (.parameter "y" false)
          (.cons (.assignment "k" (.constant [7])) (.cons (.attachment "x" 0 "f") (.cons (.attachment "x" 1 "f")
            (.cons (.attachment "k" 1 "f") (.cons (.assignment "y" (.execution "f")) .nil))))))))))) .nil))))).1

/-- One name for all applications. -/
def oneApplication : Names := ⟨id, fun _ => "f", id⟩

/-- Whether a program is compiled. -/
def compiled (r : Res (Program Unit Unit)) : Bool :=
  match r with
  | .ok _ => true
  | _ => false

/-- **C166, the condition is needed.** With one name for two applications a program that was compiled no longer is. -/
theorem C166_apart_needed : ∃ src', InstrsRenamed oneApplication twiceSource src' ∧
    compiled (compile [pairModule] twiceSource) = true ∧ compiled (compile [pairModule] src') = false := by
  refine ⟨_, .cons (.module 1 "m") (.cons (.application "m" "f") (.cons (.application "m" "g") (.cons (.parameter "y" false)
    (.cons (.assignment "v" (.execution "f")) (.cons (.attachment "v" 0 "g") (.cons (.assignment "y" (.execution "g")) .nil)))))), ?_, ?_⟩
  · decide +kernel
  · decide +kernel

end Rodkina.Props
