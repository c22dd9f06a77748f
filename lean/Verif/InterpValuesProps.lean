import Verif.InterpValues
import Verif.InterpProps

/-!
# Values are handed on as they are (C167)
-/

namespace Rodkina.Props

open Rodkina.Interp

variable {W V σ : Type}

/-- **C167.** Replace the values modules work on by others (two values may become equal), and each module by one that does the same on
the replaced values. The same lists of instructions are compiled, and for replaced inputs the execution has the replaced outputs, or
the same error, and the same effects. So the interpreter does not inspect
the values of modules. Byte strings and lists stay what they are under the replacement; that every value reaches its target is C61 and
C88. -/
theorem C167_values_handed_on (g : W → V) (all : List (Module W σ)) (all' : List (Module V σ)) (h : List.Forall₂ (Follows g) all all')
    (src : List Instr) :
    (compile all' src = .err ↔ compile all src = .err) ∧ (compile all' src = .panic ↔ compile all src = .panic) ∧
    ∀ p p', compile all src = .ok p → compile all' src = .ok p' → ∀ (input : List (Val W)) (s : σ),
      execute (input.map (Val.repl g)) p' s =
        ((execute input p s).1.repl (List.map (Val.repl g)), (execute input p s).2) := by
  have h1 := compile_repl (standFor_index all) (standIns all) src
  have h2 := compile_repl (standFor_index all') (standIns all) src
  rw [standIns_standFor] at h1
  rw [← standIns_follow h, standIns_standFor, standIns_follow h] at h2
  rw [h1, h2]
  cases compile (standIns all) src with
  | err => exact ⟨by simp [resMap], by simp [resMap], fun p p' hp => by cases hp⟩
  | panic => exact ⟨by simp [resMap], by simp [resMap], fun p p' hp => by cases hp⟩
  | ok q =>
    refine ⟨by simp [resMap], by simp [resMap], fun p p' hp hp' input s => ?_⟩
    cases hp
    cases hp'
    exact execProgram_repl (standFor_follow h) input q s

/-- A module that counts: one more than its parameter, and the number of calls as an effect. -/
def countModule : Module Nat Nat where
  index := 1
  fn ps s := match ps 0 with
    | some (.other n) => (.ok (.other (n + 1)), s + 1)
    | _ => (.err, s + 1)

/-- The same for someone who only knows whether numbers are odd. -/
def flipModule : Module Bool Nat where
  index := 1
  fn ps s := match ps 0 with
    | some (.other b) => (.ok (.other (!b)), s + 1)
    | _ => (.err, s + 1)

/-- Whether a number is odd. -/
def oddNat (n : Nat) : Bool := n % 2 == 1

theorem flip_follows_count : Follows oddNat countModule flipModule := by
  refine ⟨rfl, fun ps s => ?_⟩
  simp only [countModule, flipModule, Params.repl]
  cases ps 0 with
  | none => rfl
  | some v =>
    cases v with
    | bytes b => simp [Val.repl, resRepl]
    | list l => simp [Val.repl, resRepl]
    | other n =>
      simp only [Option.map_some, Val.repl, resRepl, oddNat]
      congr 3
      rcases Nat.mod_two_eq_zero_or_one n with h | h <;> simp [Nat.add_mod, h]

/-- Two calls, one with the result of the other. -/
def countSource : List Instr :=
  [.module 1 "m", .application "m" "f", .application "m" "g", .parameter "x" true, .parameter "y" false, .attachment "x" 0 "f",
   .assignment "v" (.execution "f"), .attachment "v" 0 "g", .assignment "y" (.execution "g")]

/-- The outputs of the program, if it is compiled and executed, and the number of calls. -/
def countRun {X : Type} (m : Module X Nat) (x : X) : Option (List X) × Nat :=
  match compile [m] countSource with
  | .ok p =>
    match execute [.other x] p 0 with
    | (.ok l, s) => (some (l.filterMap (fun v => match v with | .other y => some y | _ => none)), s)
    | (_, s) => (none, s)
  | _ => (none, 0)

/-- Two more than the input, after three calls (`v` is executed again for `g`); and whether that is odd. -/
example : countRun countModule 4 = (some [6], 3) ∧ countRun flipModule false = (some [false], 3) := by decide +kernel

example (p : Program Nat Nat) (p' : Program Bool Nat) (h : compile [countModule] countSource = .ok p)
    (h' : compile [flipModule] countSource = .ok p') (n s : Nat) :
    execute [.other (oddNat n)] p' s = ((execute [.other n] p s).1.repl (List.map (Val.repl oddNat)), (execute [.other n] p s).2) := by
  have := (C167_values_handed_on oddNat [countModule] [flipModule] (.cons flip_follows_count .nil) countSource).2.2 p p' h h' [.other n] s
  simpa [Val.repl] using this

/-- A module that does not look at its parameter. -/
def trueModule : Module Bool Nat where
  index := 1
  fn _ s := (.ok (.other true), s + 1)

/-- **C167, the modules must agree.** With a module that does not do the same on the replaced values the outputs differ. -/
theorem C167_modules_must_agree : trueModule.index = countModule.index ∧ ¬ Follows oddNat countModule trueModule ∧
    (countRun countModule 4).1.map (List.map oddNat) = some [false] ∧ (countRun trueModule (oddNat 4)).1 = some [true] := by
  refine ⟨rfl, ?_, by decide +kernel, by decide +kernel⟩
  intro h
  have := h.fn (fun _ => some (.other 1)) 0
  simp [countModule, trueModule, resRepl, Val.repl, oddNat] at this

end Rodkina.Props
