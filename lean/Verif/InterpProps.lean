import Verif.InterpAttach
import Verif.InterpRuns
import Verif.InterpEffects

/-!
# Properties of the interpreter (C56-C61, C88)
-/

namespace Rodkina.Props

open Rodkina.Interp

variable {W σ : Type}

/-! ## Samples -/

/-- A module (index 1) that pairs its parameters 0 and 1. -/
def pairModule : Module Unit Unit where
  index := 1
  fn ps s := (.ok (.list ((ps 0).toList ++ (ps 1).toList)), s)

/-- The outputs of an execution, if it succeeds, as lists of byte strings. -/
def outputBytes (o : Outcome (List (Val Unit))) : Option (List (List Bytes)) :=
  match o with
  | .ok l => some (l.map (fun v => match v with
    | .bytes b => [b]
    | .list l => l.map (fun v => match v with | .bytes b => b | _ => [])
    | .other _ => []))
  | _ => none

/-- Pairs the input with a constant; the second attachment to 1 takes the place of the first. -/
def pairSource : List Instr :=
  [.module 1 "m", .application "m" "f", .parameter "x" true, .parameter "y" false,
   .assignment "k" (.constant [7]), .attachment "x" 0 "f", .attachment "x" 1 "f", .attachment "k" 1 "f",
   .assignment "y" (.execution "f")]

/-- Two outputs, the second one is the outputs of a nested program. -/
def nestedSource : List Instr :=
  [.parameter "x" true, .parameter "y" false, .assignment "y" (.var "x"),
   .assignment "y" (.instructions pairSource)]

/-- `g` runs with the result of `f`. -/
def twiceSource : List Instr :=
  [.module 1 "m", .application "m" "f", .application "m" "g", .parameter "y" false,
   .assignment "v" (.execution "f"), .attachment "v" 0 "g", .assignment "y" (.execution "g")]

/-- An input parameter is assigned and then read. -/
def overwrittenSource : List Instr :=
  [.parameter "x" true, .parameter "y" false, .assignment "x" (.constant [1]), .assignment "y" (.var "x")]

/-- An input parameter is declared and not used. -/
def unusedSource : List Instr :=
  [.parameter "x" true, .parameter "y" false, .assignment "y" (.constant [1])]

theorem pairSource_scoped : WellScoped [pairModule] pairSource := by
  simp [WellScoped, pairSource, ScopedAfter, Instr.Scoped, SValue.Scoped, pairModule, Instr.runs]

theorem nestedSource_scoped : WellScoped [pairModule] nestedSource := by
  simp [WellScoped, nestedSource, pairSource, ScopedAfter, Instr.Scoped, SValue.Scoped, pairModule, Instr.runs]

theorem pairModule_pure : PureModules [pairModule] := by
  intro m hm
  rw [List.mem_singleton] at hm
  subst hm
  exact ⟨_, fun _ _ => rfl⟩

/-! ## C60 -/

/-- Compilation never crashes, and it succeeds exactly on well-scoped programs. -/
theorem C60_compile_scoped (all : List (Module W σ)) (src : List Instr) :
    compile all src ≠ .panic ∧ ((∃ p, compile all src = .ok p) ↔ WellScoped all src) := by
  have h := compile_scoped all src
  unfold Accepts at h
  cases hc : compile all src with
  | ok p => rw [hc] at h; exact ⟨by simp, ⟨fun _ => h.1, fun _ => ⟨p, rfl⟩⟩⟩
  | err => rw [hc] at h; exact ⟨by simp, ⟨fun ⟨_, hp⟩ => (by cases hp), fun hs => absurd hs h⟩⟩
  | panic => rw [hc] at h; exact h.elim

example : ∃ p, compile [pairModule] nestedSource = .ok p :=
  (C60_compile_scoped _ _).2.mpr nestedSource_scoped

/-- An output that is not assigned yet cannot be attached. -/
example : ¬ WellScoped [pairModule]
    [.module 1 "m", .application "m" "f", .parameter "y" false, .attachment "y" 0 "f", .execution "f"] := by
  simp [WellScoped, ScopedAfter, Instr.Scoped]

/-! ## C88 -/

/-- Executing a compiled program is interpreting its text by name, for all modules. -/
theorem C88_execute_byName (all : List (Module W σ)) (src : List Instr) (p : Program W σ)
    (h : compile all src = .ok p) (input : List (Val W)) : execute input p = byName all input src :=
  compile_byName all input src p h

example : ∃ p, compile [pairModule] pairSource = .ok p ∧
    outputBytes (execute [.bytes [3]] p ()).1 = some [[[3], [7]]] := by
  obtain ⟨p, hp⟩ := (C60_compile_scoped _ _).2.mpr pairSource_scoped
  refine ⟨p, hp, ?_⟩
  rw [C88_execute_byName _ _ p hp]
  decide +kernel

/-! ## C56 -/

/-- No execution of a compiled program lacks an output, and a successful one returns one value per
assignment to an output parameter. -/
theorem C56_outputs (all : List (Module W σ)) (src : List Instr) (p : Program W σ) (h : compile all src = .ok p)
    (input : List (Val W)) (s : σ) :
    (execute input p s).1 ≠ .fail .output ∧
      ∀ outs s', execute input p s = (.ok outs, s') → outs.length = outputAssignments [] src := by
  rw [C88_execute_byName all src p h]
  refine ⟨?_, ?_⟩
  · have := byNameList_avoids (r := .output) (by simp) all input src {} ⟨by simp, by simp, by simp⟩
      (fun h => by cases h)
    exact (Avoids.bind (Q := fun _ => True) this (fun _ _ => Avoids.pure trivial) s).1
  · intro outs s' ho
    obtain ⟨e, s1, h1, h2⟩ := bind_ok ho
    have := byNameList_outs all input src {} e [] (by simp) s s1 h1
    cases h2
    simpa using this

example : outputAssignments [] nestedSource = 2 := by
  simp [nestedSource, outputAssignments]

/-! ## C57 -/

/-- With as many inputs as the program and each nested program declare, no input is missing. -/
theorem C57_enough_inputs (all : List (Module W σ)) (src : List Instr) (p : Program W σ)
    (h : compile all src = .ok p) (input : List (Val W)) (hn : EnoughInputs input.length src) (s : σ) :
    (execute input p s).1 ≠ .fail .input := by
  rw [C88_execute_byName all src p h]
  have := byNameList_avoids (r := .input) (by simp) all input src {} ⟨by simp, by simp, by simp⟩
    (fun _ => ⟨by simpa using hn.1, hn.2⟩)
  exact (Avoids.bind (Q := fun _ => True) this (fun _ _ => Avoids.pure trivial) s).1

example : EnoughInputs 1 nestedSource := by
  simp [EnoughInputs, nestedSource, pairSource, inputParameters, nestedInputsAtMost, Instr.inputsAtMost,
    SValue.inputsAtMost]

/-- Without inputs the same program does fail for a missing input. -/
example : ∃ p, compile [pairModule] nestedSource = .ok p ∧ (execute [] p ()).1 = .fail .input := by
  obtain ⟨p, hp⟩ := (C60_compile_scoped _ _).2.mpr nestedSource_scoped
  refine ⟨p, hp, ?_⟩
  rw [C88_execute_byName _ _ p hp]
  rfl

/-! ## C58 -/

/-- Full claim (false, see `C58_negation_overwritten` and `C58_negation_unused`): for pure modules compiling
and executing is direct interpretation.  Proved when no input parameter is assigned and there are enough
inputs. -/
theorem C58_direct_partial (all : List (Module W σ)) (hp : PureModules all) (src : List Instr)
    (p : Program W σ) (h : compile all src = .ok p) (hk : InputsKept src) (input : List (Val W))
    (hn : EnoughInputs input.length src) : execute input p = direct all input src := by
  rw [C88_execute_byName all src p h]
  exact byName_direct hp input src hk hn ((C60_compile_scoped all src).2.mp ⟨p, h⟩)

example : PureModules [pairModule] ∧ WellScoped [pairModule] nestedSource ∧ InputsKept nestedSource ∧
    EnoughInputs 1 nestedSource := by
  refine ⟨pairModule_pure, nestedSource_scoped, ?_, ?_⟩
  · simp [InputsKept, nestedSource, pairSource, nestedInputsKept, Instr.InputsKept, SValue.InputsKept]
    constructor <;> (rintro x v rfl; simp)
  · simp [EnoughInputs, nestedSource, pairSource, inputParameters, nestedInputsAtMost, Instr.inputsAtMost,
      SValue.inputsAtMost]

/-- A variable that overwrites an input parameter is not read back: the input is. -/
theorem C58_negation_overwritten :
    ∃ p, compile ([] : List (Module Unit Unit)) overwrittenSource = .ok p ∧
      execute [.bytes [0]] p () = (.ok [.bytes [0]], ()) ∧
      direct ([] : List (Module Unit Unit)) [.bytes [0]] overwrittenSource () = (.ok [.bytes [1]], ()) := by
  obtain ⟨p, hp⟩ := (C60_compile_scoped ([] : List (Module Unit Unit)) overwrittenSource).2.mpr (by
    simp [WellScoped, overwrittenSource, ScopedAfter, Instr.Scoped, SValue.Scoped, Instr.runs])
  refine ⟨p, hp, ?_, rfl⟩
  rw [C88_execute_byName _ _ p hp]
  rfl

/-- An input parameter without input is only noticed when it is used. -/
theorem C58_negation_unused :
    ∃ p, compile ([] : List (Module Unit Unit)) unusedSource = .ok p ∧
      execute [] p () = (.ok [.bytes [1]], ()) ∧
      direct ([] : List (Module Unit Unit)) [] unusedSource () = (.fail .input, ()) := by
  obtain ⟨p, hp⟩ := (C60_compile_scoped ([] : List (Module Unit Unit)) unusedSource).2.mpr (by
    simp [WellScoped, unusedSource, ScopedAfter, Instr.Scoped, SValue.Scoped, Instr.runs])
  refine ⟨p, hp, ?_, rfl⟩
  rw [C88_execute_byName _ _ p hp]
  rfl

/-- For modules with effects, when variables that are attached are only assigned inputs and constants: the outputs and
the effects, also of an execution that fails, are those of the direct execution. -/
theorem C58_effects_partial (all : List (Module W σ)) (src : List Instr) (p : Program W σ) (h : compile all src = .ok p)
    (hk : InputsKept src) (hp : PlainAttached src) (input : List (Val W)) (hn : EnoughInputs input.length src) (s : σ) :
    execute input p s = direct all input src s := by
  rw [C88_execute_byName _ src p h]
  exact congrFun (byName_direct_effects all input src hk hn hp ((C60_compile_scoped all src).2.mp ⟨p, h⟩)) s

/-- A module that counts its calls and returns the count before its parameter. -/
def countingModule : Module Unit Nat where
  index := 1
  fn ps s := (.ok (.list (.bytes [UInt8.ofNat s] :: (ps 0).toList)), s + 1)

/-- Two executions of a module with an effect. -/
def countingSource : List Instr :=
  [.module 1 "m", .application "m" "f", .parameter "x" true, .parameter "y" false, .attachment "x" 0 "f",
   .assignment "y" (.execution "f"), .execution "f", .assignment "y" (.execution "f")]

example : InputsKept countingSource ∧ PlainAttached countingSource ∧ EnoughInputs 1 countingSource ∧
    WellScoped [countingModule] countingSource ∧
    outputBytes (direct [countingModule] [.bytes [9]] countingSource 4).1 = some [[[4], [9]], [[6], [9]]] ∧
    (direct [countingModule] [.bytes [9]] countingSource 4).2 = 7 := by
  refine ⟨?_, ?_, ?_, ?_, by decide +kernel, by decide +kernel⟩
  · simp [InputsKept, countingSource, nestedInputsKept, Instr.InputsKept, SValue.InputsKept]
    rintro x v rfl
    simp
  · simp [PlainAttached, countingSource, nestedPlainAttached, Instr.PlainAttached, SValue.PlainAttached, SValue.plain]
    rintro c t a v rfl _ _ h
    simp at h
  · simp [EnoughInputs, countingSource, inputParameters, nestedInputsAtMost, Instr.inputsAtMost, SValue.inputsAtMost]
  · simp [WellScoped, countingSource, ScopedAfter, Instr.Scoped, SValue.Scoped, countingModule, Instr.runs]

/-! ## C59 -/

/-- Full claim (false, see `C59_negation`): a successful execution calls modules exactly as written.  Proved
when variables that are attached are only assigned inputs and constants. -/
theorem C59_calls_partial (all : List (Module W σ)) (src : List Instr) (p : Program W (σ × List Nat))
    (h : compile (all.map Module.logged) src = .ok p) (hp : PlainAttached src) (input : List (Val W))
    (s s' : σ) (outs : List (Val W)) (log log' : List Nat)
    (hr : execute input p (s, log) = (.ok outs, (s', log'))) : log' = log ++ calls src := by
  rw [C88_execute_byName _ src p h] at hr
  obtain ⟨_, l', h1, _, h3⟩ := byName_logs all true input src (fun _ => hp) (s, log) outs (s', log') hr
  rw [h3 rfl] at h1
  exact h1

example : PlainAttached nestedSource ∧ calls nestedSource = [1] ∧
    WellScoped ([pairModule].map Module.logged) nestedSource ∧
    (byName ([pairModule].map Module.logged) [.bytes [3]] nestedSource ((), [])).2.2 = [1] := by
  refine ⟨?_, ?_, ?_, by decide +kernel⟩
  · simp [PlainAttached, nestedSource, pairSource, nestedPlainAttached, Instr.PlainAttached, SValue.PlainAttached,
      SValue.plain]
    rintro c t a v hc (⟨rfl, rfl⟩ | ⟨rfl, rfl⟩)
    · trivial
    · simp at hc
  · simp [calls, nestedSource, pairSource, callsOf, SValue.calls, setAt]
  · simp [WellScoped, nestedSource, pairSource, ScopedAfter, Instr.Scoped, SValue.Scoped, pairModule, Instr.runs,
      Module.logged]

/-- Part of the full claim, for every program: each execution that is written is done, in order. -/
theorem C59_at_least_once_partial (all : List (Module W σ)) (src : List Instr) (p : Program W (σ × List Nat))
    (h : compile (all.map Module.logged) src = .ok p) (input : List (Val W))
    (s s' : σ) (outs : List (Val W)) (log log' : List Nat)
    (hr : execute input p (s, log) = (.ok outs, (s', log'))) :
    ∃ done, log' = log ++ done ∧ (calls src).Sublist done := by
  rw [C88_execute_byName _ src p h] at hr
  obtain ⟨_, l', h1, h2, _⟩ := byName_logs all false input src (fun h => by cases h) (s, log) outs (s', log') hr
  exact ⟨l', h1, h2⟩

/-- A variable that holds the result of an execution runs it again when it is attached. -/
theorem C59_negation :
    calls twiceSource = [1, 1] ∧
    ∃ p, compile ([pairModule].map Module.logged) twiceSource = .ok p ∧
      (execute [] p ((), [])).2.2 = [1, 1, 1] := by
  refine ⟨by simp [calls, twiceSource, callsOf, SValue.calls, setAt], ?_⟩
  obtain ⟨p, hp⟩ := (C60_compile_scoped ([pairModule].map Module.logged) twiceSource).2.mpr (by
    simp [WellScoped, twiceSource, ScopedAfter, Instr.Scoped, SValue.Scoped, Instr.runs, Module.logged, pairModule])
  refine ⟨p, hp, ?_⟩
  rw [C88_execute_byName _ _ p hp]
  rfl

/-- For every program: the modules that a successful execution calls, exactly and in order; what is attached is
computed again at every execution. -/
theorem C59_exact_partial (all : List (Module W σ)) (src : List Instr) (p : Program W (σ × List Nat))
    (h : compile (all.map Module.logged) src = .ok p) (input : List (Val W))
    (s s' : σ) (outs : List (Val W)) (log log' : List Nat)
    (hr : execute input p (s, log) = (.ok outs, (s', log'))) : log' = log ++ runs src := by
  rw [C88_execute_byName _ src p h] at hr
  obtain ⟨_, l', h1, _, h3⟩ := byName_runs all input src (s, log) outs (s', log') hr
  rw [h3 rfl] at h1
  exact h1

/-- The full claim holds of exactly the programs for which computing again adds no calls. -/
theorem C59_iff_partial (all : List (Module W σ)) (src : List Instr) (p : Program W (σ × List Nat))
    (h : compile (all.map Module.logged) src = .ok p) (input : List (Val W))
    (s s' : σ) (outs : List (Val W)) (log log' : List Nat)
    (hr : execute input p (s, log) = (.ok outs, (s', log'))) :
    log' = log ++ calls src ↔ (runs src).length = (calls src).length := by
  have e := C59_exact_partial all src p h input s s' outs log log' hr
  obtain ⟨d, hd, hsub⟩ := C59_at_least_once_partial all src p h input s s' outs log log' hr
  rw [e] at hd
  obtain rfl := List.append_cancel_left hd
  rw [e]
  constructor
  · intro h'
    rw [List.append_cancel_left h']
  · intro h'
    rw [hsub.eq_of_length h'.symm]

/-- `f` runs with the result of an earlier execution of it, and then both are run for `g`. -/
def chainSource : List Instr :=
  [.module 1 "m", .module 2 "n", .application "m" "f", .application "n" "g", .parameter "y" false,
   .assignment "v" (.execution "f"), .attachment "v" 0 "f", .assignment "w" (.execution "f"), .attachment "w" 0 "g",
   .attachment "v" 1 "g", .assignment "y" (.execution "g")]

example : runs chainSource = [1, 1, 1, 1, 1, 1, 2] ∧ calls chainSource = [1, 1, 2] ∧
    WellScoped ([pairModule, { pairModule with index := 2 }].map Module.logged) chainSource ∧
    (byName ([pairModule, { pairModule with index := 2 }].map Module.logged) [] chainSource ((), [])).2.2 = runs chainSource := by
  have e : runs chainSource = [1, 1, 1, 1, 1, 1, 2] := by simp [runs, chainSource, runsOf, SValue.runs, setAt]
  refine ⟨e, by simp [calls, chainSource, callsOf, SValue.calls, setAt], ?_, by rw [e]; decide +kernel⟩
  simp [WellScoped, chainSource, ScopedAfter, Instr.Scoped, SValue.Scoped, pairModule, Instr.runs, Module.logged]

/-! ## C61 -/

/-- What follows in the text does not change what has been compiled, and attachments at the end change
nothing. -/
theorem C61_later_text (all : List (Module W σ)) (src later : List Instr) (is is' : List (PInstr W σ))
    (os os' : List Nat) (h : compile all src = .ok (.mk is os)) (h' : compile all (src ++ later) = .ok (.mk is' os')) :
    (∃ x, is' = is ++ x) ∧ (∃ y, os' = os ++ y) ∧
      ((∀ i ∈ later, ∃ c t a, i = .attachment c t a) → is' = is ∧ os' = os) := by
  unfold compile at h h'
  rw [compileList_append] at h'
  cases hc : compileList all src {} with
  | err => rw [hc] at h; cases h
  | panic => rw [hc] at h; cases h
  | ok cs =>
    rw [hc] at h h'
    simp only at h h'
    cases hc' : compileList all later cs with
    | err => rw [hc'] at h'; cases h'
    | panic => rw [hc'] at h'; cases h'
    | ok cs' =>
      rw [hc'] at h'
      simp only at h'
      unfold program at h h'
      split at h
      · cases h
      split at h'
      · cases h'
      cases h
      cases h'
      obtain ⟨g1, g2, g3⟩ := compileList_grows all later cs cs' hc'
      refine ⟨g1, g2, fun hl => g3 (fun i hi => ?_)⟩
      obtain ⟨c, t, a, rfl⟩ := hl i hi
      exact fun h => h

example : WellScoped [pairModule] (pairSource ++ [.attachment "k" 0 "f"]) := by
  simp [WellScoped, pairSource, ScopedAfter, Instr.Scoped, SValue.Scoped, pairModule, Instr.runs]

/-- For all modules: the last call is of the module of the application, with exactly the targets attached
before; the parameter for a target comes from the variable of the last attachment to it, with what that
variable stood for at the attachment. -/
theorem C61_parameters (all : List (Module W σ)) (pre : List Instr) (o a : String) (p : Program W σ)
    (h : compile all (pre ++ [.assignment o (.execution a)]) = .ok p) (ho : .parameter o false ∈ pre)
    (input : List (Val W)) (s s' : σ) (outs : List (Val W)) (hr : execute input p s = (.ok outs, s')) :
    ∃ k i m ps s1 v, .application k a ∈ pre ∧ .module i k ∈ pre ∧ lastModule all i = some m ∧
      m.fn ps s1 = (.ok v, s') ∧ outs.getLast? = some v ∧
      (∀ t, (ps t).isSome ↔ ∃ c, .attachment c t a ∈ pre) ∧
      ∀ pre1 c t pre2, pre = pre1 ++ .attachment c t a :: pre2 → (∀ c', .attachment c' t a ∉ pre2) →
        ∃ e1 s2 th x s3 s4, byNameList all input pre1 {} s = (.ok e1, s2) ∧
          (e1.vars c <|> e1.inputs c) = some th ∧ th s3 = (.ok x, s4) ∧ ps t = some x := by
  rw [C88_execute_byName _ _ p h] at hr
  exact byName_sees all input pre o a ((C60_compile_scoped all _).2.mp ⟨p, h⟩) ho s s' outs hr

/-- The same for an execution whose result is not used. -/
theorem C61_parameters_execution (all : List (Module W σ)) (pre : List Instr) (a : String) (p : Program W σ)
    (h : compile all (pre ++ [.execution a]) = .ok p)
    (input : List (Val W)) (s s' : σ) (outs : List (Val W)) (hr : execute input p s = (.ok outs, s')) :
    ∃ k i m ps s1 v, .application k a ∈ pre ∧ .module i k ∈ pre ∧ lastModule all i = some m ∧
      m.fn ps s1 = (.ok v, s') ∧
      (∀ t, (ps t).isSome ↔ ∃ c, .attachment c t a ∈ pre) ∧
      ∀ pre1 c t pre2, pre = pre1 ++ .attachment c t a :: pre2 → (∀ c', .attachment c' t a ∉ pre2) →
        ∃ e1 s2 th x s3 s4, byNameList all input pre1 {} s = (.ok e1, s2) ∧
          (e1.vars c <|> e1.inputs c) = some th ∧ th s3 = (.ok x, s4) ∧ ps t = some x := by
  rw [C88_execute_byName _ _ p h] at hr
  exact byName_sees_execution all input pre a ((C60_compile_scoped all _).2.mp ⟨p, h⟩) s s' outs hr

/-- An execution with one attachment. -/
example : WellScoped [pairModule] (pairSource.take 6 ++ [.execution "f"]) ∧
    outputBytes (byName [pairModule] [.bytes [3]] (pairSource.take 6 ++ [.execution "f"]) ()).1 = some [] := by
  refine ⟨?_, by decide +kernel⟩
  simp [WellScoped, pairSource, ScopedAfter, Instr.Scoped, SValue.Scoped, pairModule, Instr.runs]

/-- For pure modules, when no input parameter is assigned and there are enough inputs: the parameter for a
target is the value that the variable of the last attachment to it had at the attachment. -/
theorem C61_values (all : List (Module W σ)) (hpure : PureModules all) (pre : List Instr) (o a : String)
    (p : Program W σ) (h : compile all (pre ++ [.assignment o (.execution a)]) = .ok p)
    (hk : InputsKept (pre ++ [.assignment o (.execution a)])) (input : List (Val W))
    (hn : EnoughInputs input.length (pre ++ [.assignment o (.execution a)])) (ho : .parameter o false ∈ pre)
    (s s' : σ) (outs : List (Val W)) (hr : execute input p s = (.ok outs, s')) :
    ∃ k i m s1 v, ∃ ps : Params W, .application k a ∈ pre ∧ .module i k ∈ pre ∧ lastModule all i = some m ∧
      m.fn ps s1 = (.ok v, s') ∧ outs.getLast? = some v ∧
      (∀ t, (∀ c, .attachment c t a ∉ pre) → ps t = none) ∧
      ∀ pre1 c t pre2, pre = pre1 ++ .attachment c t a :: pre2 → (∀ c', .attachment c' t a ∉ pre2) →
        ∃ d1 s2, directList all input pre1 {} s = (.ok d1, s2) ∧ (ps t).isSome ∧ ps t = d1.vars c := by
  rw [C58_direct_partial all hpure _ p h hk input hn] at hr
  exact direct_sees all hpure input pre o a hk hn ((C60_compile_scoped all _).2.mp ⟨p, h⟩) ho s s' outs hr

/-- The sample ends in an execution whose result is the output, and it succeeds. -/
example : ∃ pre, pairSource = pre ++ [.assignment "y" (.execution "f")] ∧ .parameter "y" false ∈ pre ∧
    InputsKept pairSource ∧ EnoughInputs 1 pairSource ∧
    outputBytes (byName [pairModule] [.bytes [3]] pairSource ()).1 = some [[[3], [7]]] := by
  refine ⟨pairSource.take 8, rfl, by simp [pairSource], ?_, ?_, by decide +kernel⟩
  · simp [InputsKept, pairSource, nestedInputsKept, Instr.InputsKept, SValue.InputsKept]
    rintro x v rfl
    simp
  · simp [EnoughInputs, pairSource, inputParameters, nestedInputsAtMost, Instr.inputsAtMost, SValue.inputsAtMost]

end Rodkina.Props
