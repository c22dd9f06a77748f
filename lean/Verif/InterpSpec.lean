import Verif.Interp

/-!
# Specifications for the interpreter

* `WellScoped`: which programs are meaningful, as a judgement on the text (no maps).
* `byName`: interpretation of the text, instruction by instruction, where a variable stands for the
  computation that was assigned to it.
* `direct`: interpretation of the text, instruction by instruction, where a variable holds the value it got
  at its assignment; modules are functions of their parameters.
-/

namespace Rodkina.Interp

variable {W σ : Type}

/-! ## Scoping -/

/-- The instruction does something when the program is executed. -/
def Instr.runs : Instr → Prop
  | .assignment _ _ => True
  | .execution _ => True
  | _ => False

mutual
/-- A value is meaningful after the instructions `pre`. -/
def SValue.Scoped (exists_ : Nat → Prop) (pre : List Instr) : SValue → Prop
  | .var x => .parameter x true ∈ pre
  | .constant _ => True
  | .instructions l => ScopedAfter exists_ [] l ∧ ∃ i ∈ l, i.runs
  | .execution a => ∃ m, .application m a ∈ pre

/-- An instruction is meaningful after the instructions `pre`; `exists_` tells which modules there are.
Modules, applications and parameters are declared once; modules, applications and variables are
declared before they are used; only input parameters can be assigned to a variable, and only assigned
variables and input parameters can be attached. -/
def Instr.Scoped (exists_ : Nat → Prop) (pre : List Instr) : Instr → Prop
  | .module i n => exists_ i ∧ ∀ j, .module j n ∉ pre
  | .application m n => (∃ i, .module i m ∈ pre) ∧ ∀ m', .application m' n ∉ pre
  | .parameter n _ => ∀ b, .parameter n b ∉ pre
  | .assignment _ v => v.Scoped exists_ pre
  | .attachment c _ a =>
    ((∃ v, .assignment c v ∈ pre) ∨ .parameter c true ∈ pre) ∧ ∃ m, .application m a ∈ pre
  | .execution a => ∃ m, .application m a ∈ pre

/-- Instructions are meaningful one after the other. -/
def ScopedAfter (exists_ : Nat → Prop) (pre : List Instr) : List Instr → Prop
  | [] => True
  | i :: is => i.Scoped exists_ pre ∧ ScopedAfter exists_ (pre ++ [i]) is
end

/-- A program is well-scoped: its instructions are meaningful and at least one of them runs. -/
def WellScoped (all : List (Module W σ)) (src : List Instr) : Prop :=
  ScopedAfter (fun i => ∃ m ∈ all, m.index = i) [] src ∧ ∃ i ∈ src, i.runs

/-! ## Counting -/

/-- How many assignments there are to parameters declared as outputs before (`outs`). -/
def outputAssignments (outs : List String) : List Instr → Nat
  | [] => 0
  | .parameter n false :: is => outputAssignments (n :: outs) is
  | .assignment n _ :: is => (if n ∈ outs then 1 else 0) + outputAssignments outs is
  | _ :: is => outputAssignments outs is

/-- How many input parameters are declared. -/
def inputParameters (src : List Instr) : Nat :=
  (src.filter (fun i => match i with | .parameter _ true => true | _ => false)).length

mutual
/-- `n` is at least the number of input parameters of each program nested in a value. -/
def SValue.inputsAtMost (n : Nat) : SValue → Prop
  | .instructions l => inputParameters l ≤ n ∧ nestedInputsAtMost n l
  | _ => True

/-- `n` is at least the number of input parameters of each program nested in an instruction. -/
def Instr.inputsAtMost (n : Nat) : Instr → Prop
  | .assignment _ v => v.inputsAtMost n
  | _ => True

/-- `n` is at least the number of input parameters of each program nested in instructions. -/
def nestedInputsAtMost (n : Nat) : List Instr → Prop
  | [] => True
  | i :: is => i.inputsAtMost n ∧ nestedInputsAtMost n is
end

/-- `n` inputs are as many as a program and each program nested in it declare. -/
def EnoughInputs (n : Nat) (src : List Instr) : Prop :=
  inputParameters src ≤ n ∧ nestedInputsAtMost n src

/-! ## Interpretation of the text -/

/-- `f` with the value `v` for `k`. -/
def setAt {β : Type} (f : String → Option β) (k : String) (v : β) : String → Option β :=
  fun x => if x = k then some v else f x

/-- What is known while interpreting; variables hold a `V`. -/
structure Env (W σ V : Type) where
  modules : String → Option (Module W σ) := fun _ => none
  /-- Applications with their module and attachments, oldest first. -/
  apps : String → Option (Module W σ × List (Nat × V)) := fun _ => none
  inputs : String → Option V := fun _ => none
  nInputs : Nat := 0
  outNames : String → Bool := fun _ => false
  vars : String → Option V := fun _ => none
  outs : List (Val W) := []

/-- The program is not well-scoped. -/
def stuck {α : Type} : EM σ α := fun s => (.panic, s)

/-- The `i`-th input. -/
def inputAt (input : List (Val W)) (i : Nat) : EM σ (Val W) :=
  match input[i]? with
  | none => EM.fail .input
  | some v => pure v

/-- Run the attached computations in order; a later one for the same target takes its place. -/
def runAttached : List (Nat × EM σ (Val W)) → Params W → EM σ (Params W)
  | [], ps => pure ps
  | (t, m) :: rest, ps => m >>= fun x => runAttached rest (ps.set t x)

/-- The module with an index: the last one given, when several have it. -/
def lastModule : List (Module W σ) → Nat → Option (Module W σ)
  | [], _ => none
  | m :: ms, i =>
    match lastModule ms i with
    | some m' => some m'
    | none => if m.index = i then some m else none

mutual
/-- The computation a value stands for. -/
def byNameValue (all : List (Module W σ)) (input : List (Val W)) :
    SValue → Env W σ (EM σ (Val W)) → EM σ (Val W)
  | .var x, e => (e.inputs x).getD stuck
  | .constant b, _ => pure (.bytes b)
  | .instructions l, _ => byNameList all input l {} >>= fun e' => pure (.list e'.outs)
  | .execution a, e =>
    match e.apps a with
    | none => stuck
    | some (m, atts) => runAttached atts (fun _ => none) >>= fun ps => callModule m ps

/-- One instruction: an assignment runs the computation and keeps it. -/
def byNameInstr (all : List (Module W σ)) (input : List (Val W)) :
    Instr → Env W σ (EM σ (Val W)) → EM σ (Env W σ (EM σ (Val W)))
  | .module i n, e =>
    match lastModule all i with
    | none => stuck
    | some m => pure { e with modules := setAt e.modules n m }
  | .application m n, e =>
    match e.modules m with
    | none => stuck
    | some m => pure { e with apps := setAt e.apps n (m, []) }
  | .parameter n true, e =>
    pure { e with inputs := setAt e.inputs n (inputAt input e.nInputs), nInputs := e.nInputs + 1 }
  | .parameter n false, e => pure { e with outNames := fun x => x == n || e.outNames x }
  | .assignment n v, e =>
    byNameValue all input v e >>= fun x =>
    pure { e with
      vars := setAt e.vars n (byNameValue all input v e)
      outs := if e.outNames n then e.outs ++ [x] else e.outs }
  | .attachment c t a, e =>
    match e.vars c <|> e.inputs c, e.apps a with
    | some x, some (m, atts) => pure { e with apps := setAt e.apps a (m, atts ++ [(t, x)]) }
    | _, _ => stuck
  | .execution a, e =>
    match e.apps a with
    | none => stuck
    | some (m, atts) =>
      (runAttached atts (fun _ => none) >>= fun ps => callModule m ps) >>= fun _ => pure e

/-- Instructions one by one. -/
def byNameList (all : List (Module W σ)) (input : List (Val W)) :
    List Instr → Env W σ (EM σ (Val W)) → EM σ (Env W σ (EM σ (Val W)))
  | [], e => pure e
  | i :: is, e => byNameInstr all input i e >>= fun e' => byNameList all input is e'
end

/-- Interpretation of the text, by name: the outputs. -/
def byName (all : List (Module W σ)) (input : List (Val W)) (src : List Instr) : EM σ (List (Val W)) :=
  byNameList all input src {} >>= fun e => pure e.outs

/-- The parameters of a module from attached values; a later one for the same target takes its place. -/
def paramsOf (atts : List (Nat × Val W)) : Params W :=
  atts.foldl (fun ps a => ps.set a.1 a.2) (fun _ => none)

mutual
/-- The value of an expression. -/
def directValue (all : List (Module W σ)) (input : List (Val W)) :
    SValue → Env W σ (Val W) → EM σ (Val W)
  | .var x, e =>
    match e.vars x with
    | none => stuck
    | some v => pure v
  | .constant b, _ => pure (.bytes b)
  | .instructions l, _ => directList all input l {} >>= fun e' => pure (.list e'.outs)
  | .execution a, e =>
    match e.apps a with
    | none => stuck
    | some (m, atts) => callModule m (paramsOf atts)

/-- One instruction: declaring an input parameter and assigning store a value in a variable, attaching reads
the variable. -/
def directInstr (all : List (Module W σ)) (input : List (Val W)) :
    Instr → Env W σ (Val W) → EM σ (Env W σ (Val W))
  | .module i n, e =>
    match lastModule all i with
    | none => stuck
    | some m => pure { e with modules := setAt e.modules n m }
  | .application m n, e =>
    match e.modules m with
    | none => stuck
    | some m => pure { e with apps := setAt e.apps n (m, []) }
  | .parameter n true, e =>
    inputAt input e.nInputs >>= fun x =>
    pure { e with vars := setAt e.vars n x, nInputs := e.nInputs + 1 }
  | .parameter n false, e => pure { e with outNames := fun x => x == n || e.outNames x }
  | .assignment n v, e =>
    directValue all input v e >>= fun x =>
    pure { e with
      vars := setAt e.vars n x
      outs := if e.outNames n then e.outs ++ [x] else e.outs }
  | .attachment c t a, e =>
    match e.vars c, e.apps a with
    | some x, some (m, atts) => pure { e with apps := setAt e.apps a (m, atts ++ [(t, x)]) }
    | _, _ => stuck
  | .execution a, e =>
    match e.apps a with
    | none => stuck
    | some (m, atts) => callModule m (paramsOf atts) >>= fun _ => pure e

/-- Instructions one by one. -/
def directList (all : List (Module W σ)) (input : List (Val W)) :
    List Instr → Env W σ (Val W) → EM σ (Env W σ (Val W))
  | [], e => pure e
  | i :: is, e => directInstr all input i e >>= fun e' => directList all input is e'
end

/-- Direct interpretation of the text: the outputs. -/
def direct (all : List (Module W σ)) (input : List (Val W)) (src : List Instr) : EM σ (List (Val W)) :=
  directList all input src {} >>= fun e => pure e.outs

/-- The modules are functions of their parameters: they neither read nor change the state. -/
def PureModules (all : List (Module W σ)) : Prop :=
  ∀ m ∈ all, ∃ f : Params W → Res (Val W), ∀ ps s, m.fn ps s = (f ps, s)

mutual
/-- In each program nested in a value no input parameter is assigned. -/
def SValue.InputsKept : SValue → Prop
  | .instructions l => (∀ x v, .parameter x true ∈ l → .assignment x v ∉ l) ∧ nestedInputsKept l
  | _ => True

/-- In each program nested in an instruction no input parameter is assigned. -/
def Instr.InputsKept : Instr → Prop
  | .assignment _ v => v.InputsKept
  | _ => True

/-- In each program nested in instructions no input parameter is assigned. -/
def nestedInputsKept : List Instr → Prop
  | [] => True
  | i :: is => i.InputsKept ∧ nestedInputsKept is
end

/-- No input parameter is assigned, also in nested programs. -/
def InputsKept (src : List Instr) : Prop :=
  (∀ x v, .parameter x true ∈ src → .assignment x v ∉ src) ∧ nestedInputsKept src

/-! ## Calls of modules -/

/-- A module that also notes its index in a log when it is called. -/
def Module.logged (m : Module W σ) : Module W (σ × List Nat) where
  index := m.index
  fn ps s := ((m.fn ps s.1).1, ((m.fn ps s.1).2, s.2 ++ [m.index]))

mutual
/-- The modules called by a value, as written; `apps` gives the index of the module of each application. -/
def SValue.calls (apps : String → Option Nat) : SValue → List Nat
  | .execution a => (apps a).toList
  | .instructions l => callsOf (fun _ => none) (fun _ => none) l
  | _ => []

/-- The modules called by instructions, as written: one per execution, in the order of the text. -/
def callsOf (mods apps : String → Option Nat) : List Instr → List Nat
  | [] => []
  | .module i n :: is => callsOf (setAt mods n i) apps is
  | .application m n :: is => callsOf mods (fun x => if x = n then mods m else apps x) is
  | .assignment _ v :: is => v.calls apps ++ callsOf mods apps is
  | .execution a :: is => (apps a).toList ++ callsOf mods apps is
  | _ :: is => callsOf mods apps is
end

/-- The modules called by a program, as written. -/
def calls (src : List Instr) : List Nat := callsOf (fun _ => none) (fun _ => none) src

mutual
/-- The modules called by a value when variables are computed again wherever they are attached; `apps` gives the index of the
module of each application and the modules called by what is attached to it. -/
def SValue.runs (apps : String → Option (Nat × List Nat)) : SValue → List Nat
  | .execution a =>
    match apps a with
    | some (i, attached) => attached ++ [i]
    | none => []
  | .instructions l => runsOf (fun _ => none) (fun _ => none) (fun _ => []) l
  | _ => []

/-- The modules called by instructions, in order; `vars` gives the modules called by what was assigned to each variable. -/
def runsOf (mods : String → Option Nat) (apps : String → Option (Nat × List Nat)) (vars : String → List Nat) : List Instr → List Nat
  | [] => []
  | .module i n :: is => runsOf (setAt mods n i) apps vars is
  | .application m n :: is => runsOf mods (fun x => if x = n then (mods m).map (fun i => (i, [])) else apps x) vars is
  | .assignment n v :: is => v.runs apps ++ runsOf mods apps (fun x => if x = n then v.runs apps else vars x) is
  | .attachment c _ a :: is =>
    runsOf mods (fun x => if x = a then (apps a).map (fun p => (p.1, p.2 ++ vars c)) else apps x) vars is
  | .execution a :: is =>
    (match apps a with
    | some (i, attached) => attached ++ [i]
    | none => []) ++ runsOf mods apps vars is
  | _ :: is => runsOf mods apps vars is
end

/-- The modules called by a program, when what is attached is computed again for every execution. -/
def runs (src : List Instr) : List Nat := runsOf (fun _ => none) (fun _ => none) (fun _ => []) src

/-- A value without executions. -/
def SValue.plain : SValue → Prop
  | .var _ => True
  | .constant _ => True
  | _ => False

mutual
/-- In each program nested in a value, variables that are attached are only assigned plain values. -/
def SValue.PlainAttached : SValue → Prop
  | .instructions l =>
    (∀ c t a v, .attachment c t a ∈ l → .assignment c v ∈ l → v.plain) ∧ nestedPlainAttached l
  | _ => True

/-- The same for the programs nested in an instruction. -/
def Instr.PlainAttached : Instr → Prop
  | .assignment _ v => v.PlainAttached
  | _ => True

/-- The same for the programs nested in instructions. -/
def nestedPlainAttached : List Instr → Prop
  | [] => True
  | i :: is => i.PlainAttached ∧ nestedPlainAttached is
end

/-- Variables that are attached are only assigned plain values, also in nested programs. -/
def PlainAttached (src : List Instr) : Prop :=
  (∀ c t a v, .attachment c t a ∈ src → .assignment c v ∈ src → v.plain) ∧ nestedPlainAttached src

end Rodkina.Interp
