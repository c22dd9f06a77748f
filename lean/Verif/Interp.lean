import Verif.Base

/-!
# Model of the interpreter (libs/interpreters)

`compile` turns a list of instructions into a program, `execute` runs a program on a list of inputs.

Conventions.
* `interface{}` values are `Val W`: byte slices (constants), lists of values (the outputs of nested
  programs) and values of an arbitrary type `W` (anything else, nil included).
* The functions of modules are arbitrary functions of their parameters and of an arbitrary state `σ`,
  which stands for everything outside the interpreter.  They are assumed to terminate and not to write
  to the values they are given.
* Names are the strings given by `nameBytesToStringFn` (libs/interpreters/applications/sdk.go:9-10).
* Error messages are dropped, but an execution tells three kinds of errors apart (`Reason`).
* Objects are immutable and built bottom-up, so instructions and programs are finite trees.
* Slices that are appended to (outputs, instructions, attachments) are appended to once per version, so
  sharing their arrays is not observable; they are lists.
-/

namespace Rodkina.Interp

/-- `interface{}`. -/
inductive Val (W : Type) where
  | bytes (b : Bytes)
  | list (l : List (Val W))
  | other (w : W)

/-- The map of parameters given to a module, `map[uint]interface{}`:
libs/interpreters/domain/programs/modules/sdk.go:4. -/
abbrev Params (W : Type) := Nat → Option (Val W)

/-- `parameters[local] = ins`: libs/interpreters/applications/application.go:501. -/
def Params.set {W : Type} (ps : Params W) (local_ : Nat) (v : Val W) : Params W :=
  fun t => if t = local_ then some v else ps t

/-- A module: libs/interpreters/domain/programs/modules/module.go:3-28, libs/interpreters/domain/programs/modules/sdk.go:4. -/
structure Module (W σ : Type) where
  index : Nat
  fn : Params W → σ → Res (Val W) × σ

/-- `Fetch`, libs/interpreters/domain/programs/modules/modules.go:31-38, on the map filled by
libs/interpreters/domain/programs/modules/builder.go:40-44 (the last module with an index wins). -/
def fetchModule {W σ : Type} (all : List (Module W σ)) (index : Nat) : Option (Module W σ) :=
  all.reverse.find? (fun m => m.index == index)

mutual
/-- An instruction of the source: libs/interpreters/domain/instructions/instruction.go:10-133,
modules/module.go, applications/application.go, parameters/parameter.go, assignment.go,
attachments/attachment.go and attachments/variable.go. -/
inductive Instr where
  | module (index : Nat) (name : String)
  | application (module name : String)
  | parameter (name : String) (isInput : Bool)
  | assignment (name : String) (value : SValue)
  | attachment (current : String) (target : Nat) (application : String)
  | execution (application : String)

/-- A value of the source: libs/interpreters/domain/instructions/value.go:3-88. -/
inductive SValue where
  | var (name : String)
  | constant (b : Bytes)
  | instructions (list : List Instr)
  | execution (application : String)
end

mutual
/-- A program: libs/interpreters/domain/programs/program.go:3-46.  No outputs is the empty list. -/
inductive Program (W σ : Type) where
  | mk (instructions : List (PInstr W σ)) (outputs : List Nat)

/-- An instruction of a program: libs/interpreters/domain/programs/instruction.go:3-50. -/
inductive PInstr (W σ : Type) where
  | value (v : PValue W σ)
  | execution (a : App W σ)

/-- A value of a program: libs/interpreters/domain/programs/value.go:3-88. -/
inductive PValue (W σ : Type) where
  | input (index : Nat)
  | constant (b : Bytes)
  | execution (a : App W σ)
  | program (p : Program W σ)

/-- An application: libs/interpreters/domain/programs/application.go:7-60.  No attachments is the empty
list. -/
inductive App (W σ : Type) where
  | mk (index : Nat) (module : Module W σ) (attachments : List (Attachment W σ))

/-- An attachment: libs/interpreters/domain/programs/attachment.go:3-28. -/
inductive Attachment (W σ : Type) where
  | mk (value : PValue W σ) (local_ : Nat)
end

variable {W σ : Type}

/-- A declared parameter: libs/interpreters/applications/parameter.go:5-9.  The field
`allParameterIndex` is only used in an error message and left out. -/
structure Param where
  inputIndex : Nat
  isInput : Bool

/-- `m[k] = v` for a map with string keys, one entry per key. -/
def upd {β : Type} (m : List (String × β)) (k : String) (v : β) : List (String × β) :=
  (k, v) :: m.filter (fun e => e.1 != k)

/-- The maps and slices threaded through `Compile`:
libs/interpreters/applications/application.go:53-58. -/
structure CState (W σ : Type) where
  modules : List (String × Module W σ) := []
  applications : List (String × App W σ) := []
  parameters : List (String × Param) := []
  outputs : List Nat := []
  values : List (String × PValue W σ) := []
  instructions : List (PInstr W σ) := []

/-- `compileModule`, libs/interpreters/applications/application.go:392-412. -/
def compileModule (all : List (Module W σ)) (index : Nat) (name : String) (cs : CState W σ) :
    Res (CState W σ) :=
  match fetchModule all index with
  | none => .err
  | some m =>
    match cs.modules.lookup name with
    | some _ => .err
    | none => .ok { cs with modules := upd cs.modules name m }

/-- `compileApplication`, libs/interpreters/applications/application.go:363-390. -/
def compileApplication (module name : String) (cs : CState W σ) : Res (CState W σ) :=
  match cs.applications.lookup name with
  | some _ => .err
  | none =>
    match cs.modules.lookup module with
    | none => .err
    | some m => .ok { cs with
        applications := upd cs.applications name (.mk cs.applications.length m []) }

/-- `compileParameter`, libs/interpreters/applications/application.go:334-361. -/
def compileParameter (name : String) (isInput : Bool) (cs : CState W σ) : Res (CState W σ) :=
  match cs.parameters.lookup name with
  | some _ => .err
  | none => .ok { cs with
      parameters := upd cs.parameters name
        ⟨(cs.parameters.filter (fun p => p.2.isInput)).length, isInput⟩ }

/-- `compileAttachmentValue`, libs/interpreters/applications/application.go:253-276. -/
def compileAttachmentValue (current : String) (cs : CState W σ) : Res (PValue W σ) :=
  match cs.values.lookup current with
  | some v => .ok v
  | none =>
    match cs.parameters.lookup current with
    | none => .err
    | some p => if p.isInput then .ok (.input p.inputIndex) else .err

/-- `compileAttachment`, libs/interpreters/applications/application.go:205-251. -/
def compileAttachment (current : String) (target : Nat) (application : String) (cs : CState W σ) :
    Res (CState W σ) :=
  match compileAttachmentValue current cs with
  | .err => .err
  | .panic => .panic
  | .ok v =>
    match cs.applications.lookup application with
    | none => .err
    | some (.mk index m atts) => .ok { cs with
        applications := upd cs.applications application (.mk index m (atts ++ [.mk v target])) }

/-- `compileExecution`, libs/interpreters/applications/application.go:185-203. -/
def compileExecution (application : String) (cs : CState W σ) : Res (CState W σ) :=
  match cs.applications.lookup application with
  | none => .err
  | some a => .ok { cs with instructions := cs.instructions ++ [.execution a] }

/-- The end of `Compile`: libs/interpreters/applications/application.go:84-94 with
libs/interpreters/domain/programs/instructions_builder.go:31-41 and libs/interpreters/domain/programs/builder.go:39-53. -/
def program (cs : CState W σ) : Res (Program W σ) :=
  if cs.instructions.isEmpty then .err else .ok (.mk cs.instructions cs.outputs)

/-- An assignment with its compiled value: libs/interpreters/applications/application.go:137-164. -/
def compileAssignment (name : String) (v : PValue W σ) (cs : CState W σ) : CState W σ :=
  { cs with
    values := upd cs.values name v
    outputs := match cs.parameters.lookup name with
      | none => cs.outputs
      | some p => if p.isInput then cs.outputs else cs.outputs ++ [cs.instructions.length]
    instructions := cs.instructions ++ [.value v] }

mutual
/-- `compileValue`, libs/interpreters/applications/application.go:278-332.  A nested list of
instructions is compiled with the same modules and nothing else (`Compile`, lines 51-95). -/
def compileValue (all : List (Module W σ)) : SValue → CState W σ → Res (PValue W σ)
  | .var name, cs =>
    match cs.parameters.lookup name with
    | none => .err
    | some p => if p.isInput then .ok (.input p.inputIndex) else .err
  | .constant b, _ => .ok (.constant b)
  | .instructions list, _ =>
    match compileList all list {} with
    | .err => .err
    | .panic => .panic
    | .ok cs' =>
      match program cs' with
      | .err => .err
      | .panic => .panic
      | .ok p => .ok (.program p)
  | .execution name, cs =>
    match cs.applications.lookup name with
    | none => .err
    | some a => .ok (.execution a)

/-- `compileInstruction`, libs/interpreters/applications/application.go:97-183. -/
def compileInstr (all : List (Module W σ)) : Instr → CState W σ → Res (CState W σ)
  | .module index name, cs => compileModule all index name cs
  | .application module name, cs => compileApplication module name cs
  | .parameter name isInput, cs => compileParameter name isInput cs
  | .assignment name value, cs =>
    match compileValue all value cs with
    | .err => .err
    | .panic => .panic
    | .ok v => .ok (compileAssignment name v cs)
  | .attachment current target application, cs => compileAttachment current target application cs
  | .execution application, cs => compileExecution application cs

/-- The loop of `Compile`: libs/interpreters/applications/application.go:59-82. -/
def compileList (all : List (Module W σ)) : List Instr → CState W σ → Res (CState W σ)
  | [], cs => .ok cs
  | i :: is, cs =>
    match compileInstr all i cs with
    | .err => .err
    | .panic => .panic
    | .ok cs' => compileList all is cs'
end

/-- `Compile`, libs/interpreters/applications/application.go:51-95. -/
def compile (all : List (Module W σ)) (list : List Instr) : Res (Program W σ) :=
  match compileList all list {} with
  | .err => .err
  | .panic => .panic
  | .ok cs => program cs

/-- Why an execution fails: an input is missing (libs/interpreters/applications/application.go:462-465),
an output is missing (lines 451-452), or a module failed (line 506). -/
inductive Reason where
  | input
  | output
  | module
deriving DecidableEq

/-- The outcome of an execution. -/
inductive Outcome (α : Type) where
  | ok (a : α)
  | fail (r : Reason)
  | panic

/-- An execution: it changes the state, also when it fails. -/
def EM (σ α : Type) : Type := σ → Outcome α × σ

namespace EM

/-- Return a value. -/
def ret {α : Type} (a : α) : EM σ α := fun s => (.ok a, s)

/-- `if err != nil { return nil, err }`. -/
def andThen {α β : Type} (m : EM σ α) (f : α → EM σ β) : EM σ β := fun s =>
  match m s with
  | (.ok a, s') => f a s'
  | (.fail r, s') => (.fail r, s')
  | (.panic, s') => (.panic, s')

instance : Monad (EM σ) where
  pure := ret
  bind := andThen

/-- Fail. -/
def fail {α : Type} (r : Reason) : EM σ α := fun s => (.fail r, s)

end EM

/-- Call the function of a module: libs/interpreters/applications/application.go:505-506. -/
def callModule (m : Module W σ) (ps : Params W) : EM σ (Val W) := fun s =>
  match m.fn ps s with
  | (.ok v, s') => (.ok v, s')
  | (.err, s') => (.fail .module, s')
  | (.panic, s') => (.panic, s')

/-- The loop over the outputs: libs/interpreters/applications/application.go:442-454. -/
def collect (values : List (Nat × Val W)) : List Nat → EM σ (List (Val W))
  | [] => pure []
  | o :: os =>
    match values.lookup o with
    | none => EM.fail .output
    | some v => do
      let rest ← collect values os
      pure (v :: rest)

mutual
/-- `Execute`, libs/interpreters/applications/application.go:415-457. -/
def execProgram (input : List (Val W)) : Program W σ → EM σ (List (Val W))
  | .mk instructions outputs => do
    let values ← execInstrs input instructions 0 []
    collect values outputs

/-- The loop of `Execute`: libs/interpreters/applications/application.go:419-439.  `values` is the map
`valueIndexes`, newest entry first. -/
def execInstrs (input : List (Val W)) : List (PInstr W σ) → Nat → List (Nat × Val W) →
    EM σ (List (Nat × Val W))
  | [], _, values => pure values
  | .value v :: is, idx, values => do
    let x ← execValue input v
    execInstrs input is (idx + 1) ((idx, x) :: values)
  | .execution a :: is, idx, values => do
    let _ ← execApp input a
    execInstrs input is (idx + 1) values

/-- `executeValue`, libs/interpreters/applications/application.go:459-486. -/
def execValue (input : List (Val W)) : PValue W σ → EM σ (Val W)
  | .input i =>
    match input[i]? with
    | none => EM.fail .input
    | some v => pure v
  | .constant b => pure (.bytes b)
  | .program p => do
    let l ← execProgram input p
    pure (.list l)
  | .execution a => execApp input a

/-- `execute`, libs/interpreters/applications/application.go:488-507. -/
def execApp (input : List (Val W)) : App W σ → EM σ (Val W)
  | .mk _ m atts => do
    let ps ← execAttachments input atts (fun _ => none)
    callModule m ps

/-- The loop over the attachments: libs/interpreters/applications/application.go:491-503. -/
def execAttachments (input : List (Val W)) : List (Attachment W σ) → Params W → EM σ (Params W)
  | [], ps => pure ps
  | .mk v t :: rest, ps => do
    let x ← execValue input v
    execAttachments input rest (ps.set t x)
end

/-- `Execute`, libs/interpreters/applications/application.go:415-457. -/
def execute (input : List (Val W)) (p : Program W σ) : EM σ (List (Val W)) := execProgram input p

end Rodkina.Interp
