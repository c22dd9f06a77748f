import Verif.Interp
import Verif.Builders
/-!
# Model of the interpreter's builders (libs/interpreters/domain)

The conventions are those of `Verif.Builders`: a field per part, `WithX` overwrites it, `Create` clears all, `nil` is `none`.  A
name is the string of its bytes; only `nil` is no name, the empty slice is the empty name.
-/

namespace Rodkina.Interp
namespace Build

open Rodkina.Ast.Build (Builder listBuilder)

/-! ### Instructions -/

/-- libs/interpreters/domain/instructions/modules/module.go:3-28. -/
structure IModule where
  index : Nat
  name : String

/-- libs/interpreters/domain/instructions/applications/application.go:3-28. -/
structure IApplication where
  module : String
  name : String

/-- libs/interpreters/domain/instructions/parameters/parameter.go:3-40. -/
structure IParameter where
  name : String
  isInput : Bool

/-- libs/interpreters/domain/instructions/attachments/variable.go:3-28. -/
structure IVariable where
  current : String
  target : Nat

/-- libs/interpreters/domain/instructions/attachments/attachment.go:3-28. -/
structure IAttachment where
  var : IVariable
  application : String

/-- libs/interpreters/domain/instructions/assignment.go:3-28. -/
structure IAssignment where
  var : String
  value : SValue

/-- libs/interpreters/domain/instructions/instructions.go:3-46. -/
structure Instructions where
  list : List Instr
  remaining : Option Bytes

/-- Calls of libs/interpreters/domain/instructions/modules/builder.go:24-34. -/
inductive ModuleCall where
  | withIndex (x : Nat)
  | withName (x : Option String)

/-- The fields of libs/interpreters/domain/instructions/modules/builder.go:5-47. -/
structure ModuleFields where
  index : Option Nat := none
  name : Option String := none

/-- libs/interpreters/domain/instructions/modules/builder.go:5-47, libs/interpreters/domain/instructions/modules/module.go:3-28. -/
def moduleBuilder : Builder (ModuleFields) (ModuleCall) (IModule) where
  init := {}
  set := fun k s =>
    match k with
    | .withIndex x => { s with index := some x }
    | .withName x => { s with name := x }
  now := fun s =>
    match s.index with
    | none => .err
    | some a =>
      match s.name with
      | none => .err
      | some b => .ok ⟨a, b⟩

/-- Calls of libs/interpreters/domain/instructions/applications/builder.go:24-34. -/
inductive ApplicationCall where
  | withModule (x : Option String)
  | withName (x : Option String)

/-- The fields of libs/interpreters/domain/instructions/applications/builder.go:5-47. -/
structure ApplicationFields where
  module : Option String := none
  name : Option String := none

/-- libs/interpreters/domain/instructions/applications/builder.go:5-47, libs/interpreters/domain/instructions/applications/application.go:3-28. -/
def applicationBuilder : Builder (ApplicationFields) (ApplicationCall) (IApplication) where
  init := {}
  set := fun k s =>
    match k with
    | .withModule x => { s with module := x }
    | .withName x => { s with name := x }
  now := fun s =>
    match s.module with
    | none => .err
    | some a =>
      match s.name with
      | none => .err
      | some b => .ok ⟨a, b⟩

/-- Calls of libs/interpreters/domain/instructions/parameters/builder.go:24-34. -/
inductive ParameterCall where
  | withName (x : Option String)
  | isInput

/-- The fields of libs/interpreters/domain/instructions/parameters/builder.go:5-47. -/
structure ParameterFields where
  name : Option String := none
  isInput : Bool := false

/-- libs/interpreters/domain/instructions/parameters/builder.go:5-47, libs/interpreters/domain/instructions/parameters/parameter.go:3-40. -/
def parameterBuilder : Builder (ParameterFields) (ParameterCall) (IParameter) where
  init := {}
  set := fun k s =>
    match k with
    | .withName x => { s with name := x }
    | .isInput => { s with isInput := true }
  now := fun s =>
    match s.name with
    | none => .err
    | some n => if s.isInput then .ok ⟨n, true⟩ else .ok ⟨n, false⟩

/-- Calls of libs/interpreters/domain/instructions/attachments/variable_builder.go:24-34. -/
inductive VariableCall where
  | withCurrent (x : Option String)
  | withTarget (x : Nat)

/-- The fields of libs/interpreters/domain/instructions/attachments/variable_builder.go:5-47. -/
structure VariableFields where
  current : Option String := none
  target : Option Nat := none

/-- libs/interpreters/domain/instructions/attachments/variable_builder.go:5-47, libs/interpreters/domain/instructions/attachments/variable.go:3-28. -/
def variableBuilder : Builder (VariableFields) (VariableCall) (IVariable) where
  init := {}
  set := fun k s =>
    match k with
    | .withCurrent x => { s with current := x }
    | .withTarget x => { s with target := some x }
  now := fun s =>
    match s.current with
    | none => .err
    | some a =>
      match s.target with
      | none => .err
      | some b => .ok ⟨a, b⟩

/-- Calls of libs/interpreters/domain/instructions/attachments/builder.go:24-34. -/
inductive AttachmentCall where
  | withVariable (x : Option IVariable)
  | withApplication (x : Option String)

/-- The fields of libs/interpreters/domain/instructions/attachments/builder.go:5-47. -/
structure AttachmentFields where
  var : Option IVariable := none
  application : Option String := none

/-- libs/interpreters/domain/instructions/attachments/builder.go:5-47, libs/interpreters/domain/instructions/attachments/attachment.go:3-28. -/
def attachmentBuilder : Builder (AttachmentFields) (AttachmentCall) (IAttachment) where
  init := {}
  set := fun k s =>
    match k with
    | .withVariable x => { s with var := x }
    | .withApplication x => { s with application := x }
  now := fun s =>
    match s.var with
    | none => .err
    | some a =>
      match s.application with
      | none => .err
      | some b => .ok ⟨a, b⟩

/-- Calls of libs/interpreters/domain/instructions/assignment_builder.go:24-34. -/
inductive AssignmentCall where
  | withVariable (x : Option String)
  | withValue (x : Option SValue)

/-- The fields of libs/interpreters/domain/instructions/assignment_builder.go:5-47. -/
structure AssignmentFields where
  var : Option String := none
  value : Option SValue := none

/-- libs/interpreters/domain/instructions/assignment_builder.go:5-47, libs/interpreters/domain/instructions/assignment.go:3-28. -/
def assignmentBuilder : Builder (AssignmentFields) (AssignmentCall) (IAssignment) where
  init := {}
  set := fun k s =>
    match k with
    | .withVariable x => { s with var := x }
    | .withValue x => { s with value := x }
  now := fun s =>
    match s.var with
    | none => .err
    | some a =>
      match s.value with
      | none => .err
      | some b => .ok ⟨a, b⟩

/-- Calls of libs/interpreters/domain/instructions/builder.go:23-33. -/
inductive InstructionsCall where
  | withList (x : Option (List Instr))
  | withRemaining (x : Option Bytes)

/-- The fields of libs/interpreters/domain/instructions/builder.go:5-54. -/
structure InstructionsFields where
  list : Option (List Instr) := none
  remaining : Option Bytes := none

/-- libs/interpreters/domain/instructions/builder.go:5-54, libs/interpreters/domain/instructions/instructions.go:3-46. -/
def instructionsBuilder : Builder (InstructionsFields) (InstructionsCall) (Instructions) where
  init := {}
  set := fun k s =>
    match k with
    | .withList x => { s with list := x }
    | .withRemaining x => { s with remaining := x }
  now := fun s =>
    match s.list with
    | none => .err
    | some [] => .err
    | some l =>
      match s.remaining with
      | none => .ok ⟨l, none⟩
      | some [] => .ok ⟨l, none⟩
      | some r => .ok ⟨l, some r⟩

/-- Calls of libs/interpreters/domain/instructions/value_builder.go:28-50. -/
inductive ValueCall where
  | withVariable (x : Option String)
  | withConstant (x : Option Bytes)
  | withInstructions (x : Option Instructions)
  | withExecution (x : Option String)

/-- The fields of libs/interpreters/domain/instructions/value_builder.go:5-71. -/
structure ValueFields where
  var : Option String := none
  constant : Option Bytes := none
  instructions : Option Instructions := none
  execution : Option String := none

/-- libs/interpreters/domain/instructions/value_builder.go:5-71, libs/interpreters/domain/instructions/value.go:3-88.  What remains of the instructions is dropped, as in `SValue`. -/
def valueBuilder : Builder (ValueFields) (ValueCall) (SValue) where
  init := {}
  set := fun k s =>
    match k with
    | .withVariable x => { s with var := x }
    | .withConstant x => { s with constant := x }
    | .withInstructions x => { s with instructions := x }
    | .withExecution x => { s with execution := x }
  now := fun s =>
    match s.var with
    | some x => .ok (.var x)
    | none =>
      match s.constant with
      | some x => .ok (.constant x)
      | none =>
        match s.instructions with
        | some x => .ok (.instructions x.list)
        | none =>
          match s.execution with
          | some x => .ok (.execution x)
          | none =>
            .err

/-- Calls of libs/interpreters/domain/instructions/instruction_builder.go:39-73. -/
inductive InstructionCall where
  | withModule (x : Option IModule)
  | withApplication (x : Option IApplication)
  | withParameter (x : Option IParameter)
  | withAssignment (x : Option IAssignment)
  | withAttachment (x : Option IAttachment)
  | withExecution (x : Option String)

/-- The fields of libs/interpreters/domain/instructions/instruction_builder.go:12-102. -/
structure InstructionFields where
  module : Option IModule := none
  application : Option IApplication := none
  parameter : Option IParameter := none
  assignment : Option IAssignment := none
  attachment : Option IAttachment := none
  execution : Option String := none

/-- libs/interpreters/domain/instructions/instruction_builder.go:12-102, libs/interpreters/domain/instructions/instruction.go:10-133. -/
def instructionBuilder : Builder (InstructionFields) (InstructionCall) (Instr) where
  init := {}
  set := fun k s =>
    match k with
    | .withModule x => { s with module := x }
    | .withApplication x => { s with application := x }
    | .withParameter x => { s with parameter := x }
    | .withAssignment x => { s with assignment := x }
    | .withAttachment x => { s with attachment := x }
    | .withExecution x => { s with execution := x }
  now := fun s =>
    match s.module with
    | some x => .ok (.module x.index x.name)
    | none =>
      match s.application with
      | some x => .ok (.application x.module x.name)
      | none =>
        match s.parameter with
        | some x => .ok (.parameter x.name x.isInput)
        | none =>
          match s.assignment with
          | some x => .ok (.assignment x.var x.value)
          | none =>
            match s.attachment with
            | some x => .ok (.attachment x.var.current x.var.target x.application)
            | none =>
              match s.execution with
              | some x => .ok (.execution x)
              | none =>
                .err

/-! ### Programs -/

/-- Calls of libs/interpreters/domain/programs/modules/module_builder.go:24-34. -/
inductive PModuleCall (W : Type) (σ : Type) where
  | withIndex (x : Nat)
  | withFunc (x : Option (Params W → σ → Res (Val W) × σ))

/-- The fields of libs/interpreters/domain/programs/modules/module_builder.go:5-47. -/
structure PModuleFields (W : Type) (σ : Type) where
  index : Option Nat := none
  fn : Option (Params W → σ → Res (Val W) × σ) := none

/-- libs/interpreters/domain/programs/modules/module_builder.go:5-47, libs/interpreters/domain/programs/modules/module.go:3-28. -/
def pModuleBuilder (W : Type) (σ : Type) : Builder (PModuleFields W σ) (PModuleCall W σ) (Module W σ) where
  init := {}
  set := fun k s =>
    match k with
    | .withIndex x => { s with index := some x }
    | .withFunc x => { s with fn := x }
  now := fun s =>
    match s.index with
    | none => .err
    | some a =>
      match s.fn with
      | none => .err
      | some b => .ok ⟨a, b⟩

/-- Calls of libs/interpreters/domain/programs/attachment_builder.go:24-34. -/
inductive PAttachmentCall (W : Type) (σ : Type) where
  | withValue (x : Option (PValue W σ))
  | withLocal (x : Nat)

/-- The fields of libs/interpreters/domain/programs/attachment_builder.go:5-47. -/
structure PAttachmentFields (W : Type) (σ : Type) where
  value : Option (PValue W σ) := none
  local_ : Option Nat := none

/-- libs/interpreters/domain/programs/attachment_builder.go:5-47, libs/interpreters/domain/programs/attachment.go:3-28. -/
def pAttachmentBuilder (W : Type) (σ : Type) : Builder (PAttachmentFields W σ) (PAttachmentCall W σ) (Attachment W σ) where
  init := {}
  set := fun k s =>
    match k with
    | .withValue x => { s with value := x }
    | .withLocal x => { s with local_ := some x }
  now := fun s =>
    match s.value with
    | none => .err
    | some a =>
      match s.local_ with
      | none => .err
      | some b => .ok (.mk a b)

/-- Calls of libs/interpreters/domain/programs/application_builder.go:30-46. -/
inductive PApplicationCall (W : Type) (σ : Type) where
  | withIndex (x : Nat)
  | withModule (x : Option (Module W σ))
  | withAttachments (x : Option (List (Attachment W σ)))

/-- The fields of libs/interpreters/domain/programs/application_builder.go:9-63. -/
structure PApplicationFields (W : Type) (σ : Type) where
  index : Option Nat := none
  module : Option (Module W σ) := none
  attachments : Option (List (Attachment W σ)) := none

/-- libs/interpreters/domain/programs/application_builder.go:9-63, libs/interpreters/domain/programs/application.go:7-60.  The attachments are the list they hold. -/
def pApplicationBuilder (W : Type) (σ : Type) : Builder (PApplicationFields W σ) (PApplicationCall W σ) (App W σ) where
  init := {}
  set := fun k s =>
    match k with
    | .withIndex x => { s with index := some x }
    | .withModule x => { s with module := x }
    | .withAttachments x => { s with attachments := x }
  now := fun s =>
    match s.index with
    | none => .err
    | some i =>
      match s.module with
      | none => .err
      | some m =>
        match s.attachments with
        | some l => .ok (.mk i m l)
        | none => .ok (.mk i m [])

/-- Calls of libs/interpreters/domain/programs/instruction_builder.go:24-34. -/
inductive PInstructionCall (W : Type) (σ : Type) where
  | withValue (x : Option (PValue W σ))
  | withExecution (x : Option (App W σ))

/-- The fields of libs/interpreters/domain/programs/instruction_builder.go:5-47. -/
structure PInstructionFields (W : Type) (σ : Type) where
  value : Option (PValue W σ) := none
  execution : Option (App W σ) := none

/-- libs/interpreters/domain/programs/instruction_builder.go:5-47, libs/interpreters/domain/programs/instruction.go:3-50. -/
def pInstructionBuilder (W : Type) (σ : Type) : Builder (PInstructionFields W σ) (PInstructionCall W σ) (PInstr W σ) where
  init := {}
  set := fun k s =>
    match k with
    | .withValue x => { s with value := x }
    | .withExecution x => { s with execution := x }
  now := fun s =>
    match s.value with
    | some x => .ok (.value x)
    | none =>
      match s.execution with
      | some x => .ok (.execution x)
      | none =>
        .err

/-- Calls of libs/interpreters/domain/programs/value_builder.go:30-52. -/
inductive PValueCall (W : Type) (σ : Type) where
  | withInput (x : Nat)
  | withConstant (x : Option Bytes)
  | withExecution (x : Option (App W σ))
  | withProgram (x : Option (Program W σ))

/-- The fields of libs/interpreters/domain/programs/value_builder.go:7-73. -/
structure PValueFields (W : Type) (σ : Type) where
  input : Option Nat := none
  constant : Option Bytes := none
  execution : Option (App W σ) := none
  program : Option (Program W σ) := none

/-- libs/interpreters/domain/programs/value_builder.go:7-73, libs/interpreters/domain/programs/value.go:3-88. -/
def pValueBuilder (W : Type) (σ : Type) : Builder (PValueFields W σ) (PValueCall W σ) (PValue W σ) where
  init := {}
  set := fun k s =>
    match k with
    | .withInput x => { s with input := some x }
    | .withConstant x => { s with constant := x }
    | .withExecution x => { s with execution := x }
    | .withProgram x => { s with program := x }
  now := fun s =>
    match s.input with
    | some x => .ok (.input x)
    | none =>
      match s.constant with
      | some x => .ok (.constant x)
      | none =>
        match s.execution with
        | some x => .ok (.execution x)
        | none =>
          match s.program with
          | some x => .ok (.program x)
          | none =>
            .err

/-- Calls of libs/interpreters/domain/programs/builder.go:26-36. -/
inductive ProgramCall (W : Type) (σ : Type) where
  | withInstructions (x : Option (List (PInstr W σ)))
  | withOutputs (x : Option (List Nat))

/-- The fields of libs/interpreters/domain/programs/builder.go:7-53. -/
structure ProgramFields (W : Type) (σ : Type) where
  instructions : Option (List (PInstr W σ)) := none
  outputs : Option (List Nat) := none

/-- libs/interpreters/domain/programs/builder.go:7-53, libs/interpreters/domain/programs/program.go:3-46.  The instructions are the list they hold. -/
def programBuilder (W : Type) (σ : Type) : Builder (ProgramFields W σ) (ProgramCall W σ) (Program W σ) where
  init := {}
  set := fun k s =>
    match k with
    | .withInstructions x => { s with instructions := x }
    | .withOutputs x => { s with outputs := x }
  now := fun s =>
    match s.instructions with
    | none => .err
    | some is =>
      match s.outputs with
      | none => .ok (.mk is [])
      | some [] => .ok (.mk is [])
      | some os => .ok (.mk is os)

/-- libs/interpreters/domain/programs/instructions_builder.go:7-41, libs/interpreters/domain/programs/instructions.go:3-20. -/
def pInstructionsBuilder (W σ : Type) : Builder (Option (List (PInstr W σ))) (Option (List (PInstr W σ))) (List (PInstr W σ)) :=
  listBuilder (PInstr W σ)

/-- libs/interpreters/domain/programs/attachments_builder.go:7-41, libs/interpreters/domain/programs/attachments.go:3-20. -/
def pAttachmentsBuilder (W σ : Type) :
    Builder (Option (List (Attachment W σ))) (Option (List (Attachment W σ))) (List (Attachment W σ)) :=
  listBuilder (Attachment W σ)

/-- libs/interpreters/domain/programs/modules/builder.go:7-47.  The map it fills is `fetchModule`. -/
def pModulesBuilder (W σ : Type) : Builder (Option (List (Module W σ))) (Option (List (Module W σ))) (List (Module W σ)) :=
  listBuilder (Module W σ)

end Build
end Rodkina.Interp
