import Verif.InterpBuilders
import Verif.BuildersSpec
/-!
# Specification of the interpreter's builders

What each call gives, well-formed sources and programs, and those that can be built.
-/

namespace Rodkina.Interp
namespace BuildSpec

open Build
open Rodkina.Ast.BuildSpec

/-! ### What a call gives for each part -/

/-- The index a call gives. -/
def _root_.Rodkina.Interp.Build.ModuleCall.index? : ModuleCall → Option (Option Nat)
  | .withIndex x => some (some x)
  | _ => none

/-- The name a call gives. -/
def _root_.Rodkina.Interp.Build.ModuleCall.name? : ModuleCall → Option (Option String)
  | .withName x => some x
  | _ => none

/-- The module a call gives. -/
def _root_.Rodkina.Interp.Build.ApplicationCall.module? : ApplicationCall → Option (Option String)
  | .withModule x => some x
  | _ => none

/-- The name a call gives. -/
def _root_.Rodkina.Interp.Build.ApplicationCall.name? : ApplicationCall → Option (Option String)
  | .withName x => some x
  | _ => none

/-- The name a call gives. -/
def _root_.Rodkina.Interp.Build.ParameterCall.name? : ParameterCall → Option (Option String)
  | .withName x => some x
  | _ => none

/-- The isInput a call gives. -/
def _root_.Rodkina.Interp.Build.ParameterCall.isInput? : ParameterCall → Option Bool
  | .isInput => some true
  | _ => none

/-- The current a call gives. -/
def _root_.Rodkina.Interp.Build.VariableCall.current? : VariableCall → Option (Option String)
  | .withCurrent x => some x
  | _ => none

/-- The target a call gives. -/
def _root_.Rodkina.Interp.Build.VariableCall.target? : VariableCall → Option (Option Nat)
  | .withTarget x => some (some x)
  | _ => none

/-- The var a call gives. -/
def _root_.Rodkina.Interp.Build.AttachmentCall.var? : AttachmentCall → Option (Option IVariable)
  | .withVariable x => some x
  | _ => none

/-- The application a call gives. -/
def _root_.Rodkina.Interp.Build.AttachmentCall.application? : AttachmentCall → Option (Option String)
  | .withApplication x => some x
  | _ => none

/-- The var a call gives. -/
def _root_.Rodkina.Interp.Build.AssignmentCall.var? : AssignmentCall → Option (Option String)
  | .withVariable x => some x
  | _ => none

/-- The value a call gives. -/
def _root_.Rodkina.Interp.Build.AssignmentCall.value? : AssignmentCall → Option (Option SValue)
  | .withValue x => some x
  | _ => none

/-- The list a call gives. -/
def _root_.Rodkina.Interp.Build.InstructionsCall.list? : InstructionsCall → Option (Option (List Instr))
  | .withList x => some x
  | _ => none

/-- The remaining a call gives. -/
def _root_.Rodkina.Interp.Build.InstructionsCall.remaining? : InstructionsCall → Option (Option Bytes)
  | .withRemaining x => some x
  | _ => none

/-- The var a call gives. -/
def _root_.Rodkina.Interp.Build.ValueCall.var? : ValueCall → Option (Option String)
  | .withVariable x => some x
  | _ => none

/-- The constant a call gives. -/
def _root_.Rodkina.Interp.Build.ValueCall.constant? : ValueCall → Option (Option Bytes)
  | .withConstant x => some x
  | _ => none

/-- The instructions a call gives. -/
def _root_.Rodkina.Interp.Build.ValueCall.instructions? : ValueCall → Option (Option Instructions)
  | .withInstructions x => some x
  | _ => none

/-- The execution a call gives. -/
def _root_.Rodkina.Interp.Build.ValueCall.execution? : ValueCall → Option (Option String)
  | .withExecution x => some x
  | _ => none

/-- The module a call gives. -/
def _root_.Rodkina.Interp.Build.InstructionCall.module? : InstructionCall → Option (Option IModule)
  | .withModule x => some x
  | _ => none

/-- The application a call gives. -/
def _root_.Rodkina.Interp.Build.InstructionCall.application? : InstructionCall → Option (Option IApplication)
  | .withApplication x => some x
  | _ => none

/-- The parameter a call gives. -/
def _root_.Rodkina.Interp.Build.InstructionCall.parameter? : InstructionCall → Option (Option IParameter)
  | .withParameter x => some x
  | _ => none

/-- The assignment a call gives. -/
def _root_.Rodkina.Interp.Build.InstructionCall.assignment? : InstructionCall → Option (Option IAssignment)
  | .withAssignment x => some x
  | _ => none

/-- The attachment a call gives. -/
def _root_.Rodkina.Interp.Build.InstructionCall.attachment? : InstructionCall → Option (Option IAttachment)
  | .withAttachment x => some x
  | _ => none

/-- The execution a call gives. -/
def _root_.Rodkina.Interp.Build.InstructionCall.execution? : InstructionCall → Option (Option String)
  | .withExecution x => some x
  | _ => none

/-- The index a call gives. -/
def _root_.Rodkina.Interp.Build.PModuleCall.index? {W : Type} {σ : Type} : PModuleCall W σ → Option (Option Nat)
  | .withIndex x => some (some x)
  | _ => none

/-- The fn a call gives. -/
def _root_.Rodkina.Interp.Build.PModuleCall.fn? {W : Type} {σ : Type} : PModuleCall W σ → Option (Option (Params W → σ → Res (Val W) × σ))
  | .withFunc x => some x
  | _ => none

/-- The value a call gives. -/
def _root_.Rodkina.Interp.Build.PAttachmentCall.value? {W : Type} {σ : Type} : PAttachmentCall W σ → Option (Option (PValue W σ))
  | .withValue x => some x
  | _ => none

/-- The local_ a call gives. -/
def _root_.Rodkina.Interp.Build.PAttachmentCall.local_? {W : Type} {σ : Type} : PAttachmentCall W σ → Option (Option Nat)
  | .withLocal x => some (some x)
  | _ => none

/-- The index a call gives. -/
def _root_.Rodkina.Interp.Build.PApplicationCall.index? {W : Type} {σ : Type} : PApplicationCall W σ → Option (Option Nat)
  | .withIndex x => some (some x)
  | _ => none

/-- The module a call gives. -/
def _root_.Rodkina.Interp.Build.PApplicationCall.module? {W : Type} {σ : Type} : PApplicationCall W σ → Option (Option (Module W σ))
  | .withModule x => some x
  | _ => none

/-- The attachments a call gives. -/
def _root_.Rodkina.Interp.Build.PApplicationCall.attachments? {W : Type} {σ : Type} : PApplicationCall W σ → Option (Option (List (Attachment W σ)))
  | .withAttachments x => some x
  | _ => none

/-- The value a call gives. -/
def _root_.Rodkina.Interp.Build.PInstructionCall.value? {W : Type} {σ : Type} : PInstructionCall W σ → Option (Option (PValue W σ))
  | .withValue x => some x
  | _ => none

/-- The execution a call gives. -/
def _root_.Rodkina.Interp.Build.PInstructionCall.execution? {W : Type} {σ : Type} : PInstructionCall W σ → Option (Option (App W σ))
  | .withExecution x => some x
  | _ => none

/-- The input a call gives. -/
def _root_.Rodkina.Interp.Build.PValueCall.input? {W : Type} {σ : Type} : PValueCall W σ → Option (Option Nat)
  | .withInput x => some (some x)
  | _ => none

/-- The constant a call gives. -/
def _root_.Rodkina.Interp.Build.PValueCall.constant? {W : Type} {σ : Type} : PValueCall W σ → Option (Option Bytes)
  | .withConstant x => some x
  | _ => none

/-- The execution a call gives. -/
def _root_.Rodkina.Interp.Build.PValueCall.execution? {W : Type} {σ : Type} : PValueCall W σ → Option (Option (App W σ))
  | .withExecution x => some x
  | _ => none

/-- The program a call gives. -/
def _root_.Rodkina.Interp.Build.PValueCall.program? {W : Type} {σ : Type} : PValueCall W σ → Option (Option (Program W σ))
  | .withProgram x => some x
  | _ => none

/-- The instructions a call gives. -/
def _root_.Rodkina.Interp.Build.ProgramCall.instructions? {W : Type} {σ : Type} : ProgramCall W σ → Option (Option (List (PInstr W σ)))
  | .withInstructions x => some x
  | _ => none

/-- The outputs a call gives. -/
def _root_.Rodkina.Interp.Build.ProgramCall.outputs? {W : Type} {σ : Type} : ProgramCall W σ → Option (Option (List Nat))
  | .withOutputs x => some x
  | _ => none

/-! ### Well-formed sources and programs -/

mutual
/-- At any depth: a list of instructions used as a value is not empty.  Nothing is said about names. -/
inductive InstrWF : Instr → Prop
  | module (i : Nat) (n : String) : InstrWF (.module i n)
  | application (m n : String) : InstrWF (.application m n)
  | parameter (n : String) (b : Bool) : InstrWF (.parameter n b)
  | assignment (n : String) (v : SValue) : ValueWF v → InstrWF (.assignment n v)
  | attachment (c : String) (t : Nat) (a : String) : InstrWF (.attachment c t a)
  | execution (a : String) : InstrWF (.execution a)

/-- The same for values. -/
inductive ValueWF : SValue → Prop
  | var (n : String) : ValueWF (.var n)
  | constant (b : Bytes) : ValueWF (.constant b)
  | instructions (l : List Instr) : l ≠ [] → (∀ i ∈ l, InstrWF i) → ValueWF (.instructions l)
  | execution (a : String) : ValueWF (.execution a)
end

mutual
/-- At any depth: a program has at least one instruction. -/
inductive ProgramWF {W σ : Type} : Program W σ → Prop
  | mk (is : List (PInstr W σ)) (os : List Nat) : is ≠ [] → (∀ i ∈ is, PInstrWF i) → ProgramWF (.mk is os)

/-- The same for instructions. -/
inductive PInstrWF {W σ : Type} : PInstr W σ → Prop
  | value (v : PValue W σ) : PValueWF v → PInstrWF (.value v)
  | execution (a : App W σ) : AppWF a → PInstrWF (.execution a)

/-- The same for values. -/
inductive PValueWF {W σ : Type} : PValue W σ → Prop
  | input (i : Nat) : PValueWF (.input i)
  | constant (b : Bytes) : PValueWF (.constant b)
  | execution (a : App W σ) : AppWF a → PValueWF (.execution a)
  | program (p : Program W σ) : ProgramWF p → PValueWF (.program p)

/-- The same for applications. -/
inductive AppWF {W σ : Type} : App W σ → Prop
  | mk (i : Nat) (m : Module W σ) (l : List (Attachment W σ)) : (∀ a ∈ l, AttachmentWF a) → AppWF (.mk i m l)

/-- The same for attachments. -/
inductive AttachmentWF {W σ : Type} : Attachment W σ → Prop
  | mk (v : PValue W σ) (t : Nat) : PValueWF v → AttachmentWF (.mk v t)
end

/-! ### Sources and programs that can be built

Every part given to a builder was itself obtained from a builder. -/

/-- Attachments of a source that can be built. -/
def IAttachmentBuilt (a : IAttachment) : Prop :=
  ∃ calls, attachmentBuilder.build calls = .ok a ∧
    ∀ v, some (.withVariable (some v)) ∈ calls → ∃ calls', variableBuilder.build calls' = .ok v

mutual
/-- Instructions that can be built. -/
inductive InstrBuilt : Instr → Prop
  | mk (i : Instr) (calls : List (Option InstructionCall)) : instructionBuilder.build calls = .ok i →
      (∀ x, some (.withModule (some x)) ∈ calls → ∃ calls', moduleBuilder.build calls' = .ok x) →
      (∀ x, some (.withApplication (some x)) ∈ calls → ∃ calls', applicationBuilder.build calls' = .ok x) →
      (∀ x, some (.withParameter (some x)) ∈ calls → ∃ calls', parameterBuilder.build calls' = .ok x) →
      (∀ x, some (.withAssignment (some x)) ∈ calls → AssignmentBuilt x) →
      (∀ x, some (.withAttachment (some x)) ∈ calls → IAttachmentBuilt x) → InstrBuilt i

/-- Assignments that can be built. -/
inductive AssignmentBuilt : IAssignment → Prop
  | mk (a : IAssignment) (calls : List (Option AssignmentCall)) : assignmentBuilder.build calls = .ok a →
      (∀ x, some (.withValue (some x)) ∈ calls → ValueBuilt x) → AssignmentBuilt a

/-- Values that can be built. -/
inductive ValueBuilt : SValue → Prop
  | mk (v : SValue) (calls : List (Option ValueCall)) : valueBuilder.build calls = .ok v →
      (∀ x, some (.withInstructions (some x)) ∈ calls → InstructionsBuilt x) → ValueBuilt v

/-- Lists of instructions that can be built. -/
inductive InstructionsBuilt : Instructions → Prop
  | mk (is : Instructions) (calls : List (Option InstructionsCall)) : instructionsBuilder.build calls = .ok is →
      (∀ l, some (.withList (some l)) ∈ calls → ∀ i ∈ l, InstrBuilt i) → InstructionsBuilt is
end

mutual
/-- Programs that can be built. -/
inductive ProgramBuilt {W σ : Type} : Program W σ → Prop
  | mk (p : Program W σ) (calls : List (Option (ProgramCall W σ))) : (programBuilder W σ).build calls = .ok p →
      (∀ l, some (.withInstructions (some l)) ∈ calls → ∃ calls', (pInstructionsBuilder W σ).build calls' = .ok l) →
      (∀ l, some (.withInstructions (some l)) ∈ calls → ∀ i ∈ l, PInstrBuilt i) → ProgramBuilt p

/-- Instructions of programs that can be built. -/
inductive PInstrBuilt {W σ : Type} : PInstr W σ → Prop
  | mk (i : PInstr W σ) (calls : List (Option (PInstructionCall W σ))) : (pInstructionBuilder W σ).build calls = .ok i →
      (∀ v, some (.withValue (some v)) ∈ calls → PValueBuilt v) →
      (∀ a, some (.withExecution (some a)) ∈ calls → AppBuilt a) → PInstrBuilt i

/-- Values of programs that can be built. -/
inductive PValueBuilt {W σ : Type} : PValue W σ → Prop
  | mk (v : PValue W σ) (calls : List (Option (PValueCall W σ))) : (pValueBuilder W σ).build calls = .ok v →
      (∀ a, some (.withExecution (some a)) ∈ calls → AppBuilt a) →
      (∀ p, some (.withProgram (some p)) ∈ calls → ProgramBuilt p) → PValueBuilt v

/-- Applications that can be built. -/
inductive AppBuilt {W σ : Type} : App W σ → Prop
  | mk (a : App W σ) (calls : List (Option (PApplicationCall W σ))) : (pApplicationBuilder W σ).build calls = .ok a →
      (∀ m, some (.withModule (some m)) ∈ calls → ∃ calls', (pModuleBuilder W σ).build calls' = .ok m) →
      (∀ l, some (.withAttachments (some l)) ∈ calls → ∃ calls', (pAttachmentsBuilder W σ).build calls' = .ok l) →
      (∀ l, some (.withAttachments (some l)) ∈ calls → ∀ x ∈ l, AttachmentBuilt x) → AppBuilt a

/-- Attachments of programs that can be built. -/
inductive AttachmentBuilt {W σ : Type} : Attachment W σ → Prop
  | mk (a : Attachment W σ) (calls : List (Option (PAttachmentCall W σ))) : (pAttachmentBuilder W σ).build calls = .ok a →
      (∀ v, some (.withValue (some v)) ∈ calls → PValueBuilt v) → AttachmentBuilt a
end

/-! ### What holds everywhere in a program -/

mutual
/-- At any depth: `I` holds of the number of every input that is used, `M` of every module, `O` of the instructions and the
outputs of every program. -/
inductive ProgramAll {W σ : Type} (I : Nat → Prop) (M : Module W σ → Prop) (O : List (PInstr W σ) → List Nat → Prop) :
    Program W σ → Prop
  | mk (is : List (PInstr W σ)) (os : List Nat) : O is os → (∀ i ∈ is, InstrAll I M O i) → ProgramAll I M O (.mk is os)

/-- The same for instructions. -/
inductive InstrAll {W σ : Type} (I : Nat → Prop) (M : Module W σ → Prop) (O : List (PInstr W σ) → List Nat → Prop) :
    PInstr W σ → Prop
  | value (v : PValue W σ) : ValueAll I M O v → InstrAll I M O (.value v)
  | execution (a : App W σ) : AppAll I M O a → InstrAll I M O (.execution a)

/-- The same for values. -/
inductive ValueAll {W σ : Type} (I : Nat → Prop) (M : Module W σ → Prop) (O : List (PInstr W σ) → List Nat → Prop) :
    PValue W σ → Prop
  | input (i : Nat) : I i → ValueAll I M O (.input i)
  | constant (b : Bytes) : ValueAll I M O (.constant b)
  | execution (a : App W σ) : AppAll I M O a → ValueAll I M O (.execution a)
  | program (p : Program W σ) : ProgramAll I M O p → ValueAll I M O (.program p)

/-- The same for applications. -/
inductive AppAll {W σ : Type} (I : Nat → Prop) (M : Module W σ → Prop) (O : List (PInstr W σ) → List Nat → Prop) :
    App W σ → Prop
  | mk (i : Nat) (m : Module W σ) (l : List (Attachment W σ)) : M m → (∀ a ∈ l, AttachmentAll I M O a) → AppAll I M O (.mk i m l)

/-- The same for attachments. -/
inductive AttachmentAll {W σ : Type} (I : Nat → Prop) (M : Module W σ → Prop) (O : List (PInstr W σ) → List Nat → Prop) :
    Attachment W σ → Prop
  | mk (v : PValue W σ) (t : Nat) : ValueAll I M O v → AttachmentAll I M O (.mk v t)
end

/-- Every output is the number of an instruction that is a value. -/
def ValidOutputs {W σ : Type} (is : List (PInstr W σ)) (os : List Nat) : Prop := ∀ o ∈ os, ∃ v, is[o]? = some (.value v)

/-- At any depth: the outputs are valid. -/
def OutputsOf {W σ : Type} (p : Program W σ) : Prop := ProgramAll (fun _ => True) (fun _ => True) ValidOutputs p

/-- At any depth: no module panics. -/
def Calm {W σ : Type} (p : Program W σ) : Prop :=
  ProgramAll (fun _ => True) (fun m => ∀ ps s, (m.fn ps s).1 ≠ .panic) (fun _ _ => True) p

/-- At any depth: only the first `n` inputs are used. -/
def InputsBelow {W σ : Type} (n : Nat) (p : Program W σ) : Prop :=
  ProgramAll (fun i => i < n) (fun _ => True) (fun _ _ => True) p

/-- At any depth: the modules always give a value. -/
def ModulesSucceed {W σ : Type} (p : Program W σ) : Prop :=
  ProgramAll (fun _ => True) (fun m => ∀ ps s, ∃ v, (m.fn ps s).1 = .ok v) (fun _ _ => True) p

end BuildSpec
end Rodkina.Interp
