import Verif.InterpBuildersRun
import Verif.InterpProps
/-!
# C103, C104, C105, C106: the builders of the interpreter
-/

namespace Rodkina.Props

open Rodkina.Interp
open Rodkina.Interp.Build
open Rodkina.Interp.BuildSpec
open Rodkina.Ast.Build (Builder listBuilder)
open Rodkina.Ast.BuildSpec (since given givenPart givenName)

/-! ## C103: what is built is what was given -/

/-- **C103 (modules of a source).** -/
theorem C103_module (calls : List (Option (ModuleCall))) (m : IModule) :
    moduleBuilder.build calls = .ok m ↔
      some m.index = givenPart ModuleCall.index? calls ∧ some m.name = givenPart ModuleCall.name? calls :=
  module_build calls m

example : moduleBuilder.build [some (.withIndex 7), some (.withName (some "m")), some (.withIndex 9)] = .ok ⟨9, "m"⟩ :=
  (C103_module _ _).mpr ⟨rfl, rfl⟩

/-- **C103 (applications of a source).** -/
theorem C103_application (calls : List (Option (ApplicationCall))) (m : IApplication) :
    applicationBuilder.build calls = .ok m ↔
      some m.module = givenPart ApplicationCall.module? calls ∧ some m.name = givenPart ApplicationCall.name? calls :=
  application_build calls m

example : applicationBuilder.build [some (.withName (some "a")), some (.withModule (some ""))] = .ok ⟨"", "a"⟩ :=
  (C103_application _ _).mpr ⟨rfl, rfl⟩

/-- **C103 (parameters).** -/
theorem C103_parameter (calls : List (Option (ParameterCall))) (p : IParameter) :
    parameterBuilder.build calls = .ok p ↔
      some p.name = givenPart ParameterCall.name? calls ∧ p.isInput = (given ParameterCall.isInput? calls).getD false :=
  parameter_build calls p

example : parameterBuilder.build [some .isInput, none, some (.withName (some "a"))] = .ok ⟨"a", false⟩ :=
  (C103_parameter _ _).mpr ⟨rfl, rfl⟩

/-- **C103 (variables of attachments).** -/
theorem C103_variable (calls : List (Option (VariableCall))) (v : IVariable) :
    variableBuilder.build calls = .ok v ↔
      some v.current = givenPart VariableCall.current? calls ∧ some v.target = givenPart VariableCall.target? calls :=
  variable_build calls v

example : variableBuilder.build [some (.withTarget 1), some (.withCurrent (some "a")), some (.withTarget 2)] = .ok ⟨"a", 2⟩ :=
  (C103_variable _ _).mpr ⟨rfl, rfl⟩

/-- **C103 (attachments of a source).** -/
theorem C103_attachment (calls : List (Option (AttachmentCall))) (a : IAttachment) :
    attachmentBuilder.build calls = .ok a ↔
      some a.var = givenPart AttachmentCall.var? calls ∧ some a.application = givenPart AttachmentCall.application? calls :=
  attachment_build calls a

example : attachmentBuilder.build [some (.withApplication (some "f")), some (.withVariable (some ⟨"a", 2⟩))] = .ok ⟨⟨"a", 2⟩, "f"⟩ :=
  (C103_attachment _ _).mpr ⟨rfl, rfl⟩

/-- **C103 (assignments).** -/
theorem C103_assignment (calls : List (Option (AssignmentCall))) (a : IAssignment) :
    assignmentBuilder.build calls = .ok a ↔
      some a.var = givenPart AssignmentCall.var? calls ∧ some a.value = givenPart AssignmentCall.value? calls :=
  assignment_build calls a

example : assignmentBuilder.build [some (.withValue (some (.var "a"))), some (.withVariable (some "b"))] = .ok ⟨"b", .var "a"⟩ :=
  (C103_assignment _ _).mpr ⟨rfl, rfl⟩

/-- **C103 (lists of instructions).** -/
theorem C103_instructions (calls : List (Option (InstructionsCall))) (i : Instructions) :
    instructionsBuilder.build calls = .ok i ↔
      i.list ≠ [] ∧ some i.list = givenPart InstructionsCall.list? calls ∧
        i.remaining = (givenPart InstructionsCall.remaining? calls).filter (fun r => !r.isEmpty) :=
  instructions_build calls i

example : instructionsBuilder.build [some (.withRemaining (some [])), some (.withList (some [.execution "f"]))] =
    .ok ⟨[.execution "f"], none⟩ :=
  (C103_instructions _ _).mpr ⟨by simp, rfl, rfl⟩

/-- **C103 (modules).** -/
theorem C103_pModule {W : Type} {σ : Type} (calls : List (Option (PModuleCall W σ))) (m : Module W σ) :
    (pModuleBuilder W σ).build calls = .ok m ↔
      some m.index = givenPart PModuleCall.index? calls ∧ some m.fn = givenPart PModuleCall.fn? calls :=
  pModule_build calls m

example : (pModuleBuilder Unit Unit).build [some (.withFunc (some fun _ s => (.err, s))), some (.withIndex 3)] =
    .ok ⟨3, fun _ s => (.err, s)⟩ :=
  (C103_pModule _ _).mpr ⟨rfl, rfl⟩

/-- **C103 (attachments).** -/
theorem C103_pAttachment {W : Type} {σ : Type} (calls : List (Option (PAttachmentCall W σ))) (a : Attachment W σ) :
    (pAttachmentBuilder W σ).build calls = .ok a ↔
      ∃ v l, a = .mk v l ∧ givenPart PAttachmentCall.value? calls = some v ∧ givenPart PAttachmentCall.local_? calls = some l :=
  pAttachment_build calls a

example : (pAttachmentBuilder Unit Unit).build [some (.withLocal 3), some (.withValue (some (.input 1)))] = .ok (.mk (.input 1) 3) :=
  (C103_pAttachment _ _).mpr ⟨_, _, rfl, rfl, rfl⟩

/-- **C103 (applications).** -/
theorem C103_pApplication {W : Type} {σ : Type} (calls : List (Option (PApplicationCall W σ))) (a : App W σ) :
    (pApplicationBuilder W σ).build calls = .ok a ↔
      ∃ i m, a = .mk i m ((givenPart PApplicationCall.attachments? calls).getD []) ∧
        givenPart PApplicationCall.index? calls = some i ∧ givenPart PApplicationCall.module? calls = some m :=
  pApplication_build calls a

example : (pApplicationBuilder Unit Unit).build [some (.withAttachments (some [.mk (.input 1) 3])), some (.withIndex 3),
    some (.withModule (some pairModule)), some (.withAttachments none)] = .ok (.mk 3 pairModule []) :=
  (C103_pApplication _ _).mpr ⟨_, _, rfl, rfl, rfl⟩

/-- **C103 (programs).** -/
theorem C103_program {W : Type} {σ : Type} (calls : List (Option (ProgramCall W σ))) (p : Program W σ) :
    (programBuilder W σ).build calls = .ok p ↔
      ∃ is, p = .mk is ((givenPart ProgramCall.outputs? calls).getD []) ∧ givenPart ProgramCall.instructions? calls = some is :=
  program_build calls p

example : (programBuilder Unit Unit).build [some (.withOutputs (some [0, 0])), some (.withInstructions (some [.value (.input 1)]))] =
    .ok (.mk [.value (.input 1)] [0, 0]) :=
  (C103_program _ _).mpr ⟨_, rfl, rfl⟩

/-- **C103 (instructions and attachments of a program, modules).** -/
theorem C103_lists {W σ : Type} :
    (∀ calls l, (pInstructionsBuilder W σ).build calls = .ok l ↔ l ≠ [] ∧ some l = givenPart some calls) ∧
    (∀ calls l, (pAttachmentsBuilder W σ).build calls = .ok l ↔ l ≠ [] ∧ some l = givenPart some calls) ∧
    (∀ calls l, (pModulesBuilder W σ).build calls = .ok l ↔ l ≠ [] ∧ some l = givenPart some calls) :=
  ⟨Rodkina.Ast.BuildSpec.list_build, Rodkina.Ast.BuildSpec.list_build, Rodkina.Ast.BuildSpec.list_build⟩

example : (pModulesBuilder Unit Unit).build [some (some []), some (some [pairModule])] = .ok [pairModule] ∧
    (pAttachmentsBuilder Unit Unit).build [some (some [])] = .err :=
  ⟨(C103_lists.2.2 _ _).mpr ⟨by simp, rfl⟩, rfl⟩

/-- **C103 (errors).** Whatever the calls, no builder panics: the only other outcome is an error. -/
theorem C103_never_panics (W σ : Type) :
    (∀ calls, moduleBuilder.build calls ≠ .panic) ∧
    (∀ calls, applicationBuilder.build calls ≠ .panic) ∧
    (∀ calls, parameterBuilder.build calls ≠ .panic) ∧
    (∀ calls, variableBuilder.build calls ≠ .panic) ∧
    (∀ calls, attachmentBuilder.build calls ≠ .panic) ∧
    (∀ calls, assignmentBuilder.build calls ≠ .panic) ∧
    (∀ calls, instructionsBuilder.build calls ≠ .panic) ∧
    (∀ calls, valueBuilder.build calls ≠ .panic) ∧
    (∀ calls, instructionBuilder.build calls ≠ .panic) ∧
    (∀ calls, (pModuleBuilder W σ).build calls ≠ .panic) ∧
    (∀ calls, (pAttachmentBuilder W σ).build calls ≠ .panic) ∧
    (∀ calls, (pApplicationBuilder W σ).build calls ≠ .panic) ∧
    (∀ calls, (pInstructionBuilder W σ).build calls ≠ .panic) ∧
    (∀ calls, (pValueBuilder W σ).build calls ≠ .panic) ∧
    (∀ calls, (programBuilder W σ).build calls ≠ .panic) := by
  refine ⟨?_, ?_, ?_, ?_, ?_, ?_, ?_, ?_, ?_, ?_, ?_, ?_, ?_, ?_, ?_⟩
  · intro calls; unfold Builder.build; simp only [moduleBuilder]; repeat' split
    all_goals simp
  · intro calls; unfold Builder.build; simp only [applicationBuilder]; repeat' split
    all_goals simp
  · intro calls; unfold Builder.build; simp only [parameterBuilder]; repeat' split
    all_goals simp
  · intro calls; unfold Builder.build; simp only [variableBuilder]; repeat' split
    all_goals simp
  · intro calls; unfold Builder.build; simp only [attachmentBuilder]; repeat' split
    all_goals simp
  · intro calls; unfold Builder.build; simp only [assignmentBuilder]; repeat' split
    all_goals simp
  · intro calls; unfold Builder.build; simp only [instructionsBuilder]; repeat' split
    all_goals simp
  · intro calls; unfold Builder.build; simp only [valueBuilder]; repeat' split
    all_goals simp
  · intro calls; unfold Builder.build; simp only [instructionBuilder]; repeat' split
    all_goals simp
  · intro calls; unfold Builder.build; simp only [pModuleBuilder]; repeat' split
    all_goals simp
  · intro calls; unfold Builder.build; simp only [pAttachmentBuilder]; repeat' split
    all_goals simp
  · intro calls; unfold Builder.build; simp only [pApplicationBuilder]; repeat' split
    all_goals simp
  · intro calls; unfold Builder.build; simp only [pInstructionBuilder]; repeat' split
    all_goals simp
  · intro calls; unfold Builder.build; simp only [pValueBuilder]; repeat' split
    all_goals simp
  · intro calls; unfold Builder.build; simp only [programBuilder]; repeat' split
    all_goals simp

/-! ## C104: alternatives -/

/-- **C104 (values of a source, exact result).** -/
theorem C104_value_partial (calls : List (Option (ValueCall))) (v : SValue) :
    valueBuilder.build calls = .ok v ↔
      (∃ x, v = .var x ∧ givenPart ValueCall.var? calls = some x) ∨
        (∃ x, v = .constant x ∧ givenPart ValueCall.var? calls = none ∧ givenPart ValueCall.constant? calls = some x) ∨
        (∃ x, v = .instructions x.list ∧ givenPart ValueCall.var? calls = none ∧
          givenPart ValueCall.constant? calls = none ∧ givenPart ValueCall.instructions? calls = some x) ∨
        (∃ x, v = .execution x ∧ givenPart ValueCall.var? calls = none ∧ givenPart ValueCall.constant? calls = none ∧
          givenPart ValueCall.instructions? calls = none ∧ givenPart ValueCall.execution? calls = some x) :=
  value_build calls v

example : valueBuilder.build [some (.withConstant (some [1])), some (.withExecution (some "f")), some (.withConstant none)] =
    .ok (.execution "f") :=
  (C104_value_partial _ _).mpr (.inr (.inr (.inr ⟨_, rfl, rfl, rfl, rfl, rfl⟩)))

/-- **C104 (instructions of a source, exact result).** -/
theorem C104_instruction_partial (calls : List (Option (InstructionCall))) (i : Instr) :
    instructionBuilder.build calls = .ok i ↔
      (∃ x, i = .module x.index x.name ∧ givenPart InstructionCall.module? calls = some x) ∨
        (∃ x, i = .application x.module x.name ∧ givenPart InstructionCall.module? calls = none ∧
          givenPart InstructionCall.application? calls = some x) ∨
        (∃ x, i = .parameter x.name x.isInput ∧ givenPart InstructionCall.module? calls = none ∧
          givenPart InstructionCall.application? calls = none ∧
          givenPart InstructionCall.parameter? calls = some x) ∨
        (∃ x, i = .assignment x.var x.value ∧ givenPart InstructionCall.module? calls = none ∧
          givenPart InstructionCall.application? calls = none ∧
          givenPart InstructionCall.parameter? calls = none ∧
          givenPart InstructionCall.assignment? calls = some x) ∨
        (∃ x, i = .attachment x.var.current x.var.target x.application ∧
          givenPart InstructionCall.module? calls = none ∧
          givenPart InstructionCall.application? calls = none ∧
          givenPart InstructionCall.parameter? calls = none ∧
          givenPart InstructionCall.assignment? calls = none ∧
          givenPart InstructionCall.attachment? calls = some x) ∨
        (∃ x, i = .execution x ∧ givenPart InstructionCall.module? calls = none ∧
          givenPart InstructionCall.application? calls = none ∧
          givenPart InstructionCall.parameter? calls = none ∧
          givenPart InstructionCall.assignment? calls = none ∧
          givenPart InstructionCall.attachment? calls = none ∧
          givenPart InstructionCall.execution? calls = some x) :=
  instruction_build calls i

example : instructionBuilder.build [some (.withExecution (some "f")), some (.withParameter (some ⟨"a", true⟩))] =
    .ok (.parameter "a" true) :=
  (C104_instruction_partial _ _).mpr (.inr (.inr (.inl ⟨_, rfl, rfl, rfl, rfl⟩)))

/-- **C104 (instructions of a program, exact result).** -/
theorem C104_pInstruction_partial {W : Type} {σ : Type} (calls : List (Option (PInstructionCall W σ))) (i : PInstr W σ) :
    (pInstructionBuilder W σ).build calls = .ok i ↔
      (∃ x, i = .value x ∧ givenPart PInstructionCall.value? calls = some x) ∨
        (∃ x, i = .execution x ∧ givenPart PInstructionCall.value? calls = none ∧
          givenPart PInstructionCall.execution? calls = some x) :=
  pInstruction_build calls i

example : (pInstructionBuilder Unit Unit).build [some (.withValue (some (.input 1))), none,
    some (.withExecution (some (.mk 0 pairModule [])))] = .ok (.execution (.mk 0 pairModule [])) :=
  (C104_pInstruction_partial _ _).mpr (.inr ⟨_, rfl, rfl, rfl⟩)

/-- **C104 (values of a program, exact result).** -/
theorem C104_pValue_partial {W : Type} {σ : Type} (calls : List (Option (PValueCall W σ))) (v : PValue W σ) :
    (pValueBuilder W σ).build calls = .ok v ↔
      (∃ x, v = .input x ∧ givenPart PValueCall.input? calls = some x) ∨
        (∃ x, v = .constant x ∧ givenPart PValueCall.input? calls = none ∧
          givenPart PValueCall.constant? calls = some x) ∨
        (∃ x, v = .execution x ∧ givenPart PValueCall.input? calls = none ∧
          givenPart PValueCall.constant? calls = none ∧ givenPart PValueCall.execution? calls = some x) ∨
        (∃ x, v = .program x ∧ givenPart PValueCall.input? calls = none ∧
          givenPart PValueCall.constant? calls = none ∧ givenPart PValueCall.execution? calls = none ∧
          givenPart PValueCall.program? calls = some x) :=
  pValue_build calls v

example : (pValueBuilder Unit Unit).build [some (.withProgram (some (.mk [.value (.input 0)] [0]))), some (.withConstant (some []))] =
    .ok (.constant []) :=
  (C104_pValue_partial _ _).mpr (.inr (.inl ⟨_, rfl, rfl, rfl⟩))

/-- **C104, the claim is false.** With two alternatives given, the first in a fixed order wins silently, even if given first. -/
theorem C104_negation :
    (∃ x y, valueBuilder.build [some (.withVariable (some x)), some (.withConstant (some y))] = .ok (.var x)) ∧
    (∃ x y, instructionBuilder.build [some (.withParameter (some x)), some (.withExecution (some y))] =
      .ok (.parameter x.name x.isInput)) ∧
    (∃ x y, (pInstructionBuilder Unit Unit).build [some (.withValue (some x)), some (.withExecution (some y))] = .ok (.value x)) ∧
    (∃ x y, (pValueBuilder Unit Unit).build [some (.withInput x), some (.withConstant (some y))] = .ok (.input x)) :=
  ⟨⟨"a", [1], rfl⟩, ⟨⟨"a", true⟩, "f", rfl⟩, ⟨.input 0, .mk 0 pairModule [], rfl⟩, ⟨0, [1], rfl⟩⟩

/-! ## C105: what can be built, and what is compiled -/

/-- **C105 (sources).** -/
theorem C105_source_built_iff_wellformed (l : List Instr) (r : Option Bytes) :
    InstructionsBuilt ⟨l, r⟩ ↔ l ≠ [] ∧ r ≠ some [] ∧ ∀ i ∈ l, InstrWF i := by
  constructor
  · intro h
    obtain ⟨h1, h2⟩ := h.wf
    refine ⟨h1, ?_, h2⟩
    obtain ⟨_, calls, hb, _⟩ := h
    obtain ⟨_, _, hr⟩ := (instructions_build _ _).mp hb
    rintro rfl
    simp only at hr
    cases hg : givenPart InstructionsCall.remaining? calls with
    | none => rw [hg] at hr; cases hr
    | some x =>
      rw [hg] at hr
      cases x <;> simp [Option.filter] at hr
  · rintro ⟨h1, h2, h3⟩
    exact instructionsBuilt_of h1 h2 (fun i hi => (h3 i hi).built)

example : InstructionsBuilt ⟨nestedSource, none⟩ :=
  (C105_source_built_iff_wellformed _ _).mpr ⟨by simp [nestedSource, pairSource], by simp, by
    have hp : ∀ j ∈ pairSource, InstrWF j := by
      intro j hj
      simp [pairSource] at hj
      rcases hj with rfl | rfl | rfl | rfl | rfl | rfl | rfl | rfl | rfl
      all_goals first | exact .parameter _ _ | exact .module _ _ | exact .application _ _ | exact .attachment _ _ _ |
        exact .assignment _ _ (.constant _) | exact .assignment _ _ (.execution _)
    intro i hi
    simp only [nestedSource, List.mem_cons, List.not_mem_nil, or_false] at hi
    rcases hi with rfl | rfl | rfl | rfl
    · exact .parameter _ _
    · exact .parameter _ _
    · exact .assignment _ _ (.var _)
    · exact .assignment _ _ (.instructions _ (by simp [pairSource]) hp)⟩

/-- **C105 (programs).** -/
theorem C105_program_built_iff_wellformed {W σ : Type} (p : Program W σ) : ProgramBuilt p ↔ ProgramWF p :=
  ⟨ProgramBuilt.wf, ProgramWF.built⟩

/-- A program whose only output is its second instruction, a program that gives its input. -/
def builtProgram : Program Unit Unit :=
  .mk [.execution (.mk 0 pairModule [.mk (.input 0) 1]), .value (.program (.mk [.value (.input 0)] [0]))] [1]

theorem builtProgram_wf : ProgramWF builtProgram := by
  refine .mk _ _ (by simp) ?_
  intro i hi
  simp at hi
  rcases hi with rfl | rfl
  · refine .execution _ (.mk _ _ _ ?_)
    intro a ha
    simp at ha
    subst ha
    exact .mk _ _ (.input _)
  · refine .value _ (.program _ (.mk _ _ (by simp) ?_))
    intro i hi
    simp at hi
    subst hi
    exact .value _ (.input _)

example : ProgramBuilt builtProgram := (C105_program_built_iff_wellformed _).mpr builtProgram_wf

/-- **C105 (compiled programs).** What `Compile` gives can also be built by hand, and its outputs are the numbers of
instructions that are values, at any depth. -/
theorem C105_compiled_is_built {W σ : Type} (all : List (Module W σ)) (src : List Instr) (p : Program W σ)
    (h : compile all src = .ok p) : ProgramBuilt p ∧ OutputsOf p :=
  ⟨(compile_made h).1.built, (compile_made h).2⟩

example : ∃ p, compile [pairModule] nestedSource = .ok p := (C60_compile_scoped _ _).2.mpr nestedSource_scoped

/-- **C105 (the converse is false).** A program can be built that no source compiles to. -/
theorem C105_not_all_compiled : ∃ p : Program Unit Unit, ProgramBuilt p ∧ ∀ all src, compile all src ≠ .ok p := by
  refine ⟨.mk [.value (.input 0)] [7], (C105_program_built_iff_wellformed _).mpr ?_, ?_⟩
  · refine .mk _ _ (by simp) ?_
    intro i hi
    simp at hi
    subst hi
    exact .value _ (.input _)
  · intro all src h
    have := (C105_compiled_is_built all src _ h).2
    cases this with
    | mk _ _ ho _ =>
      obtain ⟨v, hv⟩ := ho 7 (by simp)
      simp at hv

/-- **C105 (the calls that `Compile` makes).** None of the calls of builders in `Compile` fails (libs/interpreters/applications/application.go:84-94, 145, 197, 222,
234, 242, 272, 331, 382), and each gives what the model of `Compile` has in that place. -/
theorem C105_compile_calls {W σ : Type} (i : Nat) (m : Module W σ) (v : PValue W σ) (a : App W σ) (t : Nat) (p : Program W σ)
    (b : Bytes) (l : List (Attachment W σ)) (hl : l ≠ []) (is : List (PInstr W σ)) (his : is ≠ []) (os : List Nat) :
    (pApplicationBuilder W σ).build [none, some (.withIndex i), some (.withModule (some m))] = .ok (.mk i m []) ∧
    (pAttachmentBuilder W σ).build [none, some (.withValue (some v)), some (.withLocal t)] = .ok (.mk v t) ∧
    (pAttachmentsBuilder W σ).build [none, some (some l)] = .ok l ∧
    (pApplicationBuilder W σ).build [none, some (.withIndex i), some (.withModule (some m)), some (.withAttachments (some l))] =
      .ok (.mk i m l) ∧
    (pInstructionBuilder W σ).build [none, some (.withExecution (some a))] = .ok (.execution a) ∧
    (pInstructionBuilder W σ).build [none, some (.withValue (some v))] = .ok (.value v) ∧
    (pValueBuilder W σ).build [none, some (.withInput i)] = .ok (.input i) ∧
    (pValueBuilder W σ).build [none, some (.withConstant (some b))] = .ok (.constant b) ∧
    (pValueBuilder W σ).build [none, some (.withProgram (some p))] = .ok (.program p) ∧
    (pValueBuilder W σ).build [none, some (.withExecution (some a))] = .ok (.execution a) ∧
    (pInstructionsBuilder W σ).build [none, some (some is)] = .ok is ∧
    (pInstructionsBuilder W σ).build [none, some (some [])] = .err ∧
    (programBuilder W σ).build [none, some (.withInstructions (some is))] = .ok (.mk is []) ∧
    (os ≠ [] → (programBuilder W σ).build [none, some (.withInstructions (some is)), some (.withOutputs (some os))] = .ok (.mk is os)) :=
  ⟨rfl, rfl, (C103_lists.2.1 _ _).mpr ⟨hl, rfl⟩, rfl, rfl, rfl, rfl, rfl, rfl, rfl, (C103_lists.1 _ _).mpr ⟨his, rfl⟩, rfl, rfl,
    fun _ => (C103_program _ _).mpr ⟨_, rfl, rfl⟩⟩

/-! ## C106: what programs that can be built do -/

/-- **C106 (panics).** Only a module can make an execution panic. -/
theorem C106_no_panic {W σ : Type} (p : Program W σ) (h : Calm p) (input : List (Val W)) (s : σ) :
    (execute input p s).1 ≠ .panic := by
  have hn := program_never (e := none) (input := input) (by simp) (fun m (hm : ∀ ps s, (m.fn ps s).1 ≠ .panic) ps s hs => by
    have := hm ps s
    unfold callModule at hs
    rcases hx : m.fn ps s with ⟨r, s'⟩
    rw [hx] at hs this
    cases r
    · exact hs
    · exact hs
    · exact this rfl) (by simp) p h s
  intro hp
  unfold execute at hp
  rw [hp] at hn
  exact hn trivial

theorem builtProgram_all {I : Nat → Prop} {M : Module Unit Unit → Prop} {O : List (PInstr Unit Unit) → List Nat → Prop}
    (hI : I 0) (hM : M pairModule) (hO : ∀ is os, ValidOutputs is os → O is os) : ProgramAll I M O builtProgram := by
  refine .mk _ _ (hO _ _ (by intro o ho; simp at ho; subst ho; simp)) ?_
  intro i hi
  simp at hi
  rcases hi with rfl | rfl
  · refine .execution _ (.mk _ _ _ hM ?_)
    intro a ha
    simp at ha
    subst ha
    exact .mk _ _ (.input _ hI)
  · refine .value _ (.program _ (.mk _ _ (hO _ _ (by intro o ho; simp at ho; subst ho; simp)) ?_))
    intro i hi
    simp at hi
    subst hi
    exact .value _ (.input _ hI)

example : Calm builtProgram := builtProgram_all trivial (by intro ps s; simp [pairModule]) (fun _ _ _ => trivial)

/-- **C106 (missing outputs).** With valid outputs no execution fails for a missing output. -/
theorem C106_outputs {W σ : Type} (p : Program W σ) (h : OutputsOf p) (input : List (Val W)) (s : σ) :
    (execute input p s).1 ≠ .fail .output := by
  have hn := program_never (e := some .output) (input := input) (by simp) (fun m _ ps s hs => by
    unfold callModule at hs
    rcases hx : m.fn ps s with ⟨r, s'⟩
    rw [hx] at hs
    cases r
    · exact hs
    · cases hs
    · exact hs) (fun _ _ _ h => h) p h s
  intro hp
  unfold execute at hp
  rw [hp] at hn
  exact hn rfl

example : OutputsOf builtProgram := builtProgram_all trivial trivial (fun _ _ h => h)

/-- **C106 (missing inputs).** With enough inputs no execution fails for a missing input. -/
theorem C106_inputs {W σ : Type} (p : Program W σ) (input : List (Val W)) (h : InputsBelow input.length p) (s : σ) :
    (execute input p s).1 ≠ .fail .input := by
  have hn := program_never (e := some .input) (input := input) (fun _ _ h => h) (fun m _ ps s hs => by
    unfold callModule at hs
    rcases hx : m.fn ps s with ⟨r, s'⟩
    rw [hx] at hs
    cases r
    · exact hs
    · cases hs
    · exact hs) (by simp) p h s
  intro hp
  unfold execute at hp
  rw [hp] at hn
  exact hn rfl

example : InputsBelow 1 builtProgram := builtProgram_all (by decide) trivial (fun _ _ _ => trivial)

/-- **C106 (success).** With enough inputs, valid outputs and modules that always give a value, an execution gives as many results
as there are outputs. -/
theorem C106_succeeds {W σ : Type} (is : List (PInstr W σ)) (os : List Nat) (input : List (Val W))
    (hi : InputsBelow input.length (.mk is os)) (ho : OutputsOf (.mk is os)) (hm : ModulesSucceed (.mk is os)) (s : σ) :
    ∃ outs s', execute input (.mk is os) s = (.ok outs, s') ∧ outs.length = os.length := by
  have h1 := C106_inputs _ input hi s
  have h2 := C106_outputs _ ho input s
  have hmod : ∀ e, Never e (execProgram input (.mk is os)) ∨ e = some .input ∨ e = some .output := by
    intro e
    by_cases he : e = some .input
    · exact .inr (.inl he)
    · by_cases he' : e = some .output
      · exact .inr (.inr he')
      · left
        refine program_never (e := e) (input := input) (fun h => absurd h he)
          (fun m (hx : ∀ ps s, ∃ v, (m.fn ps s).1 = .ok v) ps s hs => ?_) (fun h => absurd h he') _ hm
        obtain ⟨v, hv⟩ := hx ps s
        unfold callModule at hs
        rcases hr : m.fn ps s with ⟨r, s'⟩
        rw [hr] at hs hv
        cases hv
        cases e <;> exact hs
  unfold execute at h1 h2 ⊢
  rcases hx : execProgram input (.mk is os) s with ⟨r, s'⟩
  cases r with
  | ok outs =>
    obtain ⟨vals, _, hmm⟩ := execute_ok_instrs (show execute input (.mk is os) s = (.ok outs, s') from hx)
    exact ⟨outs, s', rfl, (mapM_some_get hmm).1⟩
  | panic =>
    rcases hmod none with hn | hn | hn
    · have := hn s
      rw [hx] at this
      exact absurd trivial this
    · cases hn
    · cases hn
  | fail r =>
    cases r with
    | input => rw [hx] at h1; exact absurd rfl h1
    | output => rw [hx] at h2; exact absurd rfl h2
    | module =>
      rcases hmod (some .module) with hn | hn | hn
      · have := hn s
        rw [hx] at this
        exact absurd rfl this
      · cases hn
      · cases hn

example : ModulesSucceed builtProgram := builtProgram_all trivial (by intro ps s; simp [pairModule]) (fun _ _ _ => trivial)

/-- **C106 (a bad output).** If the instructions run, an output that is not the number of a value makes the execution fail, with the
same effects. -/
theorem C106_bad_output {W σ : Type} (is : List (PInstr W σ)) (os : List Nat) (input : List (Val W)) (s s' : σ)
    (h : execute input (.mk is []) s = (.ok [], s')) (o : Nat) (ho : o ∈ os) (hb : ∀ v, is[o]? ≠ some (.value v)) :
    execute input (.mk is os) s = (.fail .output, s') := by
  obtain ⟨vals, hv⟩ := (execute_split input is s s').mp h
  rw [execute_collect input is os s s' vals hv, collect_mapM]
  cases hm : os.mapM (fun o => vals.lookup o) with
  | none => rfl
  | some l =>
    obtain ⟨j, hj⟩ := List.mem_iff_getElem?.mp ho
    obtain ⟨b, hb', _⟩ := (mapM_some_get hm).2 j o hj
    rcases (execInstrs_lookup input is 0 [] s s' vals hv o).mp (by rw [hb']; rfl) with hx | ⟨k, v, hk, hk'⟩
    · simp at hx
    · exact absurd hk' (by rw [show k = o by omega]; exact hb v)

example : execute [.bytes [1]] (.mk [.value (.input 0)] [] : Program Unit Unit) () = (.ok [], ()) ∧
    ∀ v : PValue Unit Unit, [PInstr.value (.input 0)][7]? ≠ some (.value v) := ⟨rfl, by simp⟩

/-- **C106 (each result).** Each result is the one of the program with that output only. -/
theorem C106_each_output {W σ : Type} (is : List (PInstr W σ)) (os : List Nat) (input : List (Val W)) (s s' : σ)
    (outs : List (Val W)) (h : execute input (.mk is os) s = (.ok outs, s')) (j o : Nat) (hj : os[j]? = some o) :
    ∃ v, outs[j]? = some v ∧ execute input (.mk is [o]) s = (.ok [v], s') := by
  obtain ⟨vals, hv, hm⟩ := execute_ok_instrs h
  obtain ⟨v, h1, h2⟩ := (mapM_some_get hm).2 j o hj
  refine ⟨v, h2, ?_⟩
  rw [execute_collect input is [o] s s' vals hv, collect_mapM]
  simp [h1]

example : execute [.bytes [1], .bytes [2]] (.mk [.value (.input 0), .value (.input 1)] [1, 0, 1] : Program Unit Unit) () =
    (.ok [.bytes [2], .bytes [1], .bytes [2]], ()) := rfl

end Rodkina.Props
