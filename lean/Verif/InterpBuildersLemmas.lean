import Verif.InterpBuildersSpec
import Verif.BuildersLemmas
/-! Lemmas about the interpreter's builders. -/

namespace Rodkina.Interp
namespace BuildSpec

open Build
open Rodkina.Ast.Build (Builder listBuilder)
open Rodkina.Ast.BuildSpec

theorem module_build (calls : List (Option (ModuleCall))) (m : IModule) :
    moduleBuilder.build calls = .ok m ↔
      some m.index = givenPart ModuleCall.index? calls ∧ some m.name = givenPart ModuleCall.name? calls := by
  have h0 := field_part moduleBuilder (·.index) ModuleCall.index? (by intro k s; cases k <;> rfl) rfl calls
  have h1 := field_part moduleBuilder (·.name) ModuleCall.name? (by intro k s; cases k <;> rfl) rfl calls
  unfold Builder.build
  rw [← h0, ← h1]
  obtain ⟨x1, x2⟩ := moduleBuilder.run calls
  obtain ⟨x, y⟩ := m
  cases x1 <;> cases x2 <;> simp [moduleBuilder] <;> grind

theorem application_build (calls : List (Option (ApplicationCall))) (m : IApplication) :
    applicationBuilder.build calls = .ok m ↔
      some m.module = givenPart ApplicationCall.module? calls ∧ some m.name = givenPart ApplicationCall.name? calls := by
  have h0 := field_part applicationBuilder (·.module) ApplicationCall.module? (by intro k s; cases k <;> rfl) rfl calls
  have h1 := field_part applicationBuilder (·.name) ApplicationCall.name? (by intro k s; cases k <;> rfl) rfl calls
  unfold Builder.build
  rw [← h0, ← h1]
  obtain ⟨x1, x2⟩ := applicationBuilder.run calls
  obtain ⟨x, y⟩ := m
  cases x1 <;> cases x2 <;> simp [applicationBuilder] <;> grind

theorem parameter_build (calls : List (Option (ParameterCall))) (p : IParameter) :
    parameterBuilder.build calls = .ok p ↔
      some p.name = givenPart ParameterCall.name? calls ∧ p.isInput = (given ParameterCall.isInput? calls).getD false := by
  have h0 := field_part parameterBuilder (·.name) ParameterCall.name? (by intro k s; cases k <;> rfl) rfl calls
  have h1 : (parameterBuilder.run calls).isInput = (given ParameterCall.isInput? calls).getD false :=
    field parameterBuilder (·.isInput) ParameterCall.isInput? (by intro k s; cases k <;> rfl) calls
  unfold Builder.build
  rw [← h0, ← h1]
  obtain ⟨n, i⟩ := parameterBuilder.run calls
  obtain ⟨x, y⟩ := p
  cases n <;> cases i <;> simp [parameterBuilder] <;> grind

theorem variable_build (calls : List (Option (VariableCall))) (v : IVariable) :
    variableBuilder.build calls = .ok v ↔
      some v.current = givenPart VariableCall.current? calls ∧ some v.target = givenPart VariableCall.target? calls := by
  have h0 := field_part variableBuilder (·.current) VariableCall.current? (by intro k s; cases k <;> rfl) rfl calls
  have h1 := field_part variableBuilder (·.target) VariableCall.target? (by intro k s; cases k <;> rfl) rfl calls
  unfold Builder.build
  rw [← h0, ← h1]
  obtain ⟨x1, x2⟩ := variableBuilder.run calls
  obtain ⟨x, y⟩ := v
  cases x1 <;> cases x2 <;> simp [variableBuilder] <;> grind

theorem attachment_build (calls : List (Option (AttachmentCall))) (a : IAttachment) :
    attachmentBuilder.build calls = .ok a ↔
      some a.var = givenPart AttachmentCall.var? calls ∧ some a.application = givenPart AttachmentCall.application? calls := by
  have h0 := field_part attachmentBuilder (·.var) AttachmentCall.var? (by intro k s; cases k <;> rfl) rfl calls
  have h1 := field_part attachmentBuilder (·.application) AttachmentCall.application? (by intro k s; cases k <;> rfl) rfl calls
  unfold Builder.build
  rw [← h0, ← h1]
  obtain ⟨x1, x2⟩ := attachmentBuilder.run calls
  obtain ⟨x, y⟩ := a
  cases x1 <;> cases x2 <;> simp [attachmentBuilder] <;> grind

theorem assignment_build (calls : List (Option (AssignmentCall))) (a : IAssignment) :
    assignmentBuilder.build calls = .ok a ↔
      some a.var = givenPart AssignmentCall.var? calls ∧ some a.value = givenPart AssignmentCall.value? calls := by
  have h0 := field_part assignmentBuilder (·.var) AssignmentCall.var? (by intro k s; cases k <;> rfl) rfl calls
  have h1 := field_part assignmentBuilder (·.value) AssignmentCall.value? (by intro k s; cases k <;> rfl) rfl calls
  unfold Builder.build
  rw [← h0, ← h1]
  obtain ⟨x1, x2⟩ := assignmentBuilder.run calls
  obtain ⟨x, y⟩ := a
  cases x1 <;> cases x2 <;> simp [assignmentBuilder] <;> grind

theorem instructions_build (calls : List (Option (InstructionsCall))) (i : Instructions) :
    instructionsBuilder.build calls = .ok i ↔
      i.list ≠ [] ∧ some i.list = givenPart InstructionsCall.list? calls ∧
        i.remaining = (givenPart InstructionsCall.remaining? calls).filter (fun r => !r.isEmpty) := by
  have h0 := field_part instructionsBuilder (·.list) InstructionsCall.list? (by intro k s; cases k <;> rfl) rfl calls
  have h1 := field_part instructionsBuilder (·.remaining) InstructionsCall.remaining? (by intro k s; cases k <;> rfl) rfl calls
  unfold Builder.build
  rw [← h0, ← h1]
  obtain ⟨l, r⟩ := instructionsBuilder.run calls
  obtain ⟨x, y⟩ := i
  rcases l with _ | _ | _ <;> rcases r with _ | _ | _ <;> simp [instructionsBuilder] <;> grind

theorem value_build (calls : List (Option (ValueCall))) (v : SValue) :
    valueBuilder.build calls = .ok v ↔
      (∃ x, v = .var x ∧ givenPart ValueCall.var? calls = some x) ∨
        (∃ x, v = .constant x ∧ givenPart ValueCall.var? calls = none ∧ givenPart ValueCall.constant? calls = some x) ∨
        (∃ x, v = .instructions x.list ∧ givenPart ValueCall.var? calls = none ∧
          givenPart ValueCall.constant? calls = none ∧ givenPart ValueCall.instructions? calls = some x) ∨
        (∃ x, v = .execution x ∧ givenPart ValueCall.var? calls = none ∧ givenPart ValueCall.constant? calls = none ∧
          givenPart ValueCall.instructions? calls = none ∧ givenPart ValueCall.execution? calls = some x) := by
  have h0 := field_part valueBuilder (·.var) ValueCall.var? (by intro k s; cases k <;> rfl) rfl calls
  have h1 := field_part valueBuilder (·.constant) ValueCall.constant? (by intro k s; cases k <;> rfl) rfl calls
  have h2 := field_part valueBuilder (·.instructions) ValueCall.instructions? (by intro k s; cases k <;> rfl) rfl calls
  have h3 := field_part valueBuilder (·.execution) ValueCall.execution? (by intro k s; cases k <;> rfl) rfl calls
  unfold Builder.build
  rw [← h0, ← h1, ← h2, ← h3]
  obtain ⟨a, b, c, d⟩ := valueBuilder.run calls
  cases a <;> cases b <;> cases c <;> cases d <;> simp [valueBuilder] <;> grind

theorem instruction_build (calls : List (Option (InstructionCall))) (i : Instr) :
    instructionBuilder.build calls = .ok i ↔
      (∃ x, i = .module x.index x.name ∧ givenPart InstructionCall.module? calls = some x) ∨
        (∃ x, i = .application x.module x.name ∧ givenPart InstructionCall.module? calls = none ∧
          givenPart InstructionCall.application? calls = some x) ∨
        (∃ x, i = .parameter x.name x.isInput ∧ givenPart InstructionCall.module? calls = none ∧
          givenPart InstructionCall.application? calls = none ∧
          givenPart InstructionCall.parameter? calls = some x) ∨
        (∃ x, i = .assignment x.var x.value ∧ givenPart InstructionCall.module? calls = none ∧
          givenPart InstructionCall.application? calls = none ∧
          givenPart InstructionCall.parameter? calls = none ∧
          givenPart InstructionCall.assignment? calls = some x) ∨
        (∃ x, i = .attachment x.var.current x.var.target x.application ∧
          givenPart InstructionCall.module? calls = none ∧
          givenPart InstructionCall.application? calls = none ∧
          givenPart InstructionCall.parameter? calls = none ∧
          givenPart InstructionCall.assignment? calls = none ∧
          givenPart InstructionCall.attachment? calls = some x) ∨
        (∃ x, i = .execution x ∧ givenPart InstructionCall.module? calls = none ∧
          givenPart InstructionCall.application? calls = none ∧
          givenPart InstructionCall.parameter? calls = none ∧
          givenPart InstructionCall.assignment? calls = none ∧
          givenPart InstructionCall.attachment? calls = none ∧
          givenPart InstructionCall.execution? calls = some x) := by
  have h0 := field_part instructionBuilder (·.module) InstructionCall.module? (by intro k s; cases k <;> rfl) rfl calls
  have h1 := field_part instructionBuilder (·.application) InstructionCall.application? (by intro k s; cases k <;> rfl) rfl calls
  have h2 := field_part instructionBuilder (·.parameter) InstructionCall.parameter? (by intro k s; cases k <;> rfl) rfl calls
  have h3 := field_part instructionBuilder (·.assignment) InstructionCall.assignment? (by intro k s; cases k <;> rfl) rfl calls
  have h4 := field_part instructionBuilder (·.attachment) InstructionCall.attachment? (by intro k s; cases k <;> rfl) rfl calls
  have h5 := field_part instructionBuilder (·.execution) InstructionCall.execution? (by intro k s; cases k <;> rfl) rfl calls
  unfold Builder.build
  rw [← h0, ← h1, ← h2, ← h3, ← h4, ← h5]
  obtain ⟨a, b, c, d, e, f⟩ := instructionBuilder.run calls
  cases a <;> cases b <;> cases c <;> cases d <;> cases e <;> cases f <;> simp [instructionBuilder] <;> grind

theorem pModule_build {W : Type} {σ : Type} (calls : List (Option (PModuleCall W σ))) (m : Module W σ) :
    (pModuleBuilder W σ).build calls = .ok m ↔
      some m.index = givenPart PModuleCall.index? calls ∧ some m.fn = givenPart PModuleCall.fn? calls := by
  have h0 := field_part (pModuleBuilder W σ) (·.index) PModuleCall.index? (by intro k s; cases k <;> rfl) rfl calls
  have h1 := field_part (pModuleBuilder W σ) (·.fn) PModuleCall.fn? (by intro k s; cases k <;> rfl) rfl calls
  unfold Builder.build
  rw [← h0, ← h1]
  obtain ⟨a, b⟩ := (pModuleBuilder W σ).run calls
  obtain ⟨x, y⟩ := m
  cases a <;> cases b <;> simp [pModuleBuilder] <;> grind

theorem pAttachment_build {W : Type} {σ : Type} (calls : List (Option (PAttachmentCall W σ))) (a : Attachment W σ) :
    (pAttachmentBuilder W σ).build calls = .ok a ↔
      ∃ v l, a = .mk v l ∧ givenPart PAttachmentCall.value? calls = some v ∧ givenPart PAttachmentCall.local_? calls = some l := by
  have h0 := field_part (pAttachmentBuilder W σ) (·.value) PAttachmentCall.value? (by intro k s; cases k <;> rfl) rfl calls
  have h1 := field_part (pAttachmentBuilder W σ) (·.local_) PAttachmentCall.local_? (by intro k s; cases k <;> rfl) rfl calls
  unfold Builder.build
  rw [← h0, ← h1]
  obtain ⟨x, y⟩ := (pAttachmentBuilder W σ).run calls
  cases x <;> cases y <;> simp [pAttachmentBuilder] <;> grind

theorem pApplication_build {W : Type} {σ : Type} (calls : List (Option (PApplicationCall W σ))) (a : App W σ) :
    (pApplicationBuilder W σ).build calls = .ok a ↔
      ∃ i m, a = .mk i m ((givenPart PApplicationCall.attachments? calls).getD []) ∧
        givenPart PApplicationCall.index? calls = some i ∧ givenPart PApplicationCall.module? calls = some m := by
  have h0 := field_part (pApplicationBuilder W σ) (·.index) PApplicationCall.index? (by intro k s; cases k <;> rfl) rfl calls
  have h1 := field_part (pApplicationBuilder W σ) (·.module) PApplicationCall.module? (by intro k s; cases k <;> rfl) rfl calls
  have h2 := field_part (pApplicationBuilder W σ) (·.attachments) PApplicationCall.attachments? (by intro k s; cases k <;> rfl) rfl calls
  unfold Builder.build
  rw [← h0, ← h1, ← h2]
  obtain ⟨x, y, z⟩ := (pApplicationBuilder W σ).run calls
  cases x <;> cases y <;> cases z <;> simp [pApplicationBuilder] <;> grind

theorem pInstruction_build {W : Type} {σ : Type} (calls : List (Option (PInstructionCall W σ))) (i : PInstr W σ) :
    (pInstructionBuilder W σ).build calls = .ok i ↔
      (∃ x, i = .value x ∧ givenPart PInstructionCall.value? calls = some x) ∨
        (∃ x, i = .execution x ∧ givenPart PInstructionCall.value? calls = none ∧
          givenPart PInstructionCall.execution? calls = some x) := by
  have h0 := field_part (pInstructionBuilder W σ) (·.value) PInstructionCall.value? (by intro k s; cases k <;> rfl) rfl calls
  have h1 := field_part (pInstructionBuilder W σ) (·.execution) PInstructionCall.execution? (by intro k s; cases k <;> rfl) rfl calls
  unfold Builder.build
  rw [← h0, ← h1]
  obtain ⟨a, b⟩ := (pInstructionBuilder W σ).run calls
  cases a <;> cases b <;> simp [pInstructionBuilder] <;> grind

theorem pValue_build {W : Type} {σ : Type} (calls : List (Option (PValueCall W σ))) (v : PValue W σ) :
    (pValueBuilder W σ).build calls = .ok v ↔
      (∃ x, v = .input x ∧ givenPart PValueCall.input? calls = some x) ∨
        (∃ x, v = .constant x ∧ givenPart PValueCall.input? calls = none ∧
          givenPart PValueCall.constant? calls = some x) ∨
        (∃ x, v = .execution x ∧ givenPart PValueCall.input? calls = none ∧
          givenPart PValueCall.constant? calls = none ∧ givenPart PValueCall.execution? calls = some x) ∨
        (∃ x, v = .program x ∧ givenPart PValueCall.input? calls = none ∧
          givenPart PValueCall.constant? calls = none ∧ givenPart PValueCall.execution? calls = none ∧
          givenPart PValueCall.program? calls = some x) := by
  have h0 := field_part (pValueBuilder W σ) (·.input) PValueCall.input? (by intro k s; cases k <;> rfl) rfl calls
  have h1 := field_part (pValueBuilder W σ) (·.constant) PValueCall.constant? (by intro k s; cases k <;> rfl) rfl calls
  have h2 := field_part (pValueBuilder W σ) (·.execution) PValueCall.execution? (by intro k s; cases k <;> rfl) rfl calls
  have h3 := field_part (pValueBuilder W σ) (·.program) PValueCall.program? (by intro k s; cases k <;> rfl) rfl calls
  unfold Builder.build
  rw [← h0, ← h1, ← h2, ← h3]
  obtain ⟨a, b, c, d⟩ := (pValueBuilder W σ).run calls
  cases a <;> cases b <;> cases c <;> cases d <;> simp [pValueBuilder] <;> grind

theorem program_build {W : Type} {σ : Type} (calls : List (Option (ProgramCall W σ))) (p : Program W σ) :
    (programBuilder W σ).build calls = .ok p ↔
      ∃ is, p = .mk is ((givenPart ProgramCall.outputs? calls).getD []) ∧ givenPart ProgramCall.instructions? calls = some is := by
  have h0 := field_part (programBuilder W σ) (·.instructions) ProgramCall.instructions? (by intro k s; cases k <;> rfl) rfl calls
  have h1 := field_part (programBuilder W σ) (·.outputs) ProgramCall.outputs? (by intro k s; cases k <;> rfl) rfl calls
  unfold Builder.build
  rw [← h0, ← h1]
  obtain ⟨x, y⟩ := (programBuilder W σ).run calls
  cases x <;> rcases y with _ | _ | _ <;> simp [programBuilder] <;> grind

/-! ### Sources: built is well-formed -/

theorem moduleBuilt (m : IModule) : ∃ calls, moduleBuilder.build calls = .ok m :=
  ⟨[some (.withIndex m.index), some (.withName (some m.name))], (module_build _ _).mpr ⟨rfl, rfl⟩⟩

theorem applicationBuilt (m : IApplication) : ∃ calls, applicationBuilder.build calls = .ok m :=
  ⟨[some (.withModule (some m.module)), some (.withName (some m.name))], (application_build _ _).mpr ⟨rfl, rfl⟩⟩

theorem parameterBuilt (m : IParameter) : ∃ calls, parameterBuilder.build calls = .ok m := by
  obtain ⟨n, i⟩ := m
  cases i
  · exact ⟨[some (.withName (some n))], (parameter_build _ _).mpr ⟨rfl, rfl⟩⟩
  · exact ⟨[some (.withName (some n)), some .isInput], (parameter_build _ _).mpr ⟨rfl, rfl⟩⟩

theorem iAttachmentBuilt (a : IAttachment) : IAttachmentBuilt a := by
  refine ⟨[some (.withVariable (some a.var)), some (.withApplication (some a.application))],
    (attachment_build _ _).mpr ⟨rfl, rfl⟩, ?_⟩
  intro v _
  exact ⟨[some (.withCurrent (some v.current)), some (.withTarget v.target)], (variable_build _ _).mpr ⟨rfl, rfl⟩⟩

mutual
theorem InstrBuilt.wf {i : Instr} : InstrBuilt i → InstrWF i
  | .mk i calls h _ _ _ ha _ => by
    have ih : ∀ x, some (.withAssignment (some x)) ∈ calls → ValueWF x.value := fun x hx => AssignmentBuilt.wf (ha x hx)
    rcases (instruction_build _ _).mp h with ⟨x, rfl, _⟩ | ⟨x, rfl, _⟩ | ⟨x, rfl, _⟩ | ⟨x, rfl, _, _, _, hx⟩ | ⟨x, rfl, _⟩ |
      ⟨x, rfl, _⟩
    · exact .module _ _
    · exact .application _ _
    · exact .parameter _ _
    · obtain ⟨k, hk, hp⟩ := givenPart_mem _ _ _ hx
      cases k with
      | withAssignment y =>
        injection hp with hp
        exact .assignment _ _ (ih _ (hp ▸ hk))
      | _ => cases hp
    · exact .attachment _ _ _
    · exact .execution _

theorem AssignmentBuilt.wf {a : IAssignment} : AssignmentBuilt a → ValueWF a.value
  | .mk a calls h hv => by
    have ih : ∀ x, some (.withValue (some x)) ∈ calls → ValueWF x := fun x hx => ValueBuilt.wf (hv x hx)
    obtain ⟨_, hx⟩ := (assignment_build _ _).mp h
    obtain ⟨k, hk, hp⟩ := givenPart_mem _ _ _ hx.symm
    cases k with
    | withValue y =>
      injection hp with hp
      exact ih _ (hp ▸ hk)
    | _ => cases hp

theorem ValueBuilt.wf {v : SValue} : ValueBuilt v → ValueWF v
  | .mk v calls h hi => by
    have ih : ∀ x, some (.withInstructions (some x)) ∈ calls → x.list ≠ [] ∧ ∀ i ∈ x.list, InstrWF i :=
      fun x hx => InstructionsBuilt.wf (hi x hx)
    rcases (value_build _ _).mp h with ⟨x, rfl, _⟩ | ⟨x, rfl, _⟩ | ⟨x, rfl, _, _, hx⟩ | ⟨x, rfl, _⟩
    · exact .var _
    · exact .constant _
    · obtain ⟨k, hk, hp⟩ := givenPart_mem _ _ _ hx
      cases k with
      | withInstructions y =>
        injection hp with hp
        obtain ⟨h1, h2⟩ := ih _ (hp ▸ hk)
        exact .instructions _ h1 h2
      | _ => cases hp
    · exact .execution _

theorem InstructionsBuilt.wf {is : Instructions} : InstructionsBuilt is → is.list ≠ [] ∧ ∀ i ∈ is.list, InstrWF i
  | .mk is calls h hl => by
    have ih : ∀ l, some (.withList (some l)) ∈ calls → ∀ i ∈ l, InstrWF i := fun l hx i hm => InstrBuilt.wf (hl l hx i hm)
    obtain ⟨h1, hx, _⟩ := (instructions_build _ _).mp h
    refine ⟨h1, ?_⟩
    obtain ⟨k, hk, hp⟩ := givenPart_mem _ _ _ hx.symm
    cases k with
    | withList y =>
      injection hp with hp
      exact ih _ (hp ▸ hk)
    | _ => cases hp
end

theorem instructionsBuilt_of {l : List Instr} {r : Option Bytes} (hl : l ≠ []) (hr : r ≠ some []) (h : ∀ i ∈ l, InstrBuilt i) :
    InstructionsBuilt ⟨l, r⟩ := by
  refine .mk _ [some (.withList (some l)), some (.withRemaining r)] ?_ ?_
  · refine (instructions_build _ _).mpr ⟨hl, rfl, ?_⟩
    rcases r with _ | _ | ⟨a, r⟩
    · rfl
    · exact absurd rfl hr
    · rfl
  · intro l' hl'; simp at hl'; subst hl'; exact h

mutual
theorem InstrWF.built {i : Instr} : InstrWF i → InstrBuilt i
  | .module i n => .mk _ [some (.withModule (some ⟨i, n⟩))] ((instruction_build _ _).mpr (.inl ⟨⟨i, n⟩, rfl, rfl⟩))
      (fun x _ => moduleBuilt x) (by simp) (by simp) (by simp) (by simp)
  | .application m n => .mk _ [some (.withApplication (some ⟨m, n⟩))]
      ((instruction_build _ _).mpr (.inr (.inl ⟨⟨m, n⟩, rfl, rfl, rfl⟩)))
      (by simp) (fun x _ => applicationBuilt x) (by simp) (by simp) (by simp)
  | .parameter n b => .mk _ [some (.withParameter (some ⟨n, b⟩))]
      ((instruction_build _ _).mpr (.inr (.inr (.inl ⟨⟨n, b⟩, rfl, rfl, rfl, rfl⟩))))
      (by simp) (by simp) (fun x _ => parameterBuilt x) (by simp) (by simp)
  | .assignment n v hv => by
    have ih := ValueWF.built hv
    refine .mk _ [some (.withAssignment (some ⟨n, v⟩))]
      ((instruction_build _ _).mpr (.inr (.inr (.inr (.inl ⟨⟨n, v⟩, rfl, rfl, rfl, rfl, rfl⟩)))))
      (by simp) (by simp) (by simp) ?_ (by simp)
    intro x hx
    simp at hx
    subst hx
    refine .mk _ [some (.withVariable (some n)), some (.withValue (some v))] ((assignment_build _ _).mpr ⟨rfl, rfl⟩) ?_
    intro y hy
    simp at hy
    subst hy
    exact ih
  | .attachment c t a => .mk _ [some (.withAttachment (some ⟨⟨c, t⟩, a⟩))]
      ((instruction_build _ _).mpr (.inr (.inr (.inr (.inr (.inl ⟨⟨⟨c, t⟩, a⟩, rfl, rfl, rfl, rfl, rfl, rfl⟩))))))
      (by simp) (by simp) (by simp) (by simp) (fun x _ => iAttachmentBuilt x)
  | .execution a => .mk _ [some (.withExecution (some a))]
      ((instruction_build _ _).mpr (.inr (.inr (.inr (.inr (.inr ⟨a, rfl, rfl, rfl, rfl, rfl, rfl, rfl⟩))))))
      (by simp) (by simp) (by simp) (by simp) (by simp)

theorem ValueWF.built {v : SValue} : ValueWF v → ValueBuilt v
  | .var n => .mk _ [some (.withVariable (some n))] ((value_build _ _).mpr (.inl ⟨n, rfl, rfl⟩)) (by simp)
  | .constant b => .mk _ [some (.withConstant (some b))] ((value_build _ _).mpr (.inr (.inl ⟨b, rfl, rfl, rfl⟩))) (by simp)
  | .instructions l hl hi => by
    have ih : ∀ i ∈ l, InstrBuilt i := fun i hm => InstrWF.built (hi i hm)
    refine .mk _ [some (.withInstructions (some ⟨l, none⟩))]
      ((value_build _ _).mpr (.inr (.inr (.inl ⟨⟨l, none⟩, rfl, rfl, rfl, rfl⟩)))) ?_
    intro x hx
    simp at hx
    subst hx
    exact instructionsBuilt_of hl (by simp) ih
  | .execution a => .mk _ [some (.withExecution (some a))]
      ((value_build _ _).mpr (.inr (.inr (.inr ⟨a, rfl, rfl, rfl, rfl, rfl⟩)))) (by simp)
end

/-! ### Programs: built is well-formed -/

section
variable {W σ : Type}

theorem pModuleBuilt (m : Module W σ) : ∃ calls, (pModuleBuilder W σ).build calls = .ok m :=
  ⟨[some (.withIndex m.index), some (.withFunc (some m.fn))], (pModule_build _ _).mpr ⟨rfl, rfl⟩⟩

mutual
theorem ProgramBuilt.wf {p : Program W σ} : ProgramBuilt p → ProgramWF p
  | .mk p calls h hl hi => by
    have ih : ∀ l, some (.withInstructions (some l)) ∈ calls → ∀ i ∈ l, PInstrWF i := fun l hx i hm => PInstrBuilt.wf (hi l hx i hm)
    obtain ⟨is, rfl, hx⟩ := (program_build _ _).mp h
    obtain ⟨k, hk, hp⟩ := givenPart_mem _ _ _ hx
    cases k with
    | withInstructions y =>
      injection hp with hp
      exact .mk _ _ (listBuilt_iff.mp (hl _ (hp ▸ hk))) (ih _ (hp ▸ hk))
    | _ => cases hp

theorem PInstrBuilt.wf {i : PInstr W σ} : PInstrBuilt i → PInstrWF i
  | .mk i calls h hv ha => by
    have ihv : ∀ v, some (.withValue (some v)) ∈ calls → PValueWF v := fun v hx => PValueBuilt.wf (hv v hx)
    have iha : ∀ a, some (.withExecution (some a)) ∈ calls → AppWF a := fun v hx => AppBuilt.wf (ha v hx)
    rcases (pInstruction_build _ _).mp h with ⟨x, rfl, hx⟩ | ⟨x, rfl, _, hx⟩
    · obtain ⟨k, hk, hp⟩ := givenPart_mem _ _ _ hx
      cases k with
      | withValue y =>
        injection hp with hp
        exact .value _ (ihv _ (hp ▸ hk))
      | _ => cases hp
    · obtain ⟨k, hk, hp⟩ := givenPart_mem _ _ _ hx
      cases k with
      | withExecution y =>
        injection hp with hp
        exact .execution _ (iha _ (hp ▸ hk))
      | _ => cases hp

theorem PValueBuilt.wf {v : PValue W σ} : PValueBuilt v → PValueWF v
  | .mk v calls h ha hp => by
    have iha : ∀ a, some (.withExecution (some a)) ∈ calls → AppWF a := fun v hx => AppBuilt.wf (ha v hx)
    have ihp : ∀ a, some (.withProgram (some a)) ∈ calls → ProgramWF a := fun v hx => ProgramBuilt.wf (hp v hx)
    rcases (pValue_build _ _).mp h with ⟨x, rfl, _⟩ | ⟨x, rfl, _⟩ | ⟨x, rfl, _, _, hx⟩ | ⟨x, rfl, _, _, _, hx⟩
    · exact .input _
    · exact .constant _
    · obtain ⟨k, hk, hp⟩ := givenPart_mem _ _ _ hx
      cases k with
      | withExecution y =>
        injection hp with hp
        exact .execution _ (iha _ (hp ▸ hk))
      | _ => cases hp
    · obtain ⟨k, hk, hp⟩ := givenPart_mem _ _ _ hx
      cases k with
      | withProgram y =>
        injection hp with hp
        exact .program _ (ihp _ (hp ▸ hk))
      | _ => cases hp

theorem AppBuilt.wf {a : App W σ} : AppBuilt a → AppWF a
  | .mk a calls h _ _ hx => by
    have ih : ∀ l, some (.withAttachments (some l)) ∈ calls → ∀ i ∈ l, AttachmentWF i :=
      fun l hl i hm => AttachmentBuilt.wf (hx l hl i hm)
    obtain ⟨i, m, rfl, _, _⟩ := (pApplication_build _ _).mp h
    refine .mk _ _ _ ?_
    cases hg : givenPart PApplicationCall.attachments? calls with
    | none => simp
    | some l =>
      obtain ⟨k, hk, hp⟩ := givenPart_mem _ _ _ hg
      cases k with
      | withAttachments y =>
        injection hp with hp
        exact ih _ (hp ▸ hk)
      | _ => cases hp

theorem AttachmentBuilt.wf {a : Attachment W σ} : AttachmentBuilt a → AttachmentWF a
  | .mk a calls h hv => by
    have ihv : ∀ v, some (.withValue (some v)) ∈ calls → PValueWF v := fun v hx => PValueBuilt.wf (hv v hx)
    obtain ⟨v, t, rfl, hx, _⟩ := (pAttachment_build _ _).mp h
    obtain ⟨k, hk, hp⟩ := givenPart_mem _ _ _ hx
    cases k with
    | withValue y =>
      injection hp with hp
      exact .mk _ _ (ihv _ (hp ▸ hk))
    | _ => cases hp
end

mutual
theorem ProgramWF.built {p : Program W σ} : ProgramWF p → ProgramBuilt p
  | .mk is os hne hi => by
    have ih : ∀ i ∈ is, PInstrBuilt i := fun i hm => PInstrWF.built (hi i hm)
    refine .mk _ [some (.withInstructions (some is)), some (.withOutputs (some os))]
      ((program_build _ _).mpr ⟨is, rfl, rfl⟩) ?_ ?_
    · intro l hl; simp at hl; subst hl; exact listBuilt_iff.mpr hne
    · intro l hl; simp at hl; subst hl; exact ih

theorem PInstrWF.built {i : PInstr W σ} : PInstrWF i → PInstrBuilt i
  | .value v hv => by
    have ih := PValueWF.built hv
    refine .mk _ [some (.withValue (some v))] ((pInstruction_build _ _).mpr (.inl ⟨v, rfl, rfl⟩)) ?_ (by simp)
    intro x hx; simp at hx; subst hx; exact ih
  | .execution a ha => by
    have ih := AppWF.built ha
    refine .mk _ [some (.withExecution (some a))] ((pInstruction_build _ _).mpr (.inr ⟨a, rfl, rfl, rfl⟩)) (by simp) ?_
    intro x hx; simp at hx; subst hx; exact ih

theorem PValueWF.built {v : PValue W σ} : PValueWF v → PValueBuilt v
  | .input i => .mk _ [some (.withInput i)] ((pValue_build _ _).mpr (.inl ⟨i, rfl, rfl⟩)) (by simp) (by simp)
  | .constant b => .mk _ [some (.withConstant (some b))] ((pValue_build _ _).mpr (.inr (.inl ⟨b, rfl, rfl, rfl⟩))) (by simp) (by simp)
  | .execution a ha => by
    have ih := AppWF.built ha
    refine .mk _ [some (.withExecution (some a))] ((pValue_build _ _).mpr (.inr (.inr (.inl ⟨a, rfl, rfl, rfl, rfl⟩)))) ?_ (by simp)
    intro x hx; simp at hx; subst hx; exact ih
  | .program p hp => by
    have ih := ProgramWF.built hp
    refine .mk _ [some (.withProgram (some p))] ((pValue_build _ _).mpr (.inr (.inr (.inr ⟨p, rfl, rfl, rfl, rfl, rfl⟩)))) (by simp) ?_
    intro x hx; simp at hx; subst hx; exact ih

theorem AppWF.built {a : App W σ} : AppWF a → AppBuilt a
  | .mk i m l hl => by
    have ih : ∀ x ∈ l, AttachmentBuilt x := fun x hm => AttachmentWF.built (hl x hm)
    cases l with
    | nil =>
      refine .mk _ [some (.withIndex i), some (.withModule (some m))] ((pApplication_build _ _).mpr ⟨i, m, rfl, rfl, rfl⟩) ?_
        (by simp) (by simp)
      intro m' _; exact pModuleBuilt m'
    | cons b l =>
      refine .mk _ [some (.withIndex i), some (.withModule (some m)), some (.withAttachments (some (b :: l)))]
        ((pApplication_build _ _).mpr ⟨i, m, rfl, rfl, rfl⟩) ?_ ?_ ?_
      · intro m' _; exact pModuleBuilt m'
      · intro l' hl'; simp at hl'; subst hl'; exact listBuilt_iff.mpr (by simp)
      · intro l' hl'; simp at hl'; subst hl'; exact ih

theorem AttachmentWF.built {a : Attachment W σ} : AttachmentWF a → AttachmentBuilt a
  | .mk v t hv => by
    have ih := PValueWF.built hv
    refine .mk _ [some (.withValue (some v)), some (.withLocal t)] ((pAttachment_build _ _).mpr ⟨v, t, rfl, rfl, rfl⟩) ?_
    intro x hx; simp at hx; subst hx; exact ih
end

end

end BuildSpec
end Rodkina.Interp
