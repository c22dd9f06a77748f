import Verif.Interp
import Mathlib.Logic.Function.Basic

/-!
# Programs with other names
-/

namespace Rodkina.Interp

variable {W σ : Type}

/-- Three replacements of names: of modules, of applications, of parameters and variables (the four maps of
libs/interpreters/applications/application.go:53-56; parameters and values share their names). -/
structure Names where
  modules : String → String
  applications : String → String
  variables : String → String

/-- No two names of a kind become equal. -/
structure Names.Apart (f : Names) : Prop where
  modules : Function.Injective f.modules
  applications : Function.Injective f.applications
  variables : Function.Injective f.variables

mutual
/-- The second instruction (libs/interpreters/domain/instructions/instruction.go:10-133) is the first with its names replaced. -/
inductive InstrRenamed : Names → Instr → Instr → Prop
  | module {f : Names} (index : Nat) (name : String) : InstrRenamed f (.module index name) (.module index (f.modules name))
  | application {f : Names} (module name : String) :
      InstrRenamed f (.application module name) (.application (f.modules module) (f.applications name))
  | parameter {f : Names} (name : String) (isInput : Bool) : InstrRenamed f (.parameter name isInput) (.parameter (f.variables name) isInput)
  | assignment {f : Names} (name : String) {v v' : SValue} (hv : ValueRenamed f v v') :
      InstrRenamed f (.assignment name v) (.assignment (f.variables name) v')
  | attachment {f : Names} (current : String) (target : Nat) (application : String) :
      InstrRenamed f (.attachment current target application) (.attachment (f.variables current) target (f.applications application))
  | execution {f : Names} (application : String) : InstrRenamed f (.execution application) (.execution (f.applications application))
/-- The same of values (libs/interpreters/domain/instructions/value.go:3-88); nested instructions may have a replacement of their
own. -/
inductive ValueRenamed : Names → SValue → SValue → Prop
  | var {f : Names} (name : String) : ValueRenamed f (.var name) (.var (f.variables name))
  | constant {f : Names} (b : Bytes) : ValueRenamed f (.constant b) (.constant b)
  | instructions {f : Names} (f' : Names) (hf : f'.Apart) {l l' : List Instr} (hl : InstrsRenamed f' l l') :
      ValueRenamed f (.instructions l) (.instructions l')
  | execution {f : Names} (application : String) : ValueRenamed f (.execution application) (.execution (f.applications application))
/-- The same of lists of instructions. -/
inductive InstrsRenamed : Names → List Instr → List Instr → Prop
  | nil {f : Names} : InstrsRenamed f [] []
  | cons {f : Names} {i i' : Instr} {is is' : List Instr} (hi : InstrRenamed f i i') (his : InstrsRenamed f is is') :
      InstrsRenamed f (i :: is) (i' :: is')
end

/-- A map with its keys replaced. -/
def keys {β : Type} (g : String → String) (m : List (String × β)) : List (String × β) := m.map (fun e => (g e.1, e.2))

theorem key_beq {g : String → String} (hg : Function.Injective g) (a b : String) : (g a == g b) = (a == b) := by
  by_cases h : a = b
  · simp [h]
  · have : g a ≠ g b := fun x => h (hg x)
    rw [beq_eq_false_iff_ne.mpr h, beq_eq_false_iff_ne.mpr this]

theorem keys_lookup {β : Type} {g : String → String} (hg : Function.Injective g) (m : List (String × β)) (k : String) :
    (keys g m).lookup (g k) = m.lookup k := by
  induction m with
  | nil => rfl
  | cons e m ih =>
    obtain ⟨a, v⟩ := e
    simp only [keys, List.map_cons, List.lookup, key_beq hg]
    cases k == a with
    | true => rfl
    | false => exact ih

theorem keys_upd {β : Type} {g : String → String} (hg : Function.Injective g) (m : List (String × β)) (k : String) (v : β) :
    upd (keys g m) (g k) v = keys g (upd m k v) := by
  unfold upd keys
  rw [List.map_cons, List.filter_map]
  congr 3
  funext e
  simp only [Function.comp, bne, key_beq hg]

/-- The maps threaded through `Compile` with their keys replaced. -/
def CState.rename (f : Names) (cs : CState W σ) : CState W σ :=
  { modules := keys f.modules cs.modules
    applications := keys f.applications cs.applications
    parameters := keys f.variables cs.parameters
    outputs := cs.outputs
    values := keys f.variables cs.values
    instructions := cs.instructions }

/-- A result whose maps have their keys replaced. -/
def renamed (f : Names) : Res (CState W σ) → Res (CState W σ)
  | .ok cs => .ok (cs.rename f)
  | .err => .err
  | .panic => .panic

variable {f : Names} (h : f.Apart) (all : List (Module W σ))
include h

theorem compileModule_rename (index : Nat) (name : String) (cs : CState W σ) :
    compileModule all index (f.modules name) (cs.rename f) = renamed f (compileModule all index name cs) := by
  unfold compileModule
  cases fetchModule all index with
  | none => rfl
  | some m =>
    simp only [CState.rename, keys_lookup h.modules]
    cases cs.modules.lookup name with
    | some _ => rfl
    | none => simp only [renamed, CState.rename, keys_upd h.modules]

theorem compileApplication_rename (module name : String) (cs : CState W σ) :
    compileApplication (f.modules module) (f.applications name) (cs.rename f) = renamed f (compileApplication module name cs) := by
  unfold compileApplication
  simp only [CState.rename, keys_lookup h.modules, keys_lookup h.applications]
  cases cs.applications.lookup name with
  | some _ => rfl
  | none =>
    cases cs.modules.lookup module with
    | none => rfl
    | some m =>
      simp only [renamed, CState.rename, keys_upd h.applications]
      simp only [keys, List.length_map]

theorem compileParameter_rename (name : String) (isInput : Bool) (cs : CState W σ) :
    compileParameter (f.variables name) isInput (cs.rename f) = renamed f (compileParameter name isInput cs) := by
  unfold compileParameter
  simp only [CState.rename, keys_lookup h.variables]
  cases cs.parameters.lookup name with
  | some _ => rfl
  | none =>
    have hl : ((keys f.variables cs.parameters).filter (fun p => p.2.isInput)).length =
        (cs.parameters.filter (fun p => p.2.isInput)).length := by
      unfold keys
      rw [List.filter_map, List.length_map]
      rfl
    simp only [renamed, CState.rename, keys_upd h.variables, hl]

theorem compileAttachmentValue_rename (current : String) (cs : CState W σ) :
    compileAttachmentValue (f.variables current) (cs.rename f) = compileAttachmentValue current cs := by
  unfold compileAttachmentValue
  simp only [CState.rename, keys_lookup h.variables]

theorem compileAttachment_rename (current : String) (target : Nat) (application : String) (cs : CState W σ) :
    compileAttachment (f.variables current) target (f.applications application) (cs.rename f) =
      renamed f (compileAttachment current target application cs) := by
  unfold compileAttachment
  rw [compileAttachmentValue_rename h]
  cases compileAttachmentValue current cs with
  | err => rfl
  | panic => rfl
  | ok v =>
    simp only [CState.rename, keys_lookup h.applications]
    cases cs.applications.lookup application with
    | none => rfl
    | some a =>
      obtain ⟨index, m, atts⟩ := a
      simp only [renamed, CState.rename, keys_upd h.applications]

theorem compileExecution_rename (application : String) (cs : CState W σ) :
    compileExecution (f.applications application) (cs.rename f) = renamed f (compileExecution application cs) := by
  unfold compileExecution
  simp only [CState.rename, keys_lookup h.applications]
  cases cs.applications.lookup application <;> rfl

theorem compileAssignment_rename (name : String) (v : PValue W σ) (cs : CState W σ) :
    compileAssignment (f.variables name) v (cs.rename f) = (compileAssignment name v cs).rename f := by
  unfold compileAssignment
  simp only [CState.rename, keys_lookup h.variables, keys_upd h.variables]

omit h

mutual
theorem compileValue_rename : ∀ (v v' : SValue) (f : Names) (_ : f.Apart) (_ : ValueRenamed f v v') (cs : CState W σ),
    compileValue all v' (cs.rename f) = compileValue all v cs
  | .var name, _, f, h, .var _, cs => by
    simp only [compileValue, CState.rename, keys_lookup h.variables]
  | .constant b, _, f, h, .constant _, cs => by simp only [compileValue]
  | .instructions list, _, f, h, .instructions f' hf (l' := l') hl, cs => by
    simp only [compileValue]
    have := compileList_rename list l' f' hf hl {}
    rw [show CState.rename f' ({} : CState W σ) = {} from rfl] at this
    rw [this]
    cases compileList all list ({} : CState W σ) <;> rfl
  | .execution name, _, f, h, .execution _, cs => by
    simp only [compileValue, CState.rename, keys_lookup h.applications]
theorem compileInstr_rename : ∀ (i i' : Instr) (f : Names) (_ : f.Apart) (_ : InstrRenamed f i i') (cs : CState W σ),
    compileInstr all i' (cs.rename f) = renamed f (compileInstr all i cs)
  | .module index name, _, f, h, .module _ _, cs => by
    simp only [compileInstr]
    exact compileModule_rename h all index name cs
  | .application module name, _, f, h, .application _ _, cs => by
    simp only [compileInstr]
    exact compileApplication_rename h module name cs
  | .parameter name isInput, _, f, h, .parameter _ _, cs => by
    simp only [compileInstr]
    exact compileParameter_rename h name isInput cs
  | .assignment name value, _, f, h, .assignment _ (v' := v') hv, cs => by
    simp only [compileInstr]
    rw [compileValue_rename value v' f h hv cs]
    cases compileValue all value cs with
    | err => rfl
    | panic => rfl
    | ok v => exact congrArg Res.ok (compileAssignment_rename h name v cs)
  | .attachment current target application, _, f, h, .attachment _ _ _, cs => by
    simp only [compileInstr]
    exact compileAttachment_rename h current target application cs
  | .execution application, _, f, h, .execution _, cs => by
    simp only [compileInstr]
    exact compileExecution_rename h application cs
theorem compileList_rename : ∀ (is is' : List Instr) (f : Names) (_ : f.Apart) (_ : InstrsRenamed f is is') (cs : CState W σ),
    compileList all is' (cs.rename f) = renamed f (compileList all is cs)
  | [], _, f, h, .nil, cs => rfl
  | i :: is, _, f, h, .cons (i' := i') (is' := is') hi his, cs => by
    simp only [compileList]
    rw [compileInstr_rename i i' f h hi cs]
    cases compileInstr all i cs with
    | err => rfl
    | panic => rfl
    | ok cs' => exact compileList_rename is is' f h his cs'
end

/-- The compiled program is the same. -/
theorem compile_rename (h : f.Apart) {list list' : List Instr} (hl : InstrsRenamed f list list') :
    compile all list' = compile all list := by
  unfold compile
  have := compileList_rename all list list' f h hl {}
  rw [show CState.rename f ({} : CState W σ) = {} from rfl] at this
  rw [this]
  cases compileList all list ({} : CState W σ) <;> rfl

end Rodkina.Interp
