import Verif.Interp
import Mathlib.Data.List.Forall2

/-!
# Values of the interpreter replaced by others
-/

namespace Rodkina.Interp

variable {W V σ : Type}

mutual
/-- A value (`interface{}`, libs/interpreters/domain/programs/modules/sdk.go:4) with everything but bytes and lists replaced. -/
def Val.repl (g : W → V) : Val W → Val V
  | .bytes b => .bytes b
  | .list l => .list (valsRepl g l)
  | .other w => .other (g w)
/-- A list of values. -/
def valsRepl (g : W → V) : List (Val W) → List (Val V)
  | [] => []
  | v :: vs => Val.repl g v :: valsRepl g vs
end

theorem valsRepl_eq (g : W → V) (l : List (Val W)) : valsRepl g l = l.map (Val.repl g) := by
  induction l with
  | nil => rfl
  | cons v l ih => rw [valsRepl, ih]; rfl

/-- Parameters with their values replaced. -/
def Params.repl (g : W → V) (ps : Params W) : Params V := fun t => (ps t).map (Val.repl g)

/-- A result with its value replaced. -/
def resRepl (g : W → V) : Res (Val W) → Res (Val V)
  | .ok v => .ok (v.repl g)
  | .err => .err
  | .panic => .panic

/-- A module on replaced values in the place of another (libs/interpreters/domain/programs/modules/module.go:3-28): same index,
and for replaced parameters its function gives the replaced result, with the same effects. -/
structure Follows (g : W → V) (m : Module W σ) (m' : Module V σ) : Prop where
  index : m'.index = m.index
  fn : ∀ ps s, m'.fn (ps.repl g) s = (resRepl g (m.fn ps s).1, (m.fn ps s).2)

variable {U τ : Type}

mutual
/-- A program (libs/interpreters/domain/programs/program.go:3-46) with its modules replaced. -/
def Program.repl (Φ : Module U τ → Module V σ) : Program U τ → Program V σ
  | .mk is outputs => .mk (instrsRepl Φ is) outputs
/-- Its instructions. -/
def instrsRepl (Φ : Module U τ → Module V σ) : List (PInstr U τ) → List (PInstr V σ)
  | [] => []
  | i :: is => PInstr.repl Φ i :: instrsRepl Φ is
/-- An instruction (libs/interpreters/domain/programs/instruction.go:3-50). -/
def PInstr.repl (Φ : Module U τ → Module V σ) : PInstr U τ → PInstr V σ
  | .value v => .value (PValue.repl Φ v)
  | .execution a => .execution (App.repl Φ a)
/-- A value (libs/interpreters/domain/programs/value.go:3-88). -/
def PValue.repl (Φ : Module U τ → Module V σ) : PValue U τ → PValue V σ
  | .input i => .input i
  | .constant b => .constant b
  | .execution a => .execution (App.repl Φ a)
  | .program p => .program (Program.repl Φ p)
/-- An application (libs/interpreters/domain/programs/application.go:7-60). -/
def App.repl (Φ : Module U τ → Module V σ) : App U τ → App V σ
  | .mk index m atts => .mk index (Φ m) (attsRepl Φ atts)
/-- Its attachments (libs/interpreters/domain/programs/attachment.go:3-28). -/
def attsRepl (Φ : Module U τ → Module V σ) : List (Attachment U τ) → List (Attachment V σ)
  | [] => []
  | .mk v t :: rest => .mk (PValue.repl Φ v) t :: attsRepl Φ rest
end

variable {g : W → V} {Φ : Module U τ → Module V σ}

theorem instrsRepl_eq (is : List (PInstr U τ)) : instrsRepl Φ is = is.map (PInstr.repl Φ) := by
  induction is with
  | nil => rfl
  | cons i is ih => rw [instrsRepl, ih]; rfl

theorem attsRepl_append (a b : List (Attachment U τ)) : attsRepl Φ (a ++ b) = attsRepl Φ a ++ attsRepl Φ b := by
  induction a with
  | nil => rfl
  | cons x a ih =>
    obtain ⟨v, t⟩ := x
    simp only [List.cons_append, attsRepl, ih]

/-! ## Execution -/

/-- An outcome with its value replaced. -/
def Outcome.repl {α β : Type} (k : α → β) : Outcome α → Outcome β
  | .ok a => .ok (k a)
  | .fail r => .fail r
  | .panic => .panic

/-- The second execution does what the first does, on replaced values. -/
def ESim {α β : Type} (k : α → β) (m : EM σ α) (m' : EM σ β) : Prop := ∀ s, m' s = ((m s).1.repl k, (m s).2)

theorem ESim.pure {α β : Type} {k : α → β} {a : α} {b : β} (h : b = k a) :
    ESim (σ := σ) k (Pure.pure a) (Pure.pure b) := fun _ => by subst h; rfl

theorem ESim.fail {α β : Type} (k : α → β) (r : Reason) : ESim (σ := σ) k (EM.fail r) (EM.fail r) := fun _ => rfl

theorem ESim.bind {α β γ δ : Type} {k : α → β} {l : γ → δ} {m : EM σ α} {m' : EM σ β} {f : α → EM σ γ} {f' : β → EM σ δ}
    (hm : ESim k m m') (hf : ∀ a, ESim l (f a) (f' (k a))) : ESim l (m >>= f) (m' >>= f') := by
  intro s
  show EM.andThen m' f' s = ((EM.andThen m f s).1.repl l, (EM.andThen m f s).2)
  unfold EM.andThen
  rw [hm s]
  generalize m s = r
  obtain ⟨o, s'⟩ := r
  cases o with
  | ok a => exact hf a s'
  | fail r => rfl
  | panic => rfl

theorem callModule_repl {m : Module W σ} {m' : Module V σ} (h : Follows g m m') (ps : Params W) :
    ESim (Val.repl g) (callModule m ps) (callModule m' (ps.repl g)) := by
  intro s
  unfold callModule
  rw [h.fn]
  generalize m.fn ps s = r
  obtain ⟨o, s'⟩ := r
  cases o <;> rfl

/-- The results of instructions with their values replaced. -/
def indexedRepl (g : W → V) (values : List (Nat × Val W)) : List (Nat × Val V) := values.map (fun e => (e.1, e.2.repl g))

theorem indexedRepl_lookup (values : List (Nat × Val W)) (o : Nat) :
    (indexedRepl g values).lookup o = (values.lookup o).map (Val.repl g) := by
  induction values with
  | nil => rfl
  | cons e values ih =>
    obtain ⟨i, v⟩ := e
    simp only [indexedRepl, List.map_cons, List.lookup]
    cases o == i with
    | true => rfl
    | false => exact ih

theorem collect_repl (values : List (Nat × Val W)) (os : List Nat) :
    ESim (σ := σ) (List.map (Val.repl g)) (collect values os) (collect (indexedRepl g values) os) := by
  induction os with
  | nil => exact ESim.pure rfl
  | cons o os ih =>
    unfold collect
    rw [indexedRepl_lookup]
    cases values.lookup o with
    | none => exact ESim.fail _ _
    | some v => exact ESim.bind ih (fun rest => ESim.pure rfl)

theorem Params.repl_set (ps : Params W) (t : Nat) (v : Val W) : (ps.set t v).repl g = (ps.repl g).set t (v.repl g) := by
  funext i
  simp only [Params.repl, Params.set]
  split <;> rfl

variable {Ψ : Module U τ → Module W σ}

mutual
theorem execProgram_repl (h : ∀ m, Follows g (Ψ m) (Φ m)) (input : List (Val W)) : ∀ p : Program U τ,
    ESim (List.map (Val.repl g)) (execProgram input (p.repl Ψ)) (execProgram (input.map (Val.repl g)) (p.repl Φ))
  | .mk is outputs => by
    simp only [Program.repl, execProgram]
    exact ESim.bind (execInstrs_repl h input is 0 []) (fun values => collect_repl values outputs)
theorem execInstrs_repl (h : ∀ m, Follows g (Ψ m) (Φ m)) (input : List (Val W)) : ∀ (is : List (PInstr U τ)) (idx : Nat) (values : List (Nat × Val W)),
    ESim (indexedRepl g) (execInstrs input (instrsRepl Ψ is) idx values)
      (execInstrs (input.map (Val.repl g)) (instrsRepl Φ is) idx (indexedRepl g values))
  | [], idx, values => by
    simp only [instrsRepl, execInstrs]
    exact ESim.pure rfl
  | .value v :: is, idx, values => by
    simp only [instrsRepl, PInstr.repl, execInstrs]
    exact ESim.bind (execValue_repl h input v) (fun x => execInstrs_repl h input is (idx + 1) ((idx, x) :: values))
  | .execution a :: is, idx, values => by
    simp only [instrsRepl, PInstr.repl, execInstrs]
    exact ESim.bind (execApp_repl h input a) (fun _ => execInstrs_repl h input is (idx + 1) values)
theorem execValue_repl (h : ∀ m, Follows g (Ψ m) (Φ m)) (input : List (Val W)) : ∀ v : PValue U τ,
    ESim (Val.repl g) (execValue input (v.repl Ψ)) (execValue (input.map (Val.repl g)) (v.repl Φ))
  | .input i => by
    simp only [PValue.repl, execValue, List.getElem?_map]
    cases input[i]? with
    | none => exact ESim.fail _ _
    | some v => exact ESim.pure rfl
  | .constant b => by
    simp only [PValue.repl, execValue]
    exact ESim.pure (by simp only [Val.repl])
  | .program p => by
    simp only [PValue.repl, execValue]
    exact ESim.bind (execProgram_repl h input p) (fun l => ESim.pure (by simp only [Val.repl, valsRepl_eq]))
  | .execution a => by
    simp only [PValue.repl, execValue]
    exact execApp_repl h input a
theorem execApp_repl (h : ∀ m, Follows g (Ψ m) (Φ m)) (input : List (Val W)) : ∀ a : App U τ,
    ESim (Val.repl g) (execApp input (a.repl Ψ)) (execApp (input.map (Val.repl g)) (a.repl Φ))
  | .mk _ m atts => by
    simp only [App.repl, execApp]
    exact ESim.bind (execAttachments_repl h input atts (fun _ => none)) (fun ps => callModule_repl (h m) ps)
theorem execAttachments_repl (h : ∀ m, Follows g (Ψ m) (Φ m)) (input : List (Val W)) : ∀ (atts : List (Attachment U τ)) (ps : Params W),
    ESim (Params.repl g) (execAttachments input (attsRepl Ψ atts) ps)
      (execAttachments (input.map (Val.repl g)) (attsRepl Φ atts) (ps.repl g))
  | [], ps => by
    simp only [attsRepl, execAttachments]
    exact ESim.pure rfl
  | .mk v t :: rest, ps => by
    simp only [attsRepl, execAttachments]
    refine ESim.bind (execValue_repl h input v) (fun x => ?_)
    rw [← Params.repl_set]
    exact execAttachments_repl h input rest (ps.set t x)
end

/-! ## Compilation -/

/-- A map with its values replaced. -/
def entries {β γ : Type} (k : β → γ) (m : List (String × β)) : List (String × γ) := m.map (fun e => (e.1, k e.2))

theorem entries_lookup {β γ : Type} (k : β → γ) (m : List (String × β)) (n : String) :
    (entries k m).lookup n = (m.lookup n).map k := by
  induction m with
  | nil => rfl
  | cons e m ih =>
    obtain ⟨a, v⟩ := e
    simp only [entries, List.map_cons, List.lookup]
    cases n == a with
    | true => rfl
    | false => exact ih

theorem entries_upd {β γ : Type} (k : β → γ) (m : List (String × β)) (n : String) (v : β) :
    upd (entries k m) n (k v) = entries k (upd m n v) := by
  unfold upd entries
  rw [List.map_cons, List.filter_map]
  rfl

/-- The maps threaded through `Compile` with their modules replaced. -/
def CState.repl (Φ : Module U τ → Module V σ) (cs : CState U τ) : CState V σ :=
  { modules := entries Φ cs.modules
    applications := entries (App.repl Φ) cs.applications
    parameters := cs.parameters
    outputs := cs.outputs
    values := entries (PValue.repl Φ) cs.values
    instructions := cs.instructions.map (PInstr.repl Φ) }

/-- A result of any kind with its value replaced. -/
def resMap {α β : Type} (k : α → β) : Res α → Res β
  | .ok a => .ok (k a)
  | .err => .err
  | .panic => .panic

theorem fetchModule_repl (h : ∀ m, (Φ m).index = m.index) (all : List (Module U τ)) (index : Nat) :
    fetchModule (all.map Φ) index = (fetchModule all index).map Φ := by
  unfold fetchModule
  rw [← List.map_reverse, List.find?_map]
  congr 2
  funext m
  simp only [Function.comp, h]

theorem program_repl (cs : CState U τ) : program (cs.repl Φ) = resMap (Program.repl Φ) (program cs) := by
  unfold program CState.repl
  cases hi : cs.instructions <;> simp [resMap, Program.repl, instrsRepl_eq]

mutual
theorem compileValue_repl (h : ∀ m, (Φ m).index = m.index) (all : List (Module U τ)) : ∀ (v : SValue) (cs : CState U τ),
    compileValue (all.map Φ) v (cs.repl Φ) = resMap (PValue.repl Φ) (compileValue all v cs)
  | .var name, cs => by
    simp only [compileValue, CState.repl]
    cases cs.parameters.lookup name with
    | none => rfl
    | some p => dsimp only; split <;> simp [resMap, PValue.repl]
  | .constant b, cs => by simp only [compileValue, resMap, PValue.repl]
  | .instructions list, cs => by
    simp only [compileValue]
    have := compileList_repl h all list {}
    rw [show CState.repl Φ ({} : CState U τ) = {} from rfl] at this
    rw [this]
    cases compileList all list ({} : CState U τ) with
    | err => rfl
    | panic => rfl
    | ok cs' =>
      simp only [resMap, program_repl]
      cases program cs' with
      | err => rfl
      | panic => rfl
      | ok p => simp only [resMap, PValue.repl]
  | .execution name, cs => by
    simp only [compileValue, CState.repl, entries_lookup]
    cases cs.applications.lookup name with
    | none => rfl
    | some a => simp only [Option.map_some, resMap, PValue.repl]
theorem compileInstr_repl (h : ∀ m, (Φ m).index = m.index) (all : List (Module U τ)) : ∀ (i : Instr) (cs : CState U τ),
    compileInstr (all.map Φ) i (cs.repl Φ) = resMap (CState.repl Φ) (compileInstr all i cs)
  | .module index name, cs => by
    simp only [compileInstr, compileModule, fetchModule_repl h]
    cases fetchModule all index with
    | none => rfl
    | some m =>
      simp only [Option.map_some, CState.repl, entries_lookup]
      cases cs.modules.lookup name with
      | some _ => rfl
      | none => simp only [Option.map_none, resMap, CState.repl, entries_upd]
  | .application module name, cs => by
    simp only [compileInstr, compileApplication, CState.repl, entries_lookup]
    cases cs.applications.lookup name with
    | some _ => rfl
    | none =>
      cases cs.modules.lookup module with
      | none => rfl
      | some m =>
        simp only [Option.map_none, Option.map_some, resMap, CState.repl, ← entries_upd, App.repl, attsRepl]
        simp only [entries, List.length_map]
  | .parameter name isInput, cs => by
    simp only [compileInstr, compileParameter, CState.repl]
    cases cs.parameters.lookup name <;> rfl
  | .assignment name value, cs => by
    simp only [compileInstr]
    rw [compileValue_repl h all value cs]
    cases compileValue all value cs with
    | err => rfl
    | panic => rfl
    | ok v =>
      simp only [resMap, compileAssignment, CState.repl, ← entries_upd, List.map_append, List.length_map, List.map_cons, List.map_nil,
        PInstr.repl]
  | .attachment current target application, cs => by
    simp only [compileInstr, compileAttachment]
    have hv : compileAttachmentValue current (cs.repl Φ) = resMap (PValue.repl Φ) (compileAttachmentValue current cs) := by
      unfold compileAttachmentValue
      simp only [CState.repl, entries_lookup]
      cases cs.values.lookup current with
      | some v => rfl
      | none =>
        cases cs.parameters.lookup current with
        | none => rfl
        | some p => dsimp only [Option.map_none]; split <;> simp [resMap, PValue.repl]
    rw [hv]
    cases compileAttachmentValue current cs with
    | err => rfl
    | panic => rfl
    | ok v =>
      simp only [resMap, CState.repl, entries_lookup]
      cases cs.applications.lookup application with
      | none => rfl
      | some a =>
        obtain ⟨index, m, atts⟩ := a
        simp only [Option.map_some, App.repl, resMap, CState.repl, ← entries_upd, attsRepl_append, attsRepl]
  | .execution application, cs => by
    simp only [compileInstr, compileExecution, CState.repl, entries_lookup]
    cases cs.applications.lookup application with
    | none => rfl
    | some a =>
      simp only [Option.map_some, resMap, CState.repl, List.map_append, List.map_cons, List.map_nil, PInstr.repl]
theorem compileList_repl (h : ∀ m, (Φ m).index = m.index) (all : List (Module U τ)) : ∀ (is : List Instr) (cs : CState U τ),
    compileList (all.map Φ) is (cs.repl Φ) = resMap (CState.repl Φ) (compileList all is cs)
  | [], cs => by simp only [compileList, resMap]
  | i :: is, cs => by
    simp only [compileList]
    rw [compileInstr_repl h all i cs]
    cases compileInstr all i cs with
    | err => rfl
    | panic => rfl
    | ok cs' => exact compileList_repl h all is cs'
end

theorem compile_repl (h : ∀ m, (Φ m).index = m.index) (all : List (Module U τ)) (src : List Instr) :
    compile (all.map Φ) src = resMap (Program.repl Φ) (compile all src) := by
  unfold compile
  have := compileList_repl h all src {}
  rw [show CState.repl Φ ({} : CState U τ) = {} from rfl] at this
  rw [this]
  cases compileList all src ({} : CState U τ) with
  | err => rfl
  | panic => rfl
  | ok cs => exact program_repl cs

/-! ## Two lists of modules -/

/-- The module of a pair a stand-in is for; a module that fails if it is for none. -/
def standFor {X : Type} (l : List (Module X σ)) (m : Module Unit Nat) : Module X σ :=
  match l[(m.fn (fun _ => none) 0).2]? with
  | some x => { index := m.index, fn := x.fn }
  | none => { index := m.index, fn := fun _ s => (.err, s) }

/-- A stand-in for the module at a position. -/
def standIn (index i : Nat) : Module Unit Nat := ⟨index, fun _ _ => (.err, i)⟩

/-- The stand-ins for a list of modules. -/
def standIns {X : Type} (l : List (Module X σ)) : List (Module Unit Nat) :=
  l.zipIdx.map (fun e => standIn e.1.index e.2)

theorem standIns_standFor {X : Type} (l : List (Module X σ)) : (standIns l).map (standFor l) = l := by
  apply List.ext_getElem?
  intro i
  simp only [standIns, List.map_map, List.getElem?_map, List.getElem?_zipIdx]
  cases hi : l[i]? with
  | none => rfl
  | some x => simp [standFor, standIn, hi]

theorem standIns_follow {l : List (Module W σ)} {l' : List (Module V σ)} (h : List.Forall₂ (Follows g) l l') :
    standIns l' = standIns l := by
  have hl := h.length_eq
  apply List.ext_getElem?
  intro i
  simp only [standIns, List.getElem?_map, List.getElem?_zipIdx]
  by_cases hi : i < l.length
  · have := (List.forall₂_iff_get.mp h).2 i hi (hl ▸ hi)
    simp only [List.get_eq_getElem] at this
    simp [List.getElem?_eq_getElem hi, List.getElem?_eq_getElem (hl ▸ hi : i < l'.length), this.index]
  · rw [List.getElem?_eq_none (by omega), List.getElem?_eq_none (by omega)]
    rfl

theorem standFor_index {X : Type} (l : List (Module X σ)) (m : Module Unit Nat) : (standFor l m).index = m.index := by
  unfold standFor
  split <;> rfl

theorem standFor_follow {l : List (Module W σ)} {l' : List (Module V σ)} (h : List.Forall₂ (Follows g) l l') (m : Module Unit Nat) :
    Follows g (standFor l m) (standFor l' m) := by
  have hl := h.length_eq
  refine ⟨by rw [standFor_index, standFor_index], ?_⟩
  unfold standFor
  generalize (m.fn (fun _ => none) 0).2 = i
  by_cases hi : i < l.length
  · have := (List.forall₂_iff_get.mp h).2 i hi (hl ▸ hi)
    simp only [List.get_eq_getElem] at this
    rw [List.getElem?_eq_getElem hi, List.getElem?_eq_getElem (hl ▸ hi : i < l'.length)]
    exact this.fn
  · rw [List.getElem?_eq_none (by omega), List.getElem?_eq_none (by omega)]
    intro ps s
    rfl

end Rodkina.Interp
